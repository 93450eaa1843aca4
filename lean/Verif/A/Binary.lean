import Verif.Py.Basic
import Verif.Py.Bin

/-! # Model of a/_binary and a/evil_odious, properties C19 and C20 -/

namespace Verif.A
open Verif.Py

/-! ## Model -/

/-- a/_binary/__init__.py:5-9, the loop with counter; fuel at least `n` is enough. -/
def intToExposetLoop : Nat → Nat → Nat → List Nat
  | 0, _, _ => []
  | f + 1, n, count =>
    if n > 0 then
      if n % 2 ≠ 0 then count :: intToExposetLoop f (n / 2) (count + 1)
      else intToExposetLoop f (n / 2) (count + 1)
    else []

/-- a/_binary/__init__.py:1-10 (for natural arguments; negative ones give `[]`). -/
def intToExposet (n : Nat) : List Nat := intToExposetLoop n n 0

/-- a/_binary/__init__.py:13-15; a generator sum over the given iterable. -/
def exposetToInt (exposet : List Nat) : Nat := (exposet.map (1 <<< ·)).sum

/-- a/_binary/__init__.py:18-26, the loop state is `(place, result)`. -/
def vectorToInt (vector : List Bool) : Nat :=
  (vector.foldl (fun pr digit => (pr.1 + 1, if digit then pr.2 + 1 <<< pr.1 else pr.2)) (0, 0)).2

/-- a/_binary/__init__.py:29-30; `bin(n).count('1')`. -/
def intToWeight (n : Nat) : Nat := (binLE n).count true

/-- a/evil_odious/__init__.py:6-9 (integers, so that the error case is visible). -/
def indexToEvil (i : Int) : Except Err Nat :=
  if i ≥ 0 then .ok (2 * i.toNat + intToWeight i.toNat % 2) else .error .argValue

/-- a/evil_odious/__init__.py:12-16 -/
def indexToOdious (i : Int) : Except Err Nat :=
  if i ≥ 0 then .ok (2 * i.toNat + (if intToWeight i.toNat % 2 ≠ 0 then 0 else 1)) else .error .argValue

/-- a/evil_odious/__init__.py:19-22 -/
def evilToIndex (evil : Int) : Except Err Nat :=
  if evil ≥ 0 then
    if intToWeight evil.toNat % 2 = 0 then .ok (evil.toNat >>> 1) else .error .argValue
  else .error .argValue

/-- a/evil_odious/__init__.py:25-28 -/
def odiousToIndex (odious : Int) : Except Err Nat :=
  if odious ≥ 0 then
    if intToWeight odious.toNat % 2 = 1 then .ok (odious.toNat >>> 1) else .error .argValue
  else .error .argValue

/-! ## Lemmas -/

theorem intToExposetLoop_eq (f n c : Nat) (h : n ≤ f) :
    intToExposetLoop f n c = n.bitIndices.map (· + c) := by
  induction f generalizing n c with
  | zero => have : n = 0 := by omega
            subst this; simp [intToExposetLoop]
  | succ f ih =>
    unfold intToExposetLoop
    by_cases h0 : n = 0
    · simp [h0]
    · rw [if_pos (by omega), ih _ _ (by omega)]
      rcases Nat.mod_two_eq_zero_or_one n with h2 | h2
      · rw [if_neg (by omega)]
        conv_rhs => rw [show n = 2 * (n / 2) by omega, Nat.bitIndices_two_mul, List.map_map]
        apply List.map_congr_left; intro a _; simp; omega
      · rw [if_pos (by omega)]
        conv_rhs => rw [show n = 2 * (n / 2) + 1 by omega, Nat.bitIndices_two_mul_add_one, List.map_cons, List.map_map]
        congr 1
        · omega
        · apply List.map_congr_left; intro a _; simp; omega

theorem intToExposet_eq (n : Nat) : intToExposet n = n.bitIndices := by
  unfold intToExposet
  rw [intToExposetLoop_eq n n 0 (Nat.le_refl _)]
  simp

theorem exposetToInt_eq (s : List Nat) : exposetToInt s = (s.map (2 ^ ·)).sum := by
  unfold exposetToInt
  congr 1
  apply List.map_congr_left; intro a _; rw [Nat.shiftLeft_eq, Nat.one_mul]

theorem count_eq_bitIndices (l : List Bool) : l.count true = (valB l).bitIndices.length := by
  induction l with
  | nil => simp [valB]
  | cons b bs ih =>
    rw [valB]
    cases b
    · simp [ih]
    · rw [Bool.toNat_true, Nat.add_comm, Nat.bitIndices_two_mul_add_one]
      simp [ih]

theorem intToWeight_eq (n : Nat) : intToWeight n = n.bitIndices.length := by
  unfold intToWeight
  rw [count_eq_bitIndices, valB_binLE]

theorem vectorToInt_loop (l : List Bool) (p r : Nat) :
    (l.foldl (fun pr digit => (pr.1 + 1, if digit then pr.2 + 1 <<< pr.1 else pr.2)) (p, r)).2 =
      r + 2 ^ p * valB l := by
  induction l generalizing p r with
  | nil => simp [valB]
  | cons b bs ih =>
    rw [List.foldl_cons, ih, valB, Nat.pow_succ]
    cases b
    · simp; ring
    · simp [Nat.shiftLeft_eq]; ring

theorem vectorToInt_eq (l : List Bool) : vectorToInt l = valB l := by
  unfold vectorToInt; rw [vectorToInt_loop]; simp

/-! ## C19 -/

theorem C19_exposet_of_int (n i : Nat) : i ∈ intToExposet n ↔ n.testBit i = true := by
  rw [intToExposet_eq, Nat.mem_bitIndices]

theorem C19_exposet_sorted (n : Nat) : (intToExposet n).Pairwise (· < ·) := by
  rw [intToExposet_eq]; exact Nat.bitIndices_sorted.pairwise

theorem C19_int_roundtrip (n : Nat) : exposetToInt (intToExposet n) = n := by
  rw [exposetToInt_eq, intToExposet_eq, Nat.sum_map_two_pow_bitIndices]

theorem C19_exposet_roundtrip (s : List Nat) (hs : s.Pairwise (· < ·)) : intToExposet (exposetToInt s) = s := by
  rw [exposetToInt_eq, intToExposet_eq, Nat.bitIndices_sum_map_two_pow (List.sortedLT_iff_pairwise.2 hs)]

example : [1, 3, 4].Pairwise (· < ·) ∧ exposetToInt [1, 3, 4] = 26 ∧ intToExposet 26 = [1, 3, 4] := by decide

theorem C19_weight (n : Nat) : intToWeight n = (intToExposet n).length := by
  rw [intToWeight_eq, intToExposet_eq]

/-- Bit `i` of the integer is entry `i` of the vector, so the vector's length bounds the integer. -/
theorem C19_vector_to_int (v : List Bool) :
    (∀ i, (vectorToInt v).testBit i = v.getD i false) ∧ vectorToInt v < 2 ^ v.length := by
  rw [vectorToInt_eq]; exact ⟨testBit_valB v, valB_lt v⟩

example : vectorToInt [false, true, false, true, true] = 26 ∧ intToWeight 26 = 3 := by decide

/-! ## C20 -/

/-- Number of ones, as specification: the number of places below `n` with bit set (higher bits are zero). -/
def Evil (n : Nat) : Prop := ((List.range n).countP (fun i => n.testBit i)) % 2 = 0

theorem weight_spec (n : Nat) : (List.range n).countP (fun i => n.testBit i) = intToWeight n := by
  rw [intToWeight_eq, List.countP_eq_length_filter]
  apply List.Perm.length_eq
  rw [List.perm_ext_iff_of_nodup (List.nodup_range.filter _) Nat.bitIndices_nodup]
  intro i
  rw [List.mem_filter, Nat.mem_bitIndices, List.mem_range]
  constructor
  · rintro ⟨_, h⟩; exact h
  · intro h
    refine ⟨?_, h⟩
    have := Nat.ge_two_pow_of_testBit h
    exact lt_of_lt_of_le (Nat.lt_two_pow_self) this

theorem evil_iff (n : Nat) : Evil n ↔ intToWeight n % 2 = 0 := by unfold Evil; rw [weight_spec]

theorem weight_two_mul (n : Nat) : intToWeight (2 * n) = intToWeight n := by
  simp [intToWeight_eq]

theorem weight_two_mul_add_one (n : Nat) : intToWeight (2 * n + 1) = intToWeight n + 1 := by
  simp [intToWeight_eq]

theorem C20_index_to_evil (i : Nat) : ∃ e, indexToEvil i = .ok e ∧ Evil e ∧ evilToIndex e = .ok i := by
  refine ⟨_, by simp [indexToEvil]; rfl, ?_, ?_⟩
  · rw [evil_iff]
    rcases Nat.mod_two_eq_zero_or_one (intToWeight i) with h | h
    · rw [h, Nat.add_zero, weight_two_mul, h]
    · rw [h, weight_two_mul_add_one]; omega
  · unfold evilToIndex
    rw [if_pos (by omega), Int.toNat_natCast]
    have h2 : intToWeight (2 * i + intToWeight i % 2) % 2 = 0 := by
      rcases Nat.mod_two_eq_zero_or_one (intToWeight i) with h | h
      · rw [h, Nat.add_zero, weight_two_mul, h]
      · rw [h, weight_two_mul_add_one]; omega
    rw [if_pos h2, Nat.shiftRight_eq_div_pow]
    congr 1; omega

theorem C20_index_to_odious (i : Nat) : ∃ e, indexToOdious i = .ok e ∧ ¬ Evil e ∧ odiousToIndex e = .ok i := by
  have h2 : intToWeight (2 * i + if intToWeight i % 2 ≠ 0 then 0 else 1) % 2 = 1 := by
    rcases Nat.mod_two_eq_zero_or_one (intToWeight i) with h | h
    · rw [if_neg (by omega), weight_two_mul_add_one]; omega
    · rw [if_pos (by omega), Nat.add_zero, weight_two_mul, h]
  refine ⟨_, by simp only [indexToOdious]; rw [if_pos (by omega), Int.toNat_natCast], ?_, ?_⟩
  · rw [evil_iff]; omega
  · unfold odiousToIndex
    rw [if_pos (by omega), Int.toNat_natCast, if_pos h2, Nat.shiftRight_eq_div_pow]
    congr 1
    split <;> omega

theorem C20_evil_to_index (n : Nat) :
    (Evil n → ∃ i : Nat, evilToIndex n = .ok i ∧ indexToEvil i = .ok n) ∧
    (¬ Evil n → evilToIndex n = .error .argValue) := by
  rw [evil_iff]
  unfold evilToIndex indexToEvil
  constructor
  · intro h
    refine ⟨n / 2, ?_, ?_⟩
    · rw [if_pos (by omega), Int.toNat_natCast, if_pos h, Nat.shiftRight_eq_div_pow]
    · rw [if_pos (by omega), Int.toNat_natCast]
      congr 1
      rcases Nat.mod_two_eq_zero_or_one n with h2 | h2
      · rw [show n = 2 * (n / 2) by omega, weight_two_mul] at h; omega
      · rw [show n = 2 * (n / 2) + 1 by omega, weight_two_mul_add_one] at h; omega
  · intro h
    rw [if_pos (by omega), Int.toNat_natCast, if_neg h]

theorem C20_odious_to_index (n : Nat) :
    (¬ Evil n → ∃ i : Nat, odiousToIndex n = .ok i ∧ indexToOdious i = .ok n) ∧
    (Evil n → odiousToIndex n = .error .argValue) := by
  rw [evil_iff]
  unfold odiousToIndex indexToOdious
  constructor
  · intro h
    refine ⟨n / 2, ?_, ?_⟩
    · rw [if_pos (by omega), Int.toNat_natCast, if_pos (by omega), Nat.shiftRight_eq_div_pow]
    · rw [if_pos (by omega), Int.toNat_natCast]
      congr 1
      rcases Nat.mod_two_eq_zero_or_one n with h2 | h2
      · rw [show n = 2 * (n / 2) by omega, weight_two_mul] at h; rw [if_pos (by omega)]; omega
      · rw [show n = 2 * (n / 2) + 1 by omega, weight_two_mul_add_one] at h; rw [if_neg (by omega)]; omega
  · intro h
    rw [if_pos (by omega), Int.toNat_natCast, if_neg (by omega)]

theorem C20_strictly_monotone (i j : Nat) (h : i < j) :
    (∃ a b, indexToEvil i = .ok a ∧ indexToEvil j = .ok b ∧ a < b) ∧
    (∃ a b, indexToOdious i = .ok a ∧ indexToOdious j = .ok b ∧ a < b) := by
  unfold indexToEvil indexToOdious
  constructor
  · refine ⟨_, _, if_pos (by omega), if_pos (by omega), ?_⟩
    rw [Int.toNat_natCast, Int.toNat_natCast]; omega
  · refine ⟨_, _, if_pos (by omega), if_pos (by omega), ?_⟩
    rw [Int.toNat_natCast, Int.toNat_natCast]; split <;> split <;> omega

theorem C20_negative (i : Int) (h : i < 0) : indexToEvil i = .error .argValue ∧ indexToOdious i = .error .argValue ∧
    evilToIndex i = .error .argValue ∧ odiousToIndex i = .error .argValue := by
  have : ¬ i ≥ 0 := by omega
  simp [indexToEvil, indexToOdious, evilToIndex, odiousToIndex, this]

example : indexToEvil 5 = .ok 10 ∧ indexToOdious 5 = .ok 11 ∧ evilToIndex 10 = .ok 5 ∧
    evilToIndex 11 = .error .argValue := by decide

end Verif.A
