import Verif.Boolf.Props6
import Verif.Boolf.Model3

/-!
# Property C72: noble Boolean functions
-/

namespace Verif.BF
open Verif.Py Verif.BV Verif.P Verif.W
open Verif.A hiding Mat

/-- A noble for the arity `n`: a truth table (as number) that is its own twin.  The entry `j` is the parity of the number of true places whose digits are
contained in those of `j`. -/
def Noble (n z : Nat) : Prop :=
  z < 2 ^ 2 ^ n ∧ ∀ j < 2 ^ n, z.testBit j = decide (OddMany (2 ^ n) fun i => z.testBit i = true ∧ i &&& j = i)

theorem noble_iff {n z : Nat} : Noble n z ↔ z < 2 ^ 2 ^ n ∧ ∀ j < 2 ^ n, z.testBit j = subXor n z.testBit j := by
  unfold Noble
  simp only [subXor_odd]

theorem noble_iff_twin {n z : Nat} (hz : z < 2 ^ 2 ^ n) : Noble n z ↔ twinInt z n = .ok z := by
  obtain ⟨t, t1, t2, t3⟩ := twinInt_eq hz
  rw [noble_iff, t1]
  constructor
  · rintro ⟨_, h⟩
    refine congrArg Except.ok (Nat.eq_of_testBit_eq fun i => ?_)
    by_cases hi : i < 2 ^ n
    · rw [t3 i hi, ← h i hi]
    · rw [testBit_of_lt t2 (by omega), testBit_of_lt hz (by omega)]
  · intro h
    refine ⟨hz, fun j hj => ?_⟩
    have := t3 j hj
    rwa [Except.ok.inj h] at this

/-- bits of the upper half -/
theorem testBit_upper (m z j : Nat) : (z / 2 ^ 2 ^ m).testBit j = z.testBit (2 ^ m + j) := by
  rw [Nat.testBit_div_two_pow, Nat.add_comm]

theorem subXor_high {m : Nat} (v : Nat → Bool) {j : Nat} (hj : j < 2 ^ m) :
    subXor (m + 1) v (2 ^ m + j) = (subXor m v j ^^ subXor m (fun i => v (2 ^ m + i)) j) := by
  rw [subXor_succ, testBit_high hj, if_pos rfl, Nat.add_mod_left, Nat.mod_eq_of_lt hj, Bool.true_and]

theorem subXor_low {m : Nat} (v : Nat → Bool) {j : Nat} (hj : j < 2 ^ m) : subXor (m + 1) v j = subXor m v j := by
  rw [subXor_succ, Nat.testBit_lt_two_pow hj, Nat.mod_eq_of_lt hj, Bool.false_and, Bool.xor_false]

theorem two_pow_succ (m : Nat) : 2 ^ (m + 1) = 2 ^ m + 2 ^ m := by rw [Nat.pow_succ]; omega

/-- The lower half of a noble is the sum of the upper half and its twin. -/
theorem noble_succ {m z : Nat} (hz : z < 2 ^ 2 ^ (m + 1)) :
    Noble (m + 1) z ↔ ∀ j < 2 ^ m, z.testBit j = (z.testBit (2 ^ m + j) ^^ subXor m (fun i => z.testBit (2 ^ m + i)) j) := by
  rw [noble_iff, two_pow_succ]
  constructor
  · rintro ⟨_, h⟩ j hj
    have h1 := h (2 ^ m + j) (by omega)
    have h2 := h j (by omega)
    rw [subXor_high _ hj] at h1
    rw [subXor_low _ hj] at h2
    rw [h1, ← h2]
    cases z.testBit j <;> simp
  · intro h
    rw [two_pow_succ] at hz
    refine ⟨hz, fun j hj => ?_⟩
    have e : ∀ j < 2 ^ m, subXor m z.testBit j = z.testBit j := by
      intro j hj
      rw [subXor_congr h, subXor_xor, subXor_subXor m _ hj, h j hj, Bool.xor_comm]
    by_cases hlt : j < 2 ^ m
    · rw [subXor_low _ hlt, e j hlt]
    · obtain ⟨k, rfl⟩ : ∃ k, j = 2 ^ m + k := ⟨j - 2 ^ m, by omega⟩
      rw [subXor_high _ (by omega), e k (by omega), h k (by omega)]
      cases subXor m (fun i => z.testBit (2 ^ m + i)) k <;> simp

/-- Two nobles with the same upper half are equal. -/
theorem noble_ext {m y z : Nat} (hy : Noble (m + 1) y) (hz : Noble (m + 1) z) (h : y / 2 ^ 2 ^ m = z / 2 ^ 2 ^ m) : y = z := by
  have e : ∀ j, y.testBit (2 ^ m + j) = z.testBit (2 ^ m + j) := fun j => by rw [← testBit_upper, ← testBit_upper, h]
  apply Nat.eq_of_testBit_eq
  intro i
  by_cases hi : i < 2 ^ m
  · rw [(noble_succ hy.1).1 hy i hi, (noble_succ hz.1).1 hz i hi, e]
    exact congrArg _ (subXor_congr (fun k _ => e k) i)
  · obtain ⟨k, rfl⟩ : ∃ k, i = 2 ^ m + k := ⟨i - 2 ^ m, by omega⟩
    exact e k

theorem upper_lt {m z : Nat} (hz : z < 2 ^ 2 ^ (m + 1)) : z / 2 ^ 2 ^ m < 2 ^ 2 ^ m := by
  rw [Nat.div_lt_iff_lt_mul (Nat.two_pow_pos _), ← Nat.pow_add, ← two_pow_succ]; exact hz

theorem indexToNoble_spec {m i : Nat} (hi : i < 2 ^ 2 ^ m) :
    ∃ z, indexToNoble i (m + 1) = .ok z ∧ Noble (m + 1) z ∧ z / 2 ^ 2 ^ m = i := by
  obtain ⟨t, t1, t2, t3⟩ := twinInt_eq hi
  have hx : t ^^^ i < 2 ^ 2 ^ m := Nat.xor_lt_two_pow t2 hi
  have bits : ∀ j, ((t ^^^ i) + 2 ^ 2 ^ m * i).testBit j = if j < 2 ^ m then (t ^^^ i).testBit j else i.testBit (j - 2 ^ m) := by
    intro j
    rw [Nat.add_comm]
    exact Nat.testBit_two_pow_mul_add i hx j
  have hz : (t ^^^ i) + 2 ^ 2 ^ m * i < 2 ^ 2 ^ (m + 1) := by
    rw [two_pow_succ, Nat.pow_add]
    calc (t ^^^ i) + 2 ^ 2 ^ m * i < 2 ^ 2 ^ m + 2 ^ 2 ^ m * i := by omega
      _ = 2 ^ 2 ^ m * (i + 1) := by rw [Nat.mul_add, Nat.mul_one, Nat.add_comm]
      _ ≤ 2 ^ 2 ^ m * 2 ^ 2 ^ m := Nat.mul_le_mul_left _ hi
  refine ⟨(t ^^^ i) + 2 ^ 2 ^ m * i, ?_, (noble_succ hz).2 fun j hj => ?_, ?_⟩
  · unfold indexToNoble
    rw [if_neg (by omega)]
    simp only [Nat.add_sub_cancel, shl_eq]
    rw [if_pos hi, t1]
    rfl
  · have e : ∀ k, ((t ^^^ i) + 2 ^ 2 ^ m * i).testBit (2 ^ m + k) = i.testBit k := by
      intro k
      rw [bits, if_neg (by omega)]
      congr 1; omega
    rw [bits, if_pos hj, Nat.testBit_xor, t3 j hj, e, Bool.xor_comm]
    exact congrArg _ (subXor_congr (fun k _ => (e k).symm) j)
  · rw [Nat.add_mul_div_left _ _ (Nat.two_pow_pos _), Nat.div_eq_of_lt hx, Nat.zero_add]

theorem take_bits (m z : Nat) : ((List.range (2 ^ (m + 1))).map z.testBit).take (2 ^ m) = (List.range (2 ^ m)).map z.testBit := by
  rw [← List.map_take, List.take_range, Nat.min_eq_left (Nat.pow_le_pow_right (by omega) (by omega))]

theorem drop_bits (m z : Nat) : ((List.range (2 ^ (m + 1))).map z.testBit).drop (2 ^ m) = (List.range (2 ^ m)).map fun j => z.testBit (2 ^ m + j) := by
  rw [two_pow_succ, List.range_add, List.map_append, List.drop_left' (by simp), List.map_map]
  rfl

theorem praetorInt_spec {m z : Nat} (hz : z < 2 ^ 2 ^ (m + 1)) :
    ∃ p, praetorInt z (m + 1) = .ok p ∧ p < 2 ^ 2 ^ m ∧ ∀ j < 2 ^ m, p.testBit j = (z.testBit j ^^ z.testBit (2 ^ m + j)) := by
  refine ⟨valB ((List.range (2 ^ m)).map z.testBit) ^^^ valB ((List.range (2 ^ m)).map fun j => z.testBit (2 ^ m + j)), ?_, ?_, fun j hj => ?_⟩
  · unfold praetorInt
    rw [if_pos (by omega)]
    simp only [shl_eq]
    rw [if_pos hz, mk_intval_bits (Nat.two_pow_pos _) hz, show 2 ^ (m + 1) / 2 = 2 ^ m by rw [Nat.pow_succ]; omega]
    simp only [bind, Except.bind, pure, Except.pure, ofBools_eq, intval_eq]
    rw [take_bits, List.take_of_length_le (by simp), drop_bits]
  · exact Nat.xor_lt_two_pow (valB_range_lt _ _) (valB_range_lt _ _)
  · rw [Nat.testBit_xor, testBit_valB_range, testBit_valB_range]
    simp [hj]

/-- the twin of the praetor of a noble is its upper half -/
theorem praetor_twin {m z : Nat} (hz : Noble (m + 1) z) :
    ∃ p, praetorInt z (m + 1) = .ok p ∧ twinInt p m = .ok (z / 2 ^ 2 ^ m) := by
  obtain ⟨p, p1, p2, p3⟩ := praetorInt_spec hz.1
  obtain ⟨t, t1, t2, t3⟩ := twinInt_eq p2
  refine ⟨p, p1, ?_⟩
  rw [t1]
  refine congrArg Except.ok (Nat.eq_of_testBit_eq fun i => ?_)
  by_cases hi : i < 2 ^ m
  · rw [t3 i hi, testBit_upper]
    rw [subXor_congr (w := subXor m fun i => z.testBit (2 ^ m + i)), subXor_subXor m _ hi]
    intro j hj
    rw [p3 j hj, (noble_succ hz.1).1 hz j hj]
    cases z.testBit (2 ^ m + j) <;> simp
  · rw [testBit_of_lt t2 (by omega), testBit_of_lt (upper_lt hz.1) (by omega)]

/-- `is_noble` of a Boolf -/
theorem isNoble_spec {f : Boolf} (hf : Reach f) {n : Nat} (hn : f.adicity ≤ n) :
    f.isNoble (some (n : Int)) = .ok (decide (∀ j < 2 ^ n, f.eval j.testBit = subXor n (fun i => f.eval i.testBit) j)) := by
  obtain ⟨g, g1, g2, g3, g4, g5⟩ := twin_spec hf.canon.toSound hn
  unfold Boolf.isNoble
  simp only [Option.getD_some, g1, bind, Except.bind, pure, Except.pure]
  refine congrArg Except.ok ?_
  rw [Bool.eq_iff_iff, decide_eq_true_eq, (C48_equality f g hf g3).2]
  constructor
  · rintro rfl
    exact g5
  · intro h
    apply ext_below hf.canon g2 hn g4
    intro j hj
    rw [g5 j hj, h j hj]

theorem newTT_int_table {z n : Nat} (hz : z < 2 ^ 2 ^ n) :
    ∃ g, newTT (.int z) none (some (n : Int)) = .ok g ∧ Reach g ∧ g.adicity ≤ n ∧ ∀ key : Nat, g.eval key.testBit = z.testBit (key % 2 ^ n) := by
  obtain ⟨g, g1, _, g3, _, g5⟩ := newTT_int_fun hz
  exact ⟨g, g1, reach_newTT g1, g3, g5⟩

theorem nobleCheck_spec {n z : Nat} (hz : z < 2 ^ 2 ^ n) (trust : Bool) :
    (Noble n z → nobleCheck z n trust = .ok ()) ∧ (¬ Noble n z → nobleCheck z n false = .error .argValue) := by
  obtain ⟨g, g1, g2, g3, g4⟩ := newTT_int_table hz
  have e : (∀ j < 2 ^ n, g.eval j.testBit = subXor n (fun i => g.eval i.testBit) j) ↔ Noble n z := by
    rw [noble_iff]
    constructor
    · intro h
      refine ⟨hz, fun j hj => ?_⟩
      have := h j hj
      rw [g4, Nat.mod_eq_of_lt hj] at this
      rw [this]
      exact subXor_congr (fun i hi => by rw [g4, Nat.mod_eq_of_lt hi]) j
    · rintro ⟨_, h⟩ j hj
      rw [g4, Nat.mod_eq_of_lt hj, h j hj]
      exact (subXor_congr (fun i hi => by rw [g4, Nat.mod_eq_of_lt hi]) j).symm
  have h := isNoble_spec g2 g3
  constructor
  · intro hN
    unfold nobleCheck
    cases trust with
    | true => rfl
    | false =>
      simp only [Bool.false_eq_true, if_false, g1, h, bind, Except.bind]
      rw [if_pos (decide_eq_true (e.2 hN))]
  · intro hN
    unfold nobleCheck
    simp only [Bool.false_eq_true, if_false, g1, h, bind, Except.bind]
    rw [if_neg (by rw [decide_eq_true_eq, e]; exact hN)]

theorem noble_even {m z : Nat} (hz : Noble (m + 1) z) : z.testBit 0 = false := by
  rw [(noble_succ hz.1).1 hz 0 (Nat.two_pow_pos _), ← subXor_mod, Nat.zero_mod]
  unfold subXor
  have : xorSum ((List.range (2 ^ m)).map fun i => z.testBit (2 ^ m + i) && sub i 0) = z.testBit (2 ^ m + 0) := by
    obtain ⟨k, hk⟩ : ∃ k, 2 ^ m = k + 1 := ⟨2 ^ m - 1, by have := Nat.two_pow_pos m; omega⟩
    rw [hk, List.range_succ_eq_map, List.map_cons, xorSum, List.map_map, xorSum_false]
    · simp [sub]
    · intro i _
      simp [sub]
  rw [this]
  cases z.testBit (2 ^ m + 0) <;> rfl

theorem noble_le {m z : Nat} (hz : Noble (m + 1) z) : z ≤ 2 ^ 2 ^ (m + 1) - 2 := by
  have h0 := noble_even hz
  rw [Nat.testBit_zero, decide_eq_false_iff_not] at h0
  have := hz.1
  have : 2 ^ 2 ^ (m + 1) % 2 = 0 := by
    obtain ⟨k, hk⟩ : ∃ k, 2 ^ (m + 1) = k + 1 := ⟨2 ^ (m + 1) - 1, by have := Nat.two_pow_pos (m + 1); omega⟩
    rw [hk, Nat.pow_succ]; omega
  omega

theorem nobleToIndex_spec {m z : Nat} (hz : Noble (m + 1) z) (trust : Bool) : nobleToIndex z (m + 1) trust = .ok (z / 2 ^ 2 ^ m) := by
  obtain ⟨p, p1, p2⟩ := praetor_twin hz
  unfold nobleToIndex
  rw [if_neg (by omega)]
  simp only [shl_eq]
  rw [if_pos (noble_le hz), (nobleCheck_spec hz.1 trust).1 hz]
  simp only [bind, Except.bind, p1, Nat.add_sub_cancel, p2]

/-- **C72.** For a positive arity `index_to_noble` gives, in ascending order, exactly the `2 ** 2 ** (arity - 1)` truth tables that are their own twins. -/
theorem C72_index_to_noble (m : Nat) :
    (∀ i < 2 ^ 2 ^ m, ∃ z, indexToNoble i (m + 1) = .ok z ∧ Noble (m + 1) z ∧ twinInt z (m + 1) = .ok z ∧
      ∀ trust, nobleToIndex z (m + 1) trust = .ok i) ∧
    (∀ i, 2 ^ 2 ^ m ≤ i → indexToNoble i (m + 1) = .error .argTooBig) ∧
    (∀ i j y z, indexToNoble i (m + 1) = .ok y → indexToNoble j (m + 1) = .ok z → (i < j ↔ y < z)) := by
  have big : ∀ i, 2 ^ 2 ^ m ≤ i → indexToNoble i (m + 1) = .error .argTooBig := by
    intro i hi
    unfold indexToNoble
    rw [if_neg (by omega)]
    simp only [Nat.add_sub_cancel, shl_eq]
    rw [if_neg (by omega)]
  have lt : ∀ i z, indexToNoble i (m + 1) = .ok z → z / 2 ^ 2 ^ m = i := by
    intro i z h
    by_cases hi : i < 2 ^ 2 ^ m
    · obtain ⟨y, y1, _, y3⟩ := indexToNoble_spec hi
      rw [y1] at h
      rw [← Except.ok.inj h, y3]
    · rw [big i (by omega)] at h; cases h
  have mono : ∀ i j y z, indexToNoble i (m + 1) = .ok y → indexToNoble j (m + 1) = .ok z → i < j → y < z := by
    intro i j y z hy hz hij
    by_contra hc
    have := Nat.div_le_div_right (c := 2 ^ 2 ^ m) (Nat.le_of_not_lt hc)
    rw [lt i y hy, lt j z hz] at this
    omega
  refine ⟨fun i hi => ?_, big, fun i j y z hy hz => ⟨mono i j y z hy hz, fun h => ?_⟩⟩
  · obtain ⟨z, z1, z2, z3⟩ := indexToNoble_spec hi
    exact ⟨z, z1, z2, (noble_iff_twin z2.1).1 z2, fun trust => by rw [nobleToIndex_spec z2, z3]⟩
  · rcases Nat.lt_trichotomy i j with h1 | h1 | h1
    · exact h1
    · subst h1
      rw [hy] at hz
      rw [Except.ok.inj hz] at h
      omega
    · have := mono j i z y hz hy h1
      omega

/-- **C72.** `noble_to_index` is the inverse of `index_to_noble`; it rejects numbers that are no nobles. -/
theorem C72_noble_to_index (m z : Nat) :
    (Noble (m + 1) z → ∃ i < 2 ^ 2 ^ m, nobleToIndex z (m + 1) = .ok i ∧ indexToNoble i (m + 1) = .ok z) ∧
    (¬ Noble (m + 1) z → z ≤ 2 ^ 2 ^ (m + 1) - 2 → nobleToIndex z (m + 1) = .error .argValue) ∧
    (2 ^ 2 ^ (m + 1) - 2 < z → ∀ trust, nobleToIndex z (m + 1) trust = .error .argTooBig) := by
  refine ⟨fun hz => ?_, fun hz hle => ?_, fun hz trust => ?_⟩
  · refine ⟨z / 2 ^ 2 ^ m, upper_lt hz.1, nobleToIndex_spec hz false, ?_⟩
    obtain ⟨y, y1, y2, y3⟩ := indexToNoble_spec (upper_lt hz.1)
    rw [y1, noble_ext y2 hz y3]
  · have hlt : z < 2 ^ 2 ^ (m + 1) := by
      have := Nat.two_pow_pos (2 ^ (m + 1)); omega
    unfold nobleToIndex
    rw [if_neg (by omega)]
    simp only [shl_eq]
    rw [if_pos hle, (nobleCheck_spec hlt false).2 hz]
    rfl
  · unfold nobleToIndex
    rw [if_neg (by omega)]
    simp only [shl_eq]
    rw [if_neg (by omega)]

/-- **C72.** For arity 0 only the number 0 is accepted (although 1 is its own twin, too). -/
theorem C72_arity_zero (z : Nat) (trust : Bool) :
    (z = 0 → indexToNoble z 0 = .ok 0 ∧ nobleToIndex z 0 trust = .ok 0) ∧
    (z ≠ 0 → indexToNoble z 0 = .error .argTooBig ∧ nobleToIndex z 0 trust = .error .argTooBig) ∧ Noble 0 0 ∧ Noble 0 1 := by
  refine ⟨fun h => ?_, fun h => ?_, ?_, ?_⟩
  · subst h; exact ⟨rfl, rfl⟩
  · unfold indexToNoble nobleToIndex
    simp [h]
  · rw [noble_iff]
    refine ⟨by decide, fun j hj => ?_⟩
    have h0 : j = 0 := by simpa using hj
    rw [h0, subXor_zero]
  · rw [noble_iff]
    refine ⟨by decide, fun j hj => ?_⟩
    have h0 : j = 0 := by simpa using hj
    rw [h0, subXor_zero]

/-- **C72.** `is_noble` for an arity from the adicity on: the function equals its twin; that is, its truth table as number is a noble. -/
theorem C72_is_noble (f : Boolf) (hf : Reach f) :
    (∀ n : Nat, f.adicity ≤ n → ∃ b t, f.isNoble (some (n : Int)) = .ok b ∧ f.tt (.arity n) = .ok t ∧
      (b = true ↔ f.twin (some (n : Int)) = .ok f) ∧ (b = true ↔ Noble n t.intval)) ∧
    (∀ n : Int, n < f.adicity → f.isNoble (some n) = .error .assertion) ∧
    f.isNoble = f.isNoble (some (f.adicity : Int)) := by
  refine ⟨fun n hn => ?_, fun n hn => ?_, rfl⟩
  · have h := hf.canon.toSound
    have hb := isNoble_spec hf hn
    refine ⟨_, _, hb, tt_arity_eq h hn, ?_, ?_⟩
    · obtain ⟨g, g1, _, g3, _⟩ := twin_spec h hn
      unfold Boolf.isNoble at hb
      simp only [Option.getD_some, g1, bind, Except.bind, pure, Except.pure] at hb
      rw [← Except.ok.inj hb, g1, (C48_equality f g hf g3).2, Except.ok.injEq]
      exact eq_comm
    · rw [decide_eq_true_eq, intval_eq, noble_iff]
      have e : ∀ j < 2 ^ n, (valB ((List.range (2 ^ n)).map fun i => f.eval i.testBit)).testBit j = f.eval j.testBit := by
        intro j hj
        rw [testBit_valB_range]
        simp [hj]
      constructor
      · intro h1
        refine ⟨valB_range_lt _ _, fun j hj => ?_⟩
        rw [e j hj, h1 j hj]
        exact (subXor_congr e j).symm
      · rintro ⟨_, h1⟩ j hj
        rw [← e j hj, h1 j hj]
        exact subXor_congr e j
  · unfold Boolf.isNoble
    simp only [Option.getD_some]
    rw [(C50_twin f hf).2.1 n hn]
    rfl

/-! ### Quadrants and royals -/

theorem subXor_at_zero (n : Nat) (v : Nat → Bool) : subXor n v 0 = v 0 := by
  induction n with
  | zero => exact subXor_zero v 0
  | succ n ih => rw [subXor_low _ (Nat.two_pow_pos n), ih]

theorem subXor_at_pow {n k : Nat} (hk : k < n) (v : Nat → Bool) : subXor n v (2 ^ k) = (v 0 ^^ v (2 ^ k)) := by
  induction n with
  | zero => omega
  | succ n ih =>
    by_cases h : k = n
    · subst h
      have := subXor_high (m := k) v (Nat.two_pow_pos k)
      rw [subXor_at_zero, subXor_at_zero] at this
      exact this
    · rw [subXor_low _ (Nat.pow_lt_pow_right (by omega) (by omega)), ih (by omega)]

theorem noble_bit_one {m z : Nat} (hz : Noble (m + 1) z) : z.testBit 1 = z.testBit (2 ^ m) := by
  cases m with
  | zero => rfl
  | succ m =>
    have h1 : 2 ^ 0 < 2 ^ (m + 1) := Nat.pow_lt_pow_right (by omega) (by omega)
    have h := (noble_succ hz.1).1 hz (2 ^ 0) h1
    rw [subXor_at_pow (by omega), Nat.add_zero] at h
    rw [Nat.pow_zero] at h
    rw [h]
    cases z.testBit (2 ^ (m + 1)) <;> cases z.testBit (2 ^ (m + 1) + 1) <;> rfl

theorem quadrant_eq {f : Boolf} (hf : Obj f) {n : Nat} (hn : f.adicity ≤ n) :
    f.quadrant = .ok ((f.eval (0 : Nat).testBit).toNat + 2 * (f.eval (2 ^ n - 1).testBit).toNat) := by
  have h := hf.good.toSound
  refine C52_quadrant f hf _ _ (2 ^ n - 1) (fun x hx => ?_) (getItem_eq h _) (getItem_eq h _)
  rw [Nat.testBit_two_pow_sub_one]
  exact decide_eq_true ((h.adic n).1 hn x hx)

theorem isOdious_eq {f : Boolf} (hf : Obj f) {n : Nat} (hn : f.adicity ≤ n) : f.isOdious = .ok (f.eval (2 ^ n - 1).testBit) := by
  have h := quadrant_eq hf hn
  unfold Boolf.quadrant at h
  unfold Boolf.isOdious
  cases h1 : f.root.vector.head? with
  | none => rw [h1] at h; cases h
  | some a =>
    cases h2 : f.root.vector.getLast? with
    | none => rw [h1, h2] at h; cases h
    | some b =>
      rw [h1, h2] at h
      have := Except.ok.inj h
      cases a <;> cases b <;> cases hx : f.eval (Nat.testBit 0) <;> cases hy : f.eval (2 ^ n - 1).testBit <;> simp_all

theorem isOdd_eq {f : Boolf} (hf : Obj f) : f.isOdd = .ok (f.eval (0 : Nat).testBit) := by
  have h := quadrant_eq hf le_rfl
  unfold Boolf.quadrant at h
  unfold Boolf.isOdd Binv.getItem
  rw [← List.head?_eq_getElem?]
  cases h1 : f.root.vector.head? with
  | none => rw [h1] at h; cases h
  | some a =>
    cases h2 : f.root.vector.getLast? with
    | none => rw [h1, h2] at h; cases h
    | some b =>
      rw [h1, h2] at h
      have := Except.ok.inj h
      cases a <;> cases b <;> cases hx : f.eval (Nat.testBit 0) <;> cases hy : f.eval (2 ^ f.adicity - 1).testBit <;> simp_all

theorem nobleToQuadrant_spec {m z : Nat} (hz : Noble (m + 1) z) :
    nobleToQuadrant z (m + 1) = .ok ((z.testBit 1).toNat + 2 * (z.testBit (2 ^ (m + 1) - 1)).toNat) := by
  obtain ⟨g, g1, g2, g3, g4⟩ := newTT_int_table (upper_lt hz.1)
  unfold nobleToQuadrant
  rw [if_neg (by omega), nobleToIndex_spec hz]
  simp only [bind, Except.bind, Nat.add_sub_cancel]
  rw [g1]
  simp only
  have hp := Nat.two_pow_pos m
  rw [quadrant_eq g2.obj g3, g4, g4, Nat.zero_mod, Nat.mod_eq_of_lt (by omega), testBit_upper, testBit_upper, Nat.add_zero, noble_bit_one hz,
    show 2 ^ m + (2 ^ m - 1) = 2 ^ (m + 1) - 1 by rw [two_pow_succ]; omega]

/-- **C72.** The quadrant of a noble: its entries at place 1 and at the last place (the entry at place 0 is false).  The method `noble_quadrant` of the
Boolean function gives the same. -/
theorem C72_quadrant (m z : Nat) (hz : Noble (m + 1) z) :
    z.testBit 0 = false ∧
    ∃ q f, nobleToQuadrant z (m + 1) = .ok q ∧ q = (z.testBit 1).toNat + 2 * (z.testBit (2 ^ (m + 1) - 1)).toNat ∧
      newTT (.int z) none (some ((m + 1 : Nat) : Int)) = .ok f ∧ f.nobleQuadrant (some ((m + 1 : Nat) : Int)) = .ok q := by
  obtain ⟨f, f1, f2, f3, f4⟩ := newTT_int_table hz.1
  refine ⟨noble_even hz, _, f, nobleToQuadrant_spec hz, rfl, f1, ?_⟩
  have hp : 1 < 2 ^ (m + 1) := Nat.one_lt_two_pow (by omega)
  have hN : (∀ j < 2 ^ (m + 1), f.eval j.testBit = subXor (m + 1) (fun i => f.eval i.testBit) j) := by
    intro j hj
    rw [f4, Nat.mod_eq_of_lt hj, (noble_iff.1 hz).2 j hj]
    exact (subXor_congr (fun i hi => by rw [f4, Nat.mod_eq_of_lt hi]) j).symm
  unfold Boolf.nobleQuadrant
  simp only [Option.getD_some, isNoble_spec f2 f3, bind, Except.bind, pure, Except.pure]
  rw [if_pos (decide_eq_true hN), tt_arity_eq f2.canon.toSound f3]
  simp only
  unfold Binv.getItem
  simp only [List.getElem?_map]
  rw [List.getElem?_range hp]
  simp only [Option.map_some]
  rw [isOdious_eq f2.obj f3]
  simp only
  rw [f4, f4, Nat.mod_eq_of_lt hp, Nat.mod_eq_of_lt (by omega), Nat.mul_comm]

theorem noble_xor {n y z : Nat} (hy : Noble n y) (hz : Noble n z) : Noble n (y ^^^ z) := by
  rw [noble_iff] at *
  refine ⟨Nat.xor_lt_two_pow hy.1 hz.1, fun j hj => ?_⟩
  rw [Nat.testBit_xor, hy.2 j hj, hz.2 j hj, ← subXor_xor]
  exact subXor_congr (fun i _ => (Nat.testBit_xor ..).symm) j

theorem subXor_false (n j : Nat) : subXor n (fun _ => false) j = false := by
  unfold subXor
  exact xorSum_false _ fun i _ => rfl

theorem subXor_top {n j : Nat} (hj : j < 2 ^ n) : subXor n (fun i => decide (i = 2 ^ n - 1)) j = decide (j = 2 ^ n - 1) := by
  induction n generalizing j with
  | zero => rw [subXor_zero]; have : j = 0 := by simpa using hj
            rw [this]
  | succ n ih =>
    have hp := Nat.two_pow_pos n
    have e1 : ∀ j, subXor n (fun i => decide (i = 2 ^ (n + 1) - 1)) j = false := by
      intro j
      rw [subXor_congr (w := fun _ => false), subXor_false]
      intro i hi
      rw [two_pow_succ, decide_eq_false_iff_not]; omega
    by_cases hlt : j < 2 ^ n
    · rw [subXor_low _ hlt, e1, eq_comm, decide_eq_false_iff_not, two_pow_succ]; omega
    · rw [two_pow_succ] at hj
      obtain ⟨k, rfl⟩ : ∃ k, j = 2 ^ n + k := ⟨j - 2 ^ n, by omega⟩
      rw [subXor_high _ (by omega), e1, Bool.false_xor, subXor_congr (w := fun i => decide (i = 2 ^ n - 1)), ih (by omega)]
      · rw [two_pow_succ]; apply decide_eq_decide.2; omega
      · intro i hi
        rw [two_pow_succ]; apply decide_eq_decide.2; omega

theorem subXor_delta (n j : Nat) : subXor n (fun i => decide (i = 0)) j = true := by
  induction n generalizing j with
  | zero => rw [subXor_zero]; rfl
  | succ n ih =>
    rw [subXor_succ, ih, subXor_congr (w := fun _ => false), subXor_false]
    · simp
    · intro i _
      have := Nat.two_pow_pos n
      rw [decide_eq_false_iff_not]; omega

theorem subXor_true {n j : Nat} (hj : j < 2 ^ n) : subXor n (fun _ => true) j = decide (j = 0) := by
  rw [subXor_congr (w := subXor n fun i => decide (i = 0)) (fun i _ => (subXor_delta n i).symm), subXor_subXor n _ hj]

/-- the greatest power of two among the nobles -/
theorem noble_power (n : Nat) : Noble n (2 ^ (2 ^ n - 1)) := by
  have hp := Nat.two_pow_pos n
  rw [noble_iff]
  refine ⟨Nat.pow_lt_pow_right (by omega) (by omega), fun j hj => ?_⟩
  rw [subXor_congr (w := fun i => decide (i = 2 ^ n - 1)), subXor_top hj]
  · rw [Nat.testBit_two_pow]; apply decide_eq_decide.2; omega
  · intro i _
    rw [Nat.testBit_two_pow]; apply decide_eq_decide.2; omega

theorem testBit_greatest {L : Nat} (hL : 0 < L) (j : Nat) : (2 ^ L - 2).testBit j = (decide (j < L) && decide (j ≠ 0)) := by
  cases j with
  | zero =>
    rw [Nat.testBit_zero]
    obtain ⟨k, rfl⟩ : ∃ k, L = k + 1 := ⟨L - 1, by omega⟩
    simp only [ne_eq, not_true_eq_false, decide_false, Bool.and_false, decide_eq_false_iff_not]
    rw [Nat.pow_succ]; omega
  | succ j =>
    obtain ⟨k, rfl⟩ : ∃ k, L = k + 1 := ⟨L - 1, by omega⟩
    rw [Nat.testBit_succ, show (2 ^ (k + 1) - 2) / 2 = 2 ^ k - 1 by rw [Nat.pow_succ]; omega, Nat.testBit_two_pow_sub_one]
    simp

/-- the greatest noble -/
theorem noble_greatest (n : Nat) : Noble n (2 ^ 2 ^ n - 2) := by
  have hp := Nat.two_pow_pos n
  rw [noble_iff]
  refine ⟨by have := Nat.two_pow_pos (2 ^ n); omega, fun j hj => ?_⟩
  rw [subXor_congr (w := fun i => true ^^ decide (i = 0)), subXor_xor, subXor_true hj, subXor_delta, testBit_greatest hp]
  · by_cases h : j = 0 <;> simp [h]; omega
  · intro i hi
    rw [testBit_greatest hp]
    by_cases h : i = 0 <;> simp [h]; omega

/-- **C72.** The royal of a noble is the noble of quadrant 0 that differs from it only by a mask that depends on the quadrant. -/
theorem C72_royal (m z : Nat) (hz : Noble (m + 1) z) :
    ∃ r q, nobleToRoyalAndQuadrant z (m + 1) = .ok (r, q) ∧ nobleToRoyal z (m + 1) = .ok r ∧ nobleToQuadrant z (m + 1) = .ok q ∧
      Noble (m + 1) r ∧ nobleToQuadrant r (m + 1) = .ok 0 ∧
      (q = 0 ∧ r = z ∨
       q = 1 ∧ r = z ^^^ (2 ^ (2 ^ (m + 1) - 1) - 2) ∨
       q = 2 ∧ r = z ^^^ 2 ^ (2 ^ (m + 1) - 1) ∨
       q = 3 ∧ r = z ^^^ (2 ^ 2 ^ (m + 1) - 2)) := by
  have hp := noble_power (m + 1)
  have hq := noble_greatest (m + 1)
  have hL := Nat.two_pow_pos (m + 1)
  have h1 : 1 < 2 ^ (m + 1) := Nat.one_lt_two_pow (by omega)
  have hQ := nobleToQuadrant_spec hz
  have hR : nobleToRoyalAndQuadrant z (m + 1) = (fun quadrant => Except.ok (if quadrant = 0 then z
      else if quadrant = 1 then z ^^^ 2 ^ (2 ^ (m + 1) - 1) ^^^ (2 ^ 2 ^ (m + 1) - 2)
      else if quadrant = 2 then z ^^^ 2 ^ (2 ^ (m + 1) - 1) else z ^^^ (2 ^ 2 ^ (m + 1) - 2), quadrant))
      ((z.testBit 1).toNat + 2 * (z.testBit (2 ^ (m + 1) - 1)).toNat) := by
    unfold nobleToRoyalAndQuadrant
    rw [if_neg (by omega), hQ]
    simp only [bind, Except.bind, pure, Except.pure, shl_eq]
  have hR' : nobleToRoyal z (m + 1) = (nobleToRoyalAndQuadrant z (m + 1)).map Prod.fst := by
    unfold nobleToRoyal
    cases nobleToRoyalAndQuadrant z (m + 1) <;> rfl
  have b1 : (2 ^ (2 ^ (m + 1) - 1)).testBit 1 = decide (m = 0) := by
    rw [Nat.testBit_two_pow]
    apply decide_eq_decide.2
    constructor
    · intro h
      by_contra hm
      have : 2 ^ 2 ≤ 2 ^ (m + 1) := Nat.pow_le_pow_right (by omega) (by omega)
      omega
    · rintro rfl; rfl
  have b2 : (2 ^ (2 ^ (m + 1) - 1)).testBit (2 ^ (m + 1) - 1) = true := by rw [Nat.testBit_two_pow]; simp
  have b3 : (2 ^ 2 ^ (m + 1) - 2).testBit 1 = true := by rw [testBit_greatest hL]; simp [h1]
  have b4 : (2 ^ 2 ^ (m + 1) - 2).testBit (2 ^ (m + 1) - 1) = true := by rw [testBit_greatest hL]; simp; omega
  have mask : 2 ^ (2 ^ (m + 1) - 1) ^^^ (2 ^ 2 ^ (m + 1) - 2) = 2 ^ (2 ^ (m + 1) - 1) - 2 := by
    apply Nat.eq_of_testBit_eq
    intro i
    rw [Nat.testBit_xor, testBit_greatest hL, testBit_greatest (by omega), Nat.testBit_two_pow]
    by_cases h0 : i = 0
    · subst h0; simp; omega
    · rcases Nat.lt_trichotomy i (2 ^ (m + 1) - 1) with h | h | h
      · simp [h0, h, show ¬ 2 ^ (m + 1) - 1 = i by omega, show i < 2 ^ (m + 1) by omega]
      · simp [h]; omega
      · simp [h0, show ¬ 2 ^ (m + 1) - 1 = i by omega, show ¬ i < 2 ^ (m + 1) by omega, show ¬ i < 2 ^ (m + 1) - 1 by omega]
  have small : m = 0 → z.testBit 1 = z.testBit (2 ^ (m + 1) - 1) := by rintro rfl; rfl
  cases c1 : z.testBit 1 <;> cases c2 : z.testBit (2 ^ (m + 1) - 1)
  · refine ⟨z, 0, ?_, ?_, ?_, hz, ?_, by simp⟩
    · rw [hR, c1, c2]; rfl
    · rw [hR', hR, c1, c2]; rfl
    · rw [hQ, c1, c2]; rfl
    · rw [hQ, c1, c2]; rfl
  · have hN := noble_xor hz hp
    have hm : m ≠ 0 := fun h => by have := small h; rw [c1, c2] at this; cases this
    refine ⟨_, 2, by rw [hR, c1, c2]; rfl, by rw [hR', hR, c1, c2]; rfl, by rw [hQ, c1, c2]; rfl, hN, ?_, by simp⟩
    rw [nobleToQuadrant_spec hN, Nat.testBit_xor, Nat.testBit_xor, c1, c2, b1, b2]
    simp [hm]
  · have hN := noble_xor (noble_xor hz hp) hq
    have hm : m ≠ 0 := fun h => by have := small h; rw [c1, c2] at this; cases this
    refine ⟨_, 1, by rw [hR, c1, c2]; rfl, by rw [hR', hR, c1, c2]; rfl, by rw [hQ, c1, c2]; rfl, hN, ?_, ?_⟩
    · rw [nobleToQuadrant_spec hN, Nat.testBit_xor, Nat.testBit_xor, Nat.testBit_xor, Nat.testBit_xor, c1, c2, b1, b2, b3, b4]
      simp [hm]
    · right; left
      exact ⟨rfl, by rw [Nat.xor_assoc, mask]⟩
  · have hN := noble_xor hz hq
    refine ⟨_, 3, by rw [hR, c1, c2]; rfl, by rw [hR', hR, c1, c2]; rfl, by rw [hQ, c1, c2]; rfl, hN, ?_, by simp⟩
    rw [nobleToQuadrant_spec hN, Nat.testBit_xor, Nat.testBit_xor, c1, c2, b3, b4]
    rfl

/-- **C72.** Arity 0, and the exceptions of `noble_to_royal` and `noble_to_quadrant`. -/
theorem C72_rejected (m z : Nat) :
    (¬ Noble (m + 1) z → z ≤ 2 ^ 2 ^ (m + 1) - 2 → nobleToQuadrant z (m + 1) = .error .argValue ∧ nobleToRoyal z (m + 1) = .error .argValue) ∧
    (2 ^ 2 ^ (m + 1) - 2 < z → nobleToQuadrant z (m + 1) = .error .argTooBig ∧ nobleToRoyal z (m + 1) = .error .argTooBig) ∧
    nobleToRoyalAndQuadrant 0 0 = .ok (0, 0) ∧ nobleToQuadrant 0 0 = .ok 0 := by
  have h : ∀ e, nobleToIndex z (m + 1) = .error e → nobleToQuadrant z (m + 1) = .error e ∧ nobleToRoyal z (m + 1) = .error e := by
    intro e he
    have h1 : nobleToQuadrant z (m + 1) = .error e := by
      unfold nobleToQuadrant
      rw [if_neg (by omega), he]
      rfl
    refine ⟨h1, ?_⟩
    unfold nobleToRoyal nobleToRoyalAndQuadrant
    rw [if_neg (by omega), h1]
    rfl
  exact ⟨fun h1 h2 => h _ ((C72_noble_to_index m z).2.1 h1 h2), fun h1 => h _ ((C72_noble_to_index m z).2.2 h1 false), rfl, rfl⟩

/-- The number 40 is a noble for arity 3. -/
example : Noble 3 40 ∧ Noble (2 + 1) 182 ∧ ¬ Noble 3 41 := by
  refine ⟨?_, ?_, ?_⟩
  · exact ⟨by decide, by decide +revert⟩
  · exact ⟨by decide, by decide +revert⟩
  · intro h; exact absurd (h.2 7 (by decide)) (by decide)

example : (40 : Nat) ^^^ 168 = 2 ^ (2 ^ (2 + 1) - 1) := by decide

end Verif.BF
