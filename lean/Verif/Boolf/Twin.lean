import Verif.Boolf.Model2
import Verif.Boolf.Canon

/-! # Generators of simple functions and the Zhegalkin twin -/

namespace Verif.BF
open Verif.Py Verif.BV Verif.P Verif.W
open Verif.A hiding Mat

theorem atompatternGen_eq (z : Int) (n : Nat) :
    ((logicAbs z).toNat < n → atompatternGen z n =
      .ok ((List.range (2 ^ n)).map fun i => i.testBit (logicAbs z).toNat ^^ decide (z < 0))) ∧
    (n ≤ (logicAbs z).toNat → atompatternGen z n = .error .assertion) := by
  have h := atompattern_spec z n false
  unfold makeAtompattern at h
  constructor
  · intro hz
    have h1 := h.1 hz
    cases hg : atompatternGen z n with
    | error e => rw [hg] at h1; cases h1
    | ok v =>
      rw [hg] at h1
      simp only [bind, Except.bind, ofBools_eq, Bool.false_xor] at h1
      rw [Binv.mk.inj (Except.ok.inj h1)]
  · intro hz
    have h1 := h.2 hz
    cases hg : atompatternGen z n with
    | error e => rw [hg] at h1; simp only [bind, Except.bind] at h1; cases h1; rfl
    | ok v =>
      rw [hg] at h1
      simp only [bind, Except.bind, ofBools_eq] at h1
      cases h1

theorem zipStar_map {α β : Type} (A : List β) (hA : A ≠ []) (m : Nat) (g : β → Nat → α) :
    zipStar (A.map fun x => (List.range m).map (g x)) = (List.range m).map fun i => A.map fun x => g x i := by
  induction A with
  | nil => exact absurd rfl hA
  | cons x A ih =>
    cases A with
    | nil =>
      simp only [List.map_cons, List.map_nil, zipStar, List.map_map]
      rfl
    | cons y A =>
      have := ih (by simp)
      rw [List.map_cons]
      rw [show ∀ l : List (List α), zipStar ((List.range m).map (g x) :: (y :: A).map fun x => (List.range m).map (g x)) =
        List.zipWith List.cons ((List.range m).map (g x)) (zipStar ((y :: A).map fun x => (List.range m).map (g x))) from fun _ => rfl]
      · rw [this, List.zipWith_map, List.zipWith_self]
        apply List.map_congr_left
        intro i _
        rfl
      · exact []

theorem shl_eq (n : Nat) : 1 <<< n = 2 ^ n := by rw [Nat.shiftLeft_eq]; omega

/-- the bits that the list of signed atoms picks from a place -/
def picks (A : List Int) (i : Nat) : List Bool := A.map fun z => i.testBit (logicAbs z).toNat ^^ decide (z < 0)

theorem rawGen_eq (A : List Int) (n : Nat) (op : Op) :
    ((∀ z ∈ A, (logicAbs z).toNat < n) → rawGen A n op =
      .ok ((List.range (2 ^ n)).map fun i => if A = [] then op.default else op.criterion (picks A i) A.length)) ∧
    ((∃ z ∈ A, n ≤ (logicAbs z).toNat) → rawGen A n op = .error .assertion) := by
  constructor
  · intro hA
    unfold rawGen
    rw [mapM_ok (g := fun z => (List.range (2 ^ n)).map fun i => i.testBit (logicAbs z).toNat ^^ decide (z < 0))
      (fun z hz => (atompatternGen_eq z n).1 (hA z hz))]
    simp only [bind, Except.bind, pure, Except.pure]
    by_cases h : A = []
    · subst h
      simp [zipStar, shl_eq]
    · rw [zipStar_map A h, if_neg h, List.nil_append, List.map_map]
      refine congrArg Except.ok (List.map_congr_left ?_)
      intro i _
      rw [if_neg h]
      rfl
  · rintro ⟨z, hz, hzn⟩
    unfold rawGen
    have : A.mapM (atompatternGen · n) = .error .assertion := by
      induction A with
      | nil => cases hz
      | cons y A ih =>
        rw [List.mapM_cons]
        by_cases hy : (logicAbs y).toNat < n
        · rw [(atompatternGen_eq y n).1 hy]
          rcases List.mem_cons.1 hz with rfl | hz
          · omega
          · simp only [bind, Except.bind]
            rw [ih hz]
        · rw [(atompatternGen_eq y n).2 (by omega)]; rfl
    rw [this]
    rfl

/-- the bits of `i` are among those of `j` -/
def sub (i j : Nat) : Bool := decide (i &&& j = i)

theorem sub_iff {i j : Nat} : sub i j = true ↔ ∀ k, i.testBit k = true → j.testBit k = true := by
  unfold sub
  rw [decide_eq_true_eq]
  constructor
  · intro h k hk
    rw [← h, Nat.testBit_and, Bool.and_eq_true] at hk
    exact hk.2
  · intro h
    apply Nat.eq_of_testBit_eq
    intro k
    rw [Nat.testBit_and]
    cases hk : i.testBit k with
    | false => rfl
    | true => rw [h k hk]; rfl

theorem logicAbs_nat (k : Nat) : (logicAbs (Int.ofNat k)).toNat = k := by
  unfold logicAbs
  rw [if_neg (by simp)]
  rfl

theorem picks_nat (E : List Nat) (i : Nat) : picks (E.map Int.ofNat) i = E.map i.testBit := by
  unfold picks
  rw [List.map_map]
  apply List.map_congr_left
  intro k _
  simp only [Function.comp_apply, logicAbs_nat]
  rw [decide_eq_false (by simp), Bool.xor_false]

/-- the conjunction generator for the bits of `k` -/
theorem rawGen_and {k n : Nat} (hk : k < 2 ^ n) :
    rawGen ((intToExposet k).map Int.ofNat) n .AND = .ok ((List.range (2 ^ n)).map (sub k)) := by
  rw [(rawGen_eq _ n .AND).1]
  · refine congrArg Except.ok (List.map_congr_left ?_)
    intro i _
    have hs : sub k i = opAnd ((intToExposet k).map i.testBit) := by
      unfold opAnd
      rw [Bool.eq_iff_iff, sub_iff, Bool.not_eq_true', ← Bool.not_eq_true, List.contains_iff_mem, List.mem_map]
      constructor
      · rintro h ⟨x, hx, hx2⟩
        rw [C19_exposet_of_int] at hx
        rw [h x hx] at hx2; cases hx2
      · intro h x hx
        by_contra hc
        exact h ⟨x, (C19_exposet_of_int k x).2 hx, by simpa using hc⟩
    rw [hs, picks_nat]
    split
    · next h =>
      have : intToExposet k = [] := by simpa using h
      rw [this]; rfl
    · rfl
  · intro z hz
    obtain ⟨x, hx, rfl⟩ := List.mem_map.1 hz
    rw [logicAbs_nat]
    rw [C19_exposet_of_int] at hx
    by_contra hc
    rw [Nat.testBit_lt_two_pow (lt_of_lt_of_le hk (Nat.pow_le_pow_right (by omega) (by omega)))] at hx
    cases hx

theorem rawGen_and_error {k n : Nat} (hk : 2 ^ n ≤ k) : rawGen ((intToExposet k).map Int.ofNat) n .AND = .error .assertion := by
  apply (rawGen_eq _ n .AND).2
  obtain ⟨i, hi, hb⟩ := Nat.exists_ge_and_testBit_of_ge_two_pow hk
  exact ⟨i, List.mem_map.2 ⟨i, (C19_exposet_of_int k i).2 hb, rfl⟩, by rw [show ((i : Int)) = Int.ofNat i from rfl, logicAbs_nat]; exact hi⟩

/-! ### Parities -/

/-- the sum modulo 2 -/
def xorSum : List Bool → Bool
  | [] => false
  | b :: l => b ^^ xorSum l

theorem xorSum_append (l m : List Bool) : xorSum (l ++ m) = (xorSum l ^^ xorSum m) := by
  induction l with
  | nil => simp [xorSum]
  | cons b l ih => simp [xorSum, ih]

theorem xorSum_eq (l : List Bool) : xorSum l = decide (bsum l % 2 ≠ 0) := by
  induction l with
  | nil => rfl
  | cons b l ih =>
    have : bsum (b :: l) = b.toNat + bsum l := by simp [bsum]
    rw [xorSum, ih, this]
    rcases Nat.mod_two_eq_zero_or_one (bsum l) with h | h <;> cases b <;> simp [h, Nat.add_mod]

theorem xorSum_map_xor {α : Type} (l : List α) (u w : α → Bool) :
    xorSum (l.map fun i => u i ^^ w i) = (xorSum (l.map u) ^^ xorSum (l.map w)) := by
  induction l with
  | nil => rfl
  | cons a l ih =>
    simp only [List.map_cons, xorSum, ih]
    cases u a <;> cases w a <;> cases xorSum (l.map u) <;> cases xorSum (l.map w) <;> rfl

theorem xorSum_filter {α : Type} (l : List α) (p q : α → Bool) :
    xorSum ((l.filter p).map q) = xorSum (l.map fun i => p i && q i) := by
  induction l with
  | nil => rfl
  | cons a l ih =>
    rw [List.filter_cons]
    cases h : p a <;> simp [xorSum, ih, h]

theorem xorSum_and_left {α : Type} (l : List α) (b : Bool) (w : α → Bool) : xorSum (l.map fun i => b && w i) = (b && xorSum (l.map w)) := by
  cases b with
  | true => simp
  | false =>
    induction l with
    | nil => rfl
    | cons a l ih => rw [List.map_cons, xorSum, ih]; rfl

/-- the sum modulo 2 of the values at the subsets of `j` below `2 ^ n` -/
def subXor (n : Nat) (v : Nat → Bool) (j : Nat) : Bool := xorSum ((List.range (2 ^ n)).map fun i => v i && sub i j)

theorem testBit_high {n i : Nat} (hi : i < 2 ^ n) (k : Nat) : (2 ^ n + i).testBit k = if k = n then true else i.testBit k := by
  have h0 : i.testBit n = false := Nat.testBit_lt_two_pow hi
  by_cases h : k = n
  · subst h; rw [if_pos rfl, Nat.testBit_two_pow_add_eq, h0]; rfl
  · rw [if_neg h, testBit_two_pow_add' h0]
    simp [h]

theorem sub_low {n i j : Nat} (hi : i < 2 ^ n) : sub i j = sub i (j % 2 ^ n) := by
  rw [Bool.eq_iff_iff, sub_iff, sub_iff]
  apply forall_congr'
  intro k
  by_cases hk : k < n
  · rw [Nat.testBit_mod_two_pow]; simp [hk]
  · rw [Nat.testBit_lt_two_pow (lt_of_lt_of_le hi (Nat.pow_le_pow_right (by omega) (by omega)))]; simp

theorem sub_high {n i j : Nat} (hi : i < 2 ^ n) : sub (2 ^ n + i) j = (j.testBit n && sub i (j % 2 ^ n)) := by
  rw [← sub_low hi, Bool.eq_iff_iff, Bool.and_eq_true, sub_iff, sub_iff]
  have h0 : i.testBit n = false := Nat.testBit_lt_two_pow hi
  constructor
  · intro h
    refine ⟨h n (by rw [testBit_high hi, if_pos rfl]), fun k hk => h k ?_⟩
    rw [testBit_high hi]
    split
    · rfl
    · exact hk
  · rintro ⟨h1, h2⟩ k hk
    rw [testBit_high hi] at hk
    split at hk
    · next e => rw [e]; exact h1
    · exact h2 k hk

theorem subXor_succ (n : Nat) (v : Nat → Bool) (j : Nat) :
    subXor (n + 1) v j = (subXor n v (j % 2 ^ n) ^^ (j.testBit n && subXor n (fun i => v (2 ^ n + i)) (j % 2 ^ n))) := by
  unfold subXor
  rw [show 2 ^ (n + 1) = 2 ^ n + 2 ^ n by rw [Nat.pow_succ]; omega, List.range_add, List.map_append, xorSum_append, List.map_map,
    ← xorSum_and_left]
  congr 2
  · apply List.map_congr_left
    intro i hi
    rw [sub_low (List.mem_range.1 hi)]
  · apply List.map_congr_left
    intro i hi
    simp only [Function.comp_apply]
    rw [sub_high (List.mem_range.1 hi)]
    cases v (2 ^ n + i) <;> cases j.testBit n <;> simp

theorem subXor_zero (v : Nat → Bool) (j : Nat) : subXor 0 v j = v 0 := by
  unfold subXor
  simp [xorSum, sub]

theorem subXor_xor (n : Nat) (u w : Nat → Bool) (j : Nat) : subXor n (fun i => u i ^^ w i) j = (subXor n u j ^^ subXor n w j) := by
  unfold subXor
  rw [← xorSum_map_xor]
  congr 1
  apply List.map_congr_left
  intro i _
  show ((u i ^^ w i) && sub i j) = _
  cases u i <;> cases w i <;> cases sub i j <;> rfl

theorem subXor_congr {n : Nat} {u w : Nat → Bool} (h : ∀ i < 2 ^ n, u i = w i) (j : Nat) : subXor n u j = subXor n w j := by
  unfold subXor
  congr 1
  apply List.map_congr_left
  intro i hi
  rw [h i (List.mem_range.1 hi)]

/-- the twin of the twin -/
theorem subXor_subXor (n : Nat) (v : Nat → Bool) {j : Nat} (hj : j < 2 ^ n) : subXor n (subXor n v) j = v j := by
  induction n generalizing v j with
  | zero =>
    obtain rfl : j = 0 := by simpa using hj
    rw [subXor_zero, subXor_zero]
  | succ n ih =>
    rw [subXor_succ]
    have hm : j % 2 ^ n < 2 ^ n := Nat.mod_lt _ (Nat.two_pow_pos n)
    have e1 : subXor n (subXor (n + 1) v) (j % 2 ^ n) = v (j % 2 ^ n) := by
      rw [subXor_congr (w := subXor n v), ih _ hm]
      intro i hi
      rw [subXor_succ, Nat.mod_eq_of_lt hi, Nat.testBit_lt_two_pow hi]
      simp
    have e2 : subXor n (fun i => subXor (n + 1) v (2 ^ n + i)) (j % 2 ^ n) = (v (j % 2 ^ n) ^^ v (2 ^ n + j % 2 ^ n)) := by
      rw [subXor_congr (w := fun i => subXor n v i ^^ subXor n (fun i => v (2 ^ n + i)) i), subXor_xor, ih _ hm, ih _ hm]
      intro i hi
      rw [subXor_succ, testBit_high hi, if_pos rfl, Nat.add_mod_left, Nat.mod_eq_of_lt hi]
      rfl
    rw [e1, e2]
    by_cases hlt : j < 2 ^ n
    · rw [Nat.testBit_lt_two_pow hlt, Nat.mod_eq_of_lt hlt]; simp
    · have hj' : j < 2 ^ n + 2 ^ n := by rw [Nat.pow_succ] at hj; omega
      have e3 : j % 2 ^ n = j - 2 ^ n := by
        rw [Nat.mod_eq_sub_mod (by omega), Nat.mod_eq_of_lt (by omega)]
      have e4 : j.testBit n = true := by
        have : j = 2 ^ n + (j - 2 ^ n) := by omega
        rw [this, testBit_high (by omega), if_pos rfl]
      rw [e4, e3, show 2 ^ n + (j - 2 ^ n) = j by omega]
      cases v (j - 2 ^ n) <;> cases v j <;> rfl

/-! ### The generators -/

theorem bsum_eq_zero {v : List Bool} (h : bsum v = 0) {i : Nat} : v.getD i false = false := by
  have := weight_zero.1 h
  rw [List.getD_eq_getElem?_getD]
  cases hv : v[i]? with
  | none => rfl
  | some b => exact this b (List.mem_of_getElem? hv)

theorem zipIdx_eq_map {v : List Bool} : v.zipIdx = (List.range v.length).map fun i => (v.getD i false, i) := by
  apply List.ext_getElem?
  intro i
  rw [List.getElem?_zipIdx, List.getElem?_map]
  by_cases h : i < v.length
  · rw [List.getElem?_eq_getElem h, List.getElem?_range h]
    simp [List.getD_eq_getElem?_getD, List.getElem?_eq_getElem h]
  · rw [List.getElem?_eq_none (by omega), List.getElem?_eq_none (by simp; omega)]; rfl

theorem vectorToTwin_eq {v : List Bool} {n : Nat} (hv : v.length = 2 ^ n) :
    vectorToTwin v n = .ok ((List.range (2 ^ n)).map (subXor n fun i => v.getD i false)) := by
  unfold vectorToTwin rawTTGen
  rw [shl_eq, if_pos hv]
  by_cases h0 : bsum v = 0
  · rw [if_neg (by simpa using h0)]
    refine congrArg Except.ok ?_
    apply List.ext_getElem?
    intro i
    rw [List.getElem?_map, List.getElem?_map]
    by_cases hi : i < 2 ^ n
    · rw [List.getElem?_eq_getElem (by omega), List.getElem?_range hi]
      have : subXor n (fun i => v.getD i false) i = false := by
        unfold subXor
        rw [List.map_congr_left (g := fun i => false && false) (by intro i _; simp only [bsum_eq_zero h0]; rfl), xorSum_and_left]
        rfl
      rw [Option.map_some, Option.map_some, this]
    · rw [List.getElem?_eq_none (by omega), List.getElem?_eq_none (by simp; omega)]; rfl
  · rw [if_pos h0, zipIdx_eq_map, List.filter_map, hv]
    rw [mapM_ok (g := fun kv => (List.range (2 ^ n)).map (sub kv.2))]
    · simp only [bind, Except.bind, pure, Except.pure]
      refine congrArg Except.ok ?_
      rw [List.map_map]
      rw [show ((fun kv : Bool × Nat => (List.range (2 ^ n)).map (sub kv.2)) ∘ fun i => (v.getD i false, i)) =
        fun i => (List.range (2 ^ n)).map (sub i) from rfl]
      have hne : (List.range (2 ^ n)).filter (Prod.fst ∘ fun i => (v.getD i false, i)) ≠ [] := by
        intro hc
        apply h0
        apply weight_zero.2
        intro b hb
        obtain ⟨i, hi⟩ := List.mem_iff_getElem?.1 hb
        rw [List.filter_eq_nil_iff] at hc
        have := hc i (by rw [List.mem_range, ← hv]; exact getElem?_some_lt hi)
        simp only [Function.comp_apply, List.getD_eq_getElem?_getD, hi, Option.getD_some] at this
        simpa using this
      rw [zipStar_map _ hne, List.map_map]
      apply List.map_congr_left
      intro j _
      simp only [Function.comp_apply]
      rw [← xorSum_eq, xorSum_filter]
      rfl
    · intro kv hkv
      obtain ⟨i, hi, rfl⟩ := List.mem_map.1 hkv
      exact rawGen_and (List.mem_range.1 (List.mem_filter.1 hi).1)

theorem vectorToTwin_error {v : List Bool} {n : Nat} (hv : v.length ≠ 2 ^ n) : vectorToTwin v n = .error .assertion := by
  unfold vectorToTwin rawTTGen
  rw [shl_eq, if_neg hv]

theorem exposetToTwin_eq {E : List Nat} {n : Nat} (hE : ∀ k ∈ E, k < 2 ^ n) :
    exposetToTwin E n = .ok ((List.range (2 ^ n)).filter fun j => xorSum (E.map fun k => sub k j)) := by
  unfold exposetToTwin rawExposetGen
  rw [mapM_ok (g := fun k => (List.range (2 ^ n)).map (sub k)) (fun k hk => rawGen_and (hE k hk))]
  simp only [bind, Except.bind, pure, Except.pure]
  refine congrArg Except.ok ?_
  by_cases h : E = []
  · subst h
    simp only [List.map_nil, zipStar, xorSum]
    rw [List.filter_eq_nil_iff.2 (by simp)]
    simp
  · rw [zipStar_map E h, List.zipIdx_eq_zip_range']
    rw [List.length_map, List.length_range, ← List.range_eq_range', List.zip_map_left, List.filter_map, List.zip_eq_zipWith,
      List.zipWith_self, List.filter_map, List.map_map, List.map_map]
    conv_rhs => rw [← List.map_id ((List.range (2 ^ n)).filter _)]
    congr 1
    apply List.filter_congr
    intro j _
    simp only [Function.comp_apply, Prod.map_fst]
    rw [xorSum_eq]

theorem xorSum_exposet (z n : Nat) (hz : z < 2 ^ 2 ^ n) (p : Nat → Bool) :
    xorSum ((intToExposet z).map p) = xorSum ((List.range (2 ^ n)).map fun i => z.testBit i && p i) := by
  have : intToExposet z = (List.range (2 ^ n)).filter z.testBit := by
    apply eq_of_mem_iff_of_lt (C19_exposet_sorted z) (List.Pairwise.filter _ List.pairwise_lt_range)
    intro x
    rw [C19_exposet_of_int, List.mem_filter, List.mem_range]
    constructor
    · intro h
      refine ⟨?_, h⟩
      by_contra hc
      rw [Nat.testBit_lt_two_pow (lt_of_lt_of_le hz (Nat.pow_le_pow_right (by omega) (by omega)))] at h
      cases h
    · exact fun h => h.2
  rw [this, xorSum_filter]

theorem testBit_exposetToInt {E : List Nat} (hE : E.Pairwise (· < ·)) (j : Nat) : (exposetToInt E).testBit j = decide (j ∈ E) := by
  have := C19_exposet_of_int (exposetToInt E) j
  rw [C19_exposet_roundtrip E hE] at this
  rw [Bool.eq_iff_iff, decide_eq_true_eq, this]

theorem twinInt_eq {z n : Nat} (hz : z < 2 ^ 2 ^ n) :
    ∃ t, twinInt z n = .ok t ∧ t < 2 ^ 2 ^ n ∧ ∀ j < 2 ^ n, t.testBit j = subXor n z.testBit j := by
  have hE : ∀ k ∈ intToExposet z, k < 2 ^ n := by
    intro k hk
    rw [C19_exposet_of_int] at hk
    by_contra hc
    rw [Nat.testBit_lt_two_pow (lt_of_lt_of_le hz (Nat.pow_le_pow_right (by omega) (by omega)))] at hk
    cases hk
  have hp : ((List.range (2 ^ n)).filter fun j => xorSum ((intToExposet z).map fun k => sub k j)).Pairwise (· < ·) :=
    List.Pairwise.filter _ List.pairwise_lt_range
  refine ⟨exposetToInt ((List.range (2 ^ n)).filter fun j => xorSum ((intToExposet z).map fun k => sub k j)), ?_, ?_, fun j hj => ?_⟩
  · unfold twinInt
    rw [Int.toNat_natCast, exposetToTwin_eq hE]
    rfl
  · apply Nat.lt_pow_two_of_testBit
    intro i hi
    rw [testBit_exposetToInt hp, decide_eq_false_iff_not, List.mem_filter, List.mem_range]
    omega
  · rw [testBit_exposetToInt hp, Bool.eq_iff_iff, decide_eq_true_eq, List.mem_filter, List.mem_range, xorSum_exposet z n hz]
    unfold subXor
    exact ⟨fun h => h.2, fun h => ⟨hj, h⟩⟩

theorem twinInt_error {z n : Nat} (hz : 2 ^ 2 ^ n ≤ z) : twinInt z n = .error .assertion := by
  obtain ⟨i, hi, hb⟩ := Nat.exists_ge_and_testBit_of_ge_two_pow hz
  have hmem := (C19_exposet_of_int z i).2 hb
  unfold twinInt exposetToTwin rawExposetGen
  rw [Int.toNat_natCast]
  have : ∀ E : List Nat, i ∈ E → (E.mapM fun greenPlace => rawGen ((intToExposet greenPlace).map Int.ofNat) n .AND) = .error .assertion := by
    intro E hE
    induction E with
    | nil => cases hE
    | cons y E ih =>
      rw [List.mapM_cons]
      by_cases hy : y < 2 ^ n
      · rw [rawGen_and hy]
        rcases List.mem_cons.1 hE with rfl | hE
        · omega
        · simp only [bind, Except.bind]
          rw [ih hE]
      · rw [rawGen_and_error (by omega)]; rfl
  rw [this _ hmem]
  rfl

end Verif.BF
