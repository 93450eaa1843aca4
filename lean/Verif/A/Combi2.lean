import Mathlib.Data.List.Sort
import Mathlib.Data.List.ProdSigma
import Mathlib.Data.Nat.Choose.Basic
import Mathlib.Data.Finset.Powerset
import Verif.Py.Basic
import Verif.Py.Lemmas
import Verif.A.Sort
import Verif.A.Combi

/-! # Model of a/inverse_cartesian_product, a/is_multisubset, a/make_transposition, a/swap_matrix_rows, a/binom; properties C126-C129 -/

namespace Verif.A
open Verif.Py

/-! ## Model -/

/-- comparison of pairs of integers (python) -/
def IntPairLe (p q : Int × Int) : Prop := p.1 < q.1 ∨ (p.1 = q.1 ∧ p.2 ≤ q.2)

instance (p q : Int × Int) : Decidable (IntPairLe p q) := by unfold IntPairLe; infer_instance

/-- a/inverse_cartesian_product/__init__.py:4-15, for a list of pairs of integers; sets are lists without duplicates, whose order does not matter because of `sorted` -/
def inverseCartesianProduct (pairs : List (Int × Int)) : Except Err (List Int × List Int) :=
  let leftSet := pairs.foldl (fun s p => putNew s p.1) []
  let rightSet := pairs.foldl (fun s p => putNew s p.2) []
  if (leftSet.product rightSet).insertionSort IntPairLe = pairs.insertionSort IntPairLe then .ok (leftSet.insertionSort (· ≤ ·), rightSet.insertionSort (· ≤ ·))
  else .error .assertion

variable {κ : Type} [DecidableEq κ]

/-- a/is_multisubset/__init__.py:1-11, for the remaining items of `a` -/
def isMultisubset (a b : Dict κ Int) : Bool :=
  match a with
  | [] => true
  | (element, countA) :: rest =>
    if countA > 0 then
      match b.get? element with
      | some countB => if countB < countA then false else isMultisubset rest b
      | none => false
    else isMultisubset rest b

/-- a/is_multisubset/__init__.py:17-21; the place is that of the next value -/
def distriLoop (multiset : Dict κ Int) : List κ → Nat → List Int → List Int
  | [], _, result => result
  | value :: values, i, result =>
    match multiset.get? value with
    | some c => distriLoop multiset values (i + 1) (result.set i c)
    | none => distriLoop multiset values (i + 1) result

/-- a/is_multisubset/__init__.py:14-22 -/
def multisetToDistri (multiset : Dict κ Int) (values : List κ) : Except Err (List Int) :=
  if ∀ k ∈ multiset.keys, k ∈ values then .ok (distriLoop multiset values 0 (List.replicate values.length 0)) else .error .assertion

/-- the place denoted by the index `i` of a python list or numpy axis of length `n` -/
def placeOf (n : Nat) (i : Int) : Except Err Nat :=
  if 0 ≤ i ∧ i < n then .ok i.toNat else if i < 0 ∧ -(n : Int) ≤ i then .ok (i + n).toNat else .error .indexError

/-- a/make_transposition/__init__.py:5-15 -/
def makeTransposition (a b length : Int) : Except Err (List Int) := do
  if ¬ a ≠ b then throw .argValue
  if ¬ (a < length ∧ b < length) then throw .argValue
  let sequence := (List.range length.toNat).map fun k : Nat => (k : Int)
  let i ← placeOf sequence.length a
  let sequence := sequence.set i b
  let j ← placeOf sequence.length b
  let sequence := sequence.set j a
  return sequence

/-- a/swap_matrix_rows/__init__.py:5-19 -/
def swapMatrixRows {α : Type} (matrix : NpMat α) (a b : Int) : Except Err (NpMat α) := do
  let height := matrix.rows.length
  if ¬ (a < height ∧ b < height) then throw .argMismatch
  let i ← placeOf height a
  let j ← placeOf height b
  let result := matrix.rows.set i (matrix.rows.getD j [])
  let result := result.set j (matrix.rows.getD i [])
  return ⟨result, matrix.width⟩

/-- `math.factorial` -/
def mathFactorial (n : Int) : Except Err Nat := if n < 0 then .error .valueError else .ok n.toNat.factorial

/-- a/binom/__init__.py:8-9 -/
def binom (n k : Int) : Except Err Nat := do
  let fn ← mathFactorial n
  let fk ← mathFactorial k
  let fnk ← mathFactorial (n - k)
  return fn / (fk * fnk)

/-! ## `inverse_cartesian_product` -/

instance : Std.Total IntPairLe := ⟨by unfold IntPairLe; intro a b; omega⟩
instance : IsTrans (Int × Int) IntPairLe := ⟨by unfold IntPairLe; intro a b c h1 h2; omega⟩
instance : Std.Antisymm IntPairLe := ⟨by unfold IntPairLe; rintro ⟨a, b⟩ ⟨c, d⟩ h1 h2; simp only [Prod.mk.injEq] at *; omega⟩

theorem sortedPairs_eq_iff {l m : List (Int × Int)} : l.insertionSort IntPairLe = m.insertionSort IntPairLe ↔ l.Perm m := by
  constructor
  · intro h
    exact (List.perm_insertionSort IntPairLe l).symm.trans (h ▸ List.perm_insertionSort IntPairLe m)
  · intro h
    apply List.Perm.eq_of_pairwise' (List.pairwise_insertionSort _ _) (List.pairwise_insertionSort _ _)
    exact ((List.perm_insertionSort IntPairLe l).trans h).trans (List.perm_insertionSort IntPairLe m).symm

theorem strict_sorted {l : List Int} (h : l.Nodup) : (l.insertionSort (· ≤ ·)).Pairwise (· < ·) := by
  have h1 := List.pairwise_insertionSort (· ≤ ·) l
  have h2 : (l.insertionSort (· ≤ ·)).Nodup := (List.perm_insertionSort (· ≤ ·) l).nodup_iff.2 h
  refine (h1.and h2).imp ?_
  intro a b h
  obtain ⟨h, h'⟩ := h
  omega

theorem strict_ext {l m : List Int} (hl : l.Pairwise (· < ·)) (hm : m.Pairwise (· < ·)) (h : ∀ x, x ∈ l ↔ x ∈ m) : l = m := by
  have nl : l.Nodup := hl.imp fun h => by omega
  have nm : m.Nodup := hm.imp fun h => by omega
  exact List.Perm.eq_of_pairwise' (r := (· ≤ ·)) (hl.imp le_of_lt) (hm.imp le_of_lt) ((List.perm_ext_iff_of_nodup nl nm).2 h)

/-- **C126.** `inverse_cartesian_product` returns the sets whose product consists of the pairs, both in ascending order; both are empty or none. -/
theorem C126_result (pairs : List (Int × Int)) (L R : List Int) :
    inverseCartesianProduct pairs = .ok (L, R) ↔ L.Pairwise (· < ·) ∧ R.Pairwise (· < ·) ∧ pairs.Perm (L.product R) ∧ (L = [] ↔ R = []) := by
  obtain ⟨nl, ml⟩ := foldl_putNew (fun p : Int × Int => p.1) pairs [] List.nodup_nil
  obtain ⟨nr, mr⟩ := foldl_putNew (fun p : Int × Int => p.2) pairs [] List.nodup_nil
  unfold inverseCartesianProduct
  dsimp only
  generalize pairs.foldl (fun s p => putNew s p.1) [] = leftSet at *
  generalize pairs.foldl (fun s p => putNew s p.2) [] = rightSet at *
  constructor
  · intro h
    split at h
    · next hp =>
      rw [sortedPairs_eq_iff] at hp
      simp only [Except.ok.injEq, Prod.mk.injEq] at h
      obtain ⟨rfl, rfl⟩ := h
      refine ⟨strict_sorted nl, strict_sorted nr, ?_, ?_⟩
      · refine hp.symm.trans ?_
        exact List.Perm.product (List.perm_insertionSort _ _).symm (List.perm_insertionSort _ _).symm
      · have e1 : leftSet.insertionSort (· ≤ ·) = [] ↔ pairs = [] := by
          rw [List.eq_nil_iff_forall_not_mem, List.eq_nil_iff_forall_not_mem]
          simp only [List.mem_insertionSort, ml]
          constructor
          · intro h p hp'
            exact h p.1 (.inr ⟨p, hp', rfl⟩)
          · rintro h x (hx | ⟨p, hp', _⟩)
            · cases hx
            · exact h p hp'
        have e2 : rightSet.insertionSort (· ≤ ·) = [] ↔ pairs = [] := by
          rw [List.eq_nil_iff_forall_not_mem, List.eq_nil_iff_forall_not_mem]
          simp only [List.mem_insertionSort, mr]
          constructor
          · intro h p hp'
            exact h p.2 (.inr ⟨p, hp', rfl⟩)
          · rintro h x (hx | ⟨p, hp', _⟩)
            · cases hx
            · exact h p hp'
        rw [e1, e2]
    · cases h
  · rintro ⟨hL, hR, hp, he⟩
    have el : ∀ x, x ∈ leftSet ↔ x ∈ L := by
      intro x
      rw [ml]
      constructor
      · rintro (hx | ⟨p, hp', rfl⟩)
        · cases hx
        · exact (List.mem_product.1 (hp.mem_iff.1 hp')).1
      · intro hx
        have hR' : R ≠ [] := fun h => by rw [he.2 h] at hx; cases hx
        obtain ⟨y, hy⟩ := List.exists_mem_of_ne_nil R hR'
        exact .inr ⟨(x, y), hp.mem_iff.2 (List.mem_product.2 ⟨hx, hy⟩), rfl⟩
    have er : ∀ x, x ∈ rightSet ↔ x ∈ R := by
      intro x
      rw [mr]
      constructor
      · rintro (hx | ⟨p, hp', rfl⟩)
        · cases hx
        · exact (List.mem_product.1 (hp.mem_iff.1 hp')).2
      · intro hx
        have hL' : L ≠ [] := fun h => by rw [he.1 h] at hx; cases hx
        obtain ⟨y, hy⟩ := List.exists_mem_of_ne_nil L hL'
        exact .inr ⟨(y, x), hp.mem_iff.2 (List.mem_product.2 ⟨hy, hx⟩), rfl⟩
    have pl : leftSet.Perm L := (List.perm_ext_iff_of_nodup nl (hL.imp fun h => by omega)).2 el
    have pr : rightSet.Perm R := (List.perm_ext_iff_of_nodup nr (hR.imp fun h => by omega)).2 er
    rw [if_pos (sortedPairs_eq_iff.2 ((List.Perm.product pl pr).trans hp.symm))]
    congr 2
    · exact strict_ext (strict_sorted nl) hL fun x => by rw [List.mem_insertionSort, el]
    · exact strict_ext (strict_sorted nr) hR fun x => by rw [List.mem_insertionSort, er]

/-- **C126.** When the pairs (each of them once) are not a product of sets, there is an AssertionError. -/
theorem C126_error (pairs : List (Int × Int)) : inverseCartesianProduct pairs = .error .assertion ↔
    ¬ ∃ L R : List Int, L.Nodup ∧ R.Nodup ∧ pairs.Perm (L.product R) := by
  have hcases : (∃ L R, inverseCartesianProduct pairs = .ok (L, R)) ∨ inverseCartesianProduct pairs = .error .assertion := by
    unfold inverseCartesianProduct
    dsimp only
    split
    · exact .inl ⟨_, _, rfl⟩
    · exact .inr rfl
  constructor
  · rintro h ⟨L, R, nL, nR, hp⟩
    have key : ∃ L R, inverseCartesianProduct pairs = .ok (L, R) := by
      by_cases hLR : L = [] ↔ R = []
      · refine ⟨L.insertionSort (· ≤ ·), R.insertionSort (· ≤ ·), (C126_result _ _ _).2 ⟨strict_sorted nL, strict_sorted nR, ?_, ?_⟩⟩
        · exact hp.trans (List.Perm.product (List.perm_insertionSort _ _).symm (List.perm_insertionSort _ _).symm)
        · rw [← List.length_eq_zero_iff, ← List.length_eq_zero_iff, List.length_insertionSort, List.length_insertionSort, List.length_eq_zero_iff, List.length_eq_zero_iff, hLR]
      · have : L.product R = [] := by
          rw [← List.length_eq_zero_iff, show (L.product R).length = _ from List.length_product L R, Nat.mul_eq_zero, List.length_eq_zero_iff, List.length_eq_zero_iff]
          by_contra hc
          apply hLR
          tauto
        refine ⟨[], [], (C126_result _ _ _).2 ⟨List.Pairwise.nil, List.Pairwise.nil, ?_, by simp⟩⟩
        rw [this] at hp
        exact hp
    obtain ⟨L', R', h'⟩ := key
    rw [h'] at h
    cases h
  · intro h
    rcases hcases with ⟨L, R, h'⟩ | h'
    · obtain ⟨a, b, c, _⟩ := (C126_result _ _ _).1 h'
      exact absurd ⟨L, R, a.imp fun h => by omega, b.imp fun h => by omega, c⟩ h
    · exact h'

example : inverseCartesianProduct [(5, 1), (2, 7), (5, 7), (2, 1)] = .ok ([2, 5], [1, 7]) := by decide +kernel
example : inverseCartesianProduct [(5, 1), (2, 7), (5, 7)] = .error .assertion := by decide +kernel

/-! ## `is_multisubset` and `multiset_to_distri` -/

/-- how often the element is in the multiset; negative counts are like zero -/
def multiplicity (m : Dict κ Int) (x : κ) : Int := max 0 ((m.get? x).getD 0)

theorem isMultisubset_iff : ∀ (a b : Dict κ Int), isMultisubset a b = true ↔ ∀ p ∈ a, 0 < p.2 → ∃ c, b.get? p.1 = some c ∧ p.2 ≤ c
  | [], b => by simp [isMultisubset]
  | (e, c) :: a, b => by
    rw [isMultisubset, List.forall_mem_cons]
    by_cases hc : c > 0
    · rw [if_pos hc]
      cases hb : b.get? e with
      | none =>
        simp [hc]
      | some d =>
        dsimp only
        by_cases hd : d < c
        · rw [if_pos hd]
          simp only [Bool.false_eq_true, false_iff, not_and]
          intro h
          obtain ⟨c', h1, h2⟩ := h hc
          rw [Option.some.injEq] at h1
          omega
        · rw [if_neg hd, isMultisubset_iff a b]
          constructor
          · intro h
            exact ⟨fun _ => ⟨d, rfl, by omega⟩, h⟩
          · exact fun h => h.2
    · rw [if_neg hc, isMultisubset_iff a b]
      constructor
      · intro h
        exact ⟨fun h' => absurd h' hc, h⟩
      · exact fun h => h.2

/-- **C127.** `is_multisubset(a, b)` tells whether each element is at least as often in `b` as in `a`. -/
theorem C127_is_multisubset (a b : Dict κ Int) (ha : a.keys.Nodup) : isMultisubset a b = true ↔ ∀ x, multiplicity a x ≤ multiplicity b x := by
  rw [isMultisubset_iff]
  constructor
  · intro h x
    unfold multiplicity
    cases hx : a.get? x with
    | none => simp
    | some c =>
      by_cases hc : 0 < c
      · obtain ⟨d, h1, h2⟩ := h (x, c) (Dict.get?_mem hx) hc
        rw [h1]
        simp only [Option.getD_some]
        omega
      · simp only [Option.getD_some]
        omega
  · rintro h ⟨x, c⟩ hp hc
    have := h x
    unfold multiplicity at this
    rw [Dict.mem_get? ha hp] at this
    cases hb : b.get? x with
    | none => rw [hb] at this; simp only [Option.getD_some, Option.getD_none] at this hc; omega
    | some d => exact ⟨d, rfl, by rw [hb] at this; simp only [Option.getD_some] at this hc ⊢; omega⟩

theorem distriLoop_spec (m : Dict κ Int) : ∀ (values : List κ) (i : Nat) (result pre : List Int), result = pre ++ List.replicate values.length 0 → pre.length = i →
    distriLoop m values i result = pre ++ values.map fun v => (m.get? v).getD 0
  | [], _, result, pre, h, _ => by simpa [distriLoop] using h
  | v :: values, i, result, pre, h, hi => by
    subst h
    rw [distriLoop]
    cases hm : m.get? v with
    | none =>
      dsimp only
      rw [distriLoop_spec m values (i + 1) _ (pre ++ [0]) (by simp [List.replicate_succ]) (by simp [hi])]
      simp [hm]
    | some c =>
      dsimp only
      rw [distriLoop_spec m values (i + 1) _ (pre ++ [c]) (by
        rw [List.set_append_right _ _ (by omega), hi, Nat.sub_self, List.length_cons, List.replicate_succ, List.set_cons_zero]; simp) (by simp [hi])]
      simp [hm]

/-- **C127.** `multiset_to_distri(multiset, values)` is the list of the counts of the values, with 0 for those that are not keys; AssertionError iff a key of the multiset is not among the values. -/
theorem C127_multiset_to_distri (m : Dict κ Int) (values : List κ) :
    ((∀ k ∈ m.keys, k ∈ values) → multisetToDistri m values = .ok (values.map fun v => (m.get? v).getD 0)) ∧
    ((∃ k ∈ m.keys, k ∉ values) → multisetToDistri m values = .error .assertion) := by
  unfold multisetToDistri
  constructor
  · intro h
    rw [if_pos h, distriLoop_spec m values 0 _ [] (by simp) rfl, List.nil_append]
  · rintro ⟨k, h1, h2⟩
    rw [if_neg fun h => h2 (h k h1)]

/-- **C127.** Over a list of all keys, inclusion of multisets is inclusion of the distributions place by place (for counts that are not negative). -/
theorem C127_distri_le (a b : Dict κ Int) (values : List κ) (ka : a.keys.Nodup) (ha : ∀ k ∈ a.keys, k ∈ values)
    (pa : ∀ p ∈ a, 0 ≤ p.2) (pb : ∀ p ∈ b, 0 ≤ p.2) (u v : List Int) (hu : multisetToDistri a values = .ok u) (hv : multisetToDistri b values = .ok v) :
    isMultisubset a b = true ↔ List.Forall₂ (· ≤ ·) u v := by
  have hu' := hu
  unfold multisetToDistri at hu hv
  rw [if_pos ha, distriLoop_spec a values 0 _ [] (by simp) rfl, List.nil_append, Except.ok.injEq] at hu
  split at hv
  · rw [distriLoop_spec b values 0 _ [] (by simp) rfl, List.nil_append, Except.ok.injEq] at hv
    subst hu; subst hv
    rw [C127_is_multisubset a b ka, List.forall₂_map_left_iff, List.forall₂_map_right_iff, List.forall₂_same]
    have nn : ∀ (m : Dict κ Int), (∀ p ∈ m, 0 ≤ p.2) → ∀ x, 0 ≤ (m.get? x).getD 0 := by
      intro m hm x
      cases h : m.get? x with
      | none => simp
      | some c => exact hm _ (Dict.get?_mem h)
    constructor
    · intro h x _
      have := h x
      unfold multiplicity at this
      have h1 := nn a pa x
      have h2 := nn b pb x
      omega
    · intro h x
      unfold multiplicity
      by_cases hx : x ∈ values
      · have := h x hx
        omega
      · have : a.get? x = none := by
          cases h : a.get? x with
          | none => rfl
          | some c => exact absurd (ha x (Dict.mem_keys_iff.2 ⟨c, h⟩)) hx
        rw [this]
        simp
  · cases hv

example : isMultisubset [("a", 2), ("b", -1)] [("a", 3)] = true := by decide +kernel
example : isMultisubset [("a", 2), ("b", 1)] [("a", 3)] = false := by decide +kernel
example : multisetToDistri [("a", 2), ("c", 5)] ["c", "b", "a"] = .ok [5, 0, 2] := by decide +kernel
example : multisetToDistri [("a", 2), ("d", 5)] ["c", "b", "a"] = .error .assertion := by decide +kernel

/-! ## `make_transposition` and `swap_matrix_rows` -/

/-- what an exchange does with a place -/
def exchange (a b i : Nat) : Nat := if i = a then b else if i = b then a else i

theorem placeOf_nat {n i : Nat} (h : i < n) : placeOf n i = .ok i := by
  unfold placeOf
  rw [if_pos (by omega)]
  rfl

/-- **C128.** For different places below the length, `make_transposition` is the list of the images of the exchange. -/
theorem C128_make_transposition (a b n : Nat) (hab : a ≠ b) (ha : a < n) (hb : b < n) :
    makeTransposition a b n = .ok ((List.range n).map fun i => (exchange a b i : Int)) := by
  unfold makeTransposition
  rw [if_neg (by omega), if_neg (by omega)]
  simp only [Int.toNat_natCast, List.length_map, List.length_range, List.length_set, bind, Except.bind, pure, Except.pure, placeOf_nat ha, placeOf_nat hb, Except.ok.injEq]
  apply List.ext_getElem
  · simp
  · intro i h1 h2
    simp only [List.getElem_set, List.getElem_map, List.getElem_range]
    unfold exchange
    split
    · next h => rw [if_neg (by omega), if_pos h.symm]
    · next h =>
      split
      · next h' => rw [if_pos h'.symm]
      · next h' => rw [if_neg (by omega), if_neg (by omega)]

/-- **C128.** Its square is the identity. -/
theorem C128_involution (a b i : Nat) : exchange a b (exchange a b i) = i := by
  unfold exchange
  split <;> split <;> (try split) <;> omega

/-- **C128.** Equal places, and places that are not below the length, are not allowed. -/
theorem C128_errors (a b n : Int) : (a = b → makeTransposition a b n = .error .argValue) ∧ (a ≠ b → (n ≤ a ∨ n ≤ b) → makeTransposition a b n = .error .argValue) := by
  unfold makeTransposition
  constructor
  · intro h
    rw [if_pos (by omega)]
    rfl
  · intro h h'
    rw [if_neg (by omega), if_pos (by omega)]
    rfl

/-- **C128 (what happens with a negative place).** A place below `-n` raises an `IndexError`.  Otherwise negative places are accepted, but the result
contains a negative number, or (when the second place is the negative way to write the first one) nothing is exchanged. -/
theorem C128_negative (a b : Int) (n : Nat) (hab : a ≠ b) (ha : a < n) (hb : b < n) (hneg : a < 0 ∨ b < 0) :
    ((a < -n ∨ b < -n) → makeTransposition a b n = .error .indexError) ∧
    (-n ≤ a → -n ≤ b → ∃ l, makeTransposition a b n = .ok l ∧ l.length = n ∧
      (¬ (b < 0 ∧ a = b + n) → ∃ x ∈ l, x < 0) ∧ (b < 0 ∧ a = b + n → l = (List.range n).map fun k : Nat => (k : Int))) := by
  have hplace : ∀ x : Int, x < n → -n ≤ x → placeOf n x = .ok (if x < 0 then (x + n).toNat else x.toNat) := by
    intro x h1 h2
    unfold placeOf
    by_cases hx : x < 0
    · rw [if_neg (by omega), if_pos ⟨hx, h2⟩, if_pos hx]
    · rw [if_pos ⟨by omega, h1⟩, if_neg hx]
  have hfar : ∀ x : Int, x < -n → placeOf n x = .error .indexError := by
    intro x h
    unfold placeOf
    rw [if_neg (by omega), if_neg (by omega)]
  unfold makeTransposition
  rw [if_neg (by omega), if_neg (by omega)]
  simp only [Int.toNat_natCast, List.length_map, List.length_range, List.length_set, bind, Except.bind, pure, Except.pure]
  constructor
  · intro h
    by_cases h1 : a < -n
    · rw [hfar a h1]
    · rw [hplace a ha (by omega), hfar b (by omega)]
  · intro h1 h2
    rw [hplace a ha h1, hplace b hb h2]
    refine ⟨_, rfl, by simp, ?_, ?_⟩
    · intro h
      by_cases h3 : a < 0
      · refine ⟨a, ?_, h3⟩
        apply List.mem_iff_getElem?.2
        refine ⟨if b < 0 then (b + n).toNat else b.toNat, ?_⟩
        rw [List.getElem?_set_self (by simp; split <;> omega)]
      · refine ⟨b, ?_, by omega⟩
        apply List.mem_iff_getElem?.2
        refine ⟨if a < 0 then (a + n).toNat else a.toNat, ?_⟩
        rw [List.getElem?_set_ne (by rw [if_neg h3, if_pos (by omega)]; omega), List.getElem?_set_self (by simp; split <;> omega)]
    · rintro ⟨h3, h4⟩
      have e1 : (if b < 0 then (b + n).toNat else b.toNat) = (if a < 0 then (a + n).toNat else a.toNat) := by
        rw [if_pos h3, if_neg (by omega)]; omega
      rw [e1, List.set_set]
      apply List.ext_getElem
      · simp
      · intro i g1 g2
        simp only [List.getElem_set, List.getElem_map, List.getElem_range]
        rw [if_neg (show ¬ a < 0 by omega)]
        split <;> omega

example : makeTransposition (-1) 0 3 = .ok [-1, 1, 0] ∧ makeTransposition (-4) 0 3 = .error .indexError ∧
    makeTransposition 2 (-1) 3 = .ok [0, 1, 2] := by decide +kernel

/-- the place meant by an index that may be negative -/
def Denotes (n : Nat) (a : Int) (i : Nat) : Prop := i < n ∧ (a = i ∨ a = (i : Int) - n)

theorem placeOf_iff {n : Nat} {a : Int} {i : Nat} : placeOf n a = .ok i ↔ Denotes n a i := by
  unfold placeOf Denotes
  split
  · rw [Except.ok.injEq]; omega
  · split
    · rw [Except.ok.injEq]; omega
    · constructor
      · intro h; cases h
      · rintro h; omega

/-- **C128.** `swap_matrix_rows(matrix, a, b)` exchanges two rows: the row `i` of the result is the row of the matrix with the index that is exchanged with `i`. Negative indices count from the end. -/
theorem C128_swap_matrix_rows {α : Type} (m : NpMat α) (a b : Int) (i j : Nat) (ha : Denotes m.rows.length a i) (hb : Denotes m.rows.length b j) :
    ∃ r, swapMatrixRows m a b = .ok r ∧ r.width = m.width ∧ r.rows.length = m.rows.length ∧ ∀ k < m.rows.length, r.rows[k]? = m.rows[exchange i j k]? := by
  have pa := placeOf_iff.2 ha
  have pb := placeOf_iff.2 hb
  obtain ⟨hi, hi'⟩ := ha
  obtain ⟨hj, hj'⟩ := hb
  unfold swapMatrixRows
  dsimp only
  rw [if_neg (by omega)]
  simp only [bind, Except.bind, pure, Except.pure, pa, pb]
  refine ⟨_, rfl, rfl, by simp, fun k hk => ?_⟩
  dsimp only
  rw [List.getElem?_set, List.length_set]
  unfold exchange
  by_cases h1 : j = k
  · rw [if_pos h1, if_pos hj]
    subst h1
    by_cases h2 : j = i
    · rw [if_pos h2, List.getD_eq_getElem _ _ hi, List.getElem?_eq_getElem hj]
      subst h2; rfl
    · rw [if_neg h2, if_pos rfl, List.getD_eq_getElem _ _ hi, List.getElem?_eq_getElem hi]
  · rw [if_neg h1, List.getElem?_set]
    by_cases h2 : i = k
    · rw [if_pos h2, if_pos hi, if_pos h2.symm, List.getD_eq_getElem _ _ hj, List.getElem?_eq_getElem hj]
    · rw [if_neg h2, if_neg (fun h => h2 h.symm), if_neg (fun h => h1 h.symm)]

/-- **C128.** Indices that are too big are refused, and those that are too small have no place. -/
theorem C128_swap_errors {α : Type} (m : NpMat α) (a b : Int) :
    (((m.rows.length : Int) ≤ a ∨ (m.rows.length : Int) ≤ b) → swapMatrixRows m a b = .error .argMismatch) ∧
    (a < m.rows.length → b < m.rows.length → (a < -m.rows.length ∨ b < -m.rows.length) → swapMatrixRows m a b = .error .indexError) := by
  unfold swapMatrixRows
  dsimp only
  constructor
  · intro h
    rw [if_pos (by omega)]
    rfl
  · intro h1 h2 h3
    rw [if_neg (by omega)]
    have far : ∀ (n : Nat) (a : Int), a < -n → placeOf n a = .error .indexError := by
      intro n a h
      unfold placeOf
      rw [if_neg (by omega), if_neg (by omega)]
    simp only [bind, Except.bind, pure, Except.pure]
    rcases h3 with h3 | h3
    · rw [far _ _ h3]
    · rw [far _ _ h3]
      cases h : placeOf m.rows.length a with
      | ok i => rfl
      | error e =>
        dsimp only
        unfold placeOf at h
        split at h
        · cases h
        · split at h
          · cases h
          · cases h; rfl

example : makeTransposition 1 3 5 = .ok [0, 3, 2, 1, 4] := by decide +kernel
example : swapMatrixRows ⟨[[1, 2], [3, 4], [5, 6]], 2⟩ 0 (-1) = .ok (⟨[[5, 6], [3, 4], [1, 2]], 2⟩ : NpMat Int) := rfl

/-! ## `binom` -/

/-- **C129.** `binom(n, k)` is the number of subsets with `k` elements of a set with `n` elements. -/
theorem C129_binom {α : Type} (s : Finset α) (k : Nat) (h : k ≤ s.card) : binom s.card k = .ok (s.powerset.filter fun t => t.card = k).card := by
  rw [← Finset.powersetCard_eq_filter, Finset.card_powersetCard]
  unfold binom mathFactorial
  rw [if_neg (by omega), if_neg (by omega), if_neg (by omega)]
  simp only [bind, Except.bind, pure, Except.pure, Int.toNat_natCast, Except.ok.injEq]
  rw [show ((s.card : Int) - (k : Int)).toNat = s.card - k by omega]
  exact (Nat.choose_eq_factorial_div_factorial h).symm

/-- **C129.** ValueError for a negative argument and for `k > n`. -/
theorem C129_error (n k : Int) (h : n < 0 ∨ k < 0 ∨ n < k) : binom n k = .error .valueError := by
  unfold binom mathFactorial
  simp only [bind, Except.bind, pure, Except.pure]
  by_cases h1 : n < 0
  · rw [if_pos h1]
  · rw [if_neg h1]
    by_cases h2 : k < 0
    · rw [if_pos h2]
    · rw [if_neg h2, if_pos (by omega)]

example : binom 7 3 = .ok 35 := by decide +kernel

end Verif.A
