import Verif.Boolf.Model6
import Verif.Boolf.Props14

/-!
# C81: roots and fullspots
-/

namespace Verif.BF
open Verif.Py Verif.BV Verif.P Verif.W
open Verif.A hiding Mat

/-! ### spots -/

theorem mem_fullspots {f : Boolf} {i : Nat} : i ∈ f.fullspots ↔ f.root.vector[i]? = some true := mem_exposet

theorem fullspots_lt {f : Boolf} (h : Sound f) {i : Nat} (hi : i ∈ f.fullspots) : i < 2 ^ f.atomvals.length := by
  have := getElem?_some_lt (mem_fullspots.1 hi)
  rwa [h.len] at this

theorem fullspots_asc (f : Boolf) : f.fullspots.Pairwise (· < ·) := exposet_pairwise _

/-- the spot of an assignment -/
theorem spot_mem {f : Boolf} (h : Sound f) (a : Nat → Bool) : valB (f.atomvals.map a) ∈ f.fullspots ↔ f.eval a = true := by
  have hlt : valB (f.atomvals.map a) < f.root.vector.length := by rw [h.len]; exact valB_map_lt _ _
  rw [mem_fullspots]
  unfold Boolf.eval
  rw [List.getD_eq_getElem?_getD, List.getElem?_eq_getElem hlt]
  simp

/-- an assignment of a spot -/
theorem spot_assign {f : Boolf} (h : Sound f) {s : Nat} (hs : s < 2 ^ f.atomvals.length) :
    ∃ a : Nat → Bool, valB (f.atomvals.map a) = s ∧ ∀ k x : Nat, f.atomvals[k]? = some x → a x = s.testBit k := by
  obtain ⟨a, ha⟩ := exists_assign h.nodup hs
  refine ⟨a, ha, fun k x hk => ?_⟩
  rw [← ha, testBit_valB_map, hk]; rfl

theorem spot_testBit {A : List Nat} {k x : Nat} (hk : A[k]? = some x) (a : Nat → Bool) : (valB (A.map a)).testBit k = a x := by
  rw [testBit_valB_map, hk]; rfl

theorem spot_ext {n s t : Nat} (hs : s < 2 ^ n) (ht : t < 2 ^ n) (h : ∀ k < n, s.testBit k = t.testBit k) : s = t := by
  apply Nat.eq_of_testBit_eq
  intro k
  by_cases hk : k < n
  · exact h k hk
  · have h2 : (2 : Nat) ^ n ≤ 2 ^ k := Nat.pow_le_pow_right (by decide) (by omega)
    rw [Nat.testBit_lt_two_pow (by omega), Nat.testBit_lt_two_pow (by omega)]

theorem item_ok {α : Type} {l : List α} {i : Nat} {x : α} (h : l[i]? = some x) : item l i = .ok x := by
  unfold item; rw [h]

/-! ### C81 -/

/-- the function with the same table and the first atoms -/
def rootOf (f : Boolf) : Boolf := ⟨f.root, List.range f.valency, f.valency, f.valency, f.isConstant, false⟩

theorem rootOf_canon {f : Boolf} (h : Canon f) : Canon (rootOf f) := by
  have hv := h.val
  have hl : (rootOf f).atomvals.length = f.atomvals.length := by show (List.range f.valency).length = _; rw [List.length_range, hv]
  refine ⟨⟨List.pairwise_lt_range, by rw [hl]; exact h.len, by rw [hl]; exact hv, fun n => ?_⟩, ?_, rfl, ?_⟩
  · show f.valency ≤ n ↔ ∀ x ∈ List.range f.valency, x < n
    constructor
    · intro h1 x hx; rw [List.mem_range] at hx; omega
    · intro h1
      by_contra hc
      have := h1 n (List.mem_range.2 (by omega))
      omega
  · show f.isConstant = decide (List.range f.valency = [])
    rw [h.const]
    congr 1
    rw [List.range_eq_nil, hv, List.length_eq_zero_iff]
  · intro k hk
    rw [hl] at hk ⊢
    exact h.ess k hk

theorem isRoot_iff {f : Boolf} (h : Sound f) : f.isRoot = true ↔ f.atomvals = List.range f.valency := by
  unfold Boolf.isRoot
  rw [decide_eq_true_eq]
  constructor
  · intro he
    have hs : ∀ x ∈ f.atomvals, x < f.atomvals.length := by
      intro x hx
      have := h.adic_lt hx
      rw [he, h.val] at this
      exact this
    have hp : f.atomvals.Perm (List.range f.atomvals.length) := by
      apply List.Subperm.perm_of_length_le
      · exact h.nodup.subperm (fun x hx => List.mem_range.2 (hs x hx))
      · simp
    rw [h.val]
    exact hp.eq_of_pairwise (fun a b _ _ h1 h2 => by omega) h.asc List.pairwise_lt_range
  · intro he
    apply le_antisymm
    · rw [h.adic, he]; simp
    · by_contra hc
      have := h.adic_lt (x := f.adicity) (by rw [he]; exact List.mem_range.2 (by omega))
      omega

theorem rootBoolf_eq {f : Boolf} (h : Canon f) : f.rootBoolf = .ok (rootOf f) := by
  have hr := rootOf_canon h
  unfold Boolf.rootBoolf
  by_cases hroot : f.isRoot = true
  · rw [if_pos hroot]
    refine congrArg Except.ok (h.ext hr fun a => ?_)
    have := (isRoot_iff h.toSound).1 hroot
    unfold Boolf.eval rootOf
    simp only
    rw [← this]
  · rw [if_neg hroot]
    obtain ⟨g, g1, g2, g3⟩ := newFullspots_spec (fs := f.fullspots) (A := List.range f.valency)
      (av := some ((List.range f.valency).map Int.ofNat)) (ar := none) List.pairwise_lt_range
      (by rw [List.length_range, h.val]; exact fun i hi => fullspots_lt h.toSound hi) (by simp) rfl
    rw [g1]
    refine congrArg Except.ok (g2.ext hr fun a => ?_)
    rw [g3, Bool.eq_iff_iff, decide_eq_true_eq]
    exact spot_mem hr.toSound a

/-- **C81.** `is_root` tells whether the atoms are the first ones, 0 … valency − 1. -/
theorem C81_is_root (f : Boolf) (hf : Obj f) : f.isRoot = true ↔ f.atomvals = List.range f.valency := isRoot_iff hf.good.toSound

/-- **C81.** `root_boolf` is the function with the same root table and the first atoms.  Its value at a number is that of the
original function at every number whose digits at the atoms are those of the first number. -/
theorem C81_root_boolf (f : Boolf) (hf : Reach f) :
    ∃ g, f.rootBoolf = .ok g ∧ Reach g ∧ g.root = f.root ∧ g.valency = f.valency ∧ g.atomvals = List.range f.valency ∧
      g.isRoot = true ∧ (f.isRoot = true → g = f) ∧ g.rootBoolf = .ok g ∧
      ∀ key key' : Nat, (∀ k x : Nat, f.atomvals[k]? = some x → key'.testBit k = key.testBit x) → g.getItem key' = f.getItem key := by
  have h := hf.canon
  have hr := rootOf_canon h
  refine ⟨rootOf f, rootBoolf_eq h, hr.reach, rfl, rfl, rfl, by simp [Boolf.isRoot, rootOf], fun h1 => ?_, ?_, ?_⟩
  · have := rootBoolf_eq h
    unfold Boolf.rootBoolf at this
    rw [if_pos h1] at this
    exact (Except.ok.inj this).symm
  · unfold Boolf.rootBoolf
    rw [if_pos (by simp [Boolf.isRoot, rootOf])]
  · intro key key' hk
    rw [getItem_eq h.toSound, getItem_eq hr.toSound]
    unfold Boolf.eval
    congr 3
    show (List.range f.valency).map key'.testBit = f.atomvals.map key.testBit
    apply List.ext_getElem?
    intro k
    rw [List.getElem?_map, List.getElem?_map]
    by_cases hl : k < f.atomvals.length
    · rw [List.getElem?_range (by rw [h.val]; exact hl), List.getElem?_eq_getElem hl, Option.map_some, Option.map_some,
        hk k _ (List.getElem?_eq_getElem hl)]
    · rw [List.getElem?_eq_none (l := f.atomvals) (by omega), List.getElem?_eq_none (by rw [List.length_range, h.val]; omega)]
      rfl

/-- **C81.** Two functions have the same `root_boolf` iff they have the same root table. -/
theorem C81_same_root (f g : Boolf) (hf : Reach f) (hg : Reach g) : f.rootBoolf = g.rootBoolf ↔ f.root = g.root := by
  rw [rootBoolf_eq hf.canon, rootBoolf_eq hg.canon]
  constructor
  · intro h
    have := congrArg Boolf.root (Except.ok.inj h)
    exact this
  · intro h
    refine congrArg Except.ok ((rootOf_canon hf.canon).ext (rootOf_canon hg.canon) fun a => ?_)
    have hv : f.valency = g.valency := by
      rw [hf.canon.val, hg.canon.val]
      have h1 := hf.canon.len
      rw [h, hg.canon.len] at h1
      exact (Nat.pow_right_injective (le_refl 2) h1).symm
    unfold Boolf.eval rootOf
    simp only
    rw [h, hv]

/-- **C81.** `fullspots` are the spots where the function is true: the digits of a spot are the values of the atoms in ascending order. -/
theorem C81_fullspots (f : Boolf) (hf : Obj f) :
    f.fullspots.Pairwise (· < ·) ∧ (∀ s ∈ f.fullspots, s < 2 ^ f.valency) ∧
    ∀ s key : Nat, s < 2 ^ f.valency → (∀ k x : Nat, f.atomvals[k]? = some x → s.testBit k = key.testBit x) →
      (s ∈ f.fullspots ↔ f.getItem key = .ok true) := by
  have h := hf.good.toSound
  refine ⟨fullspots_asc f, fun s hs => by rw [h.val]; exact fullspots_lt h hs, fun s key hs hk => ?_⟩
  have e : s = valB (f.atomvals.map key.testBit) := by
    rw [h.val] at hs
    apply spot_ext hs (valB_map_lt _ _)
    intro k hkl
    rw [spot_testBit (List.getElem?_eq_getElem hkl), hk k _ (List.getElem?_eq_getElem hkl)]
  rw [e, spot_mem h, getItem_eq h, Except.ok.injEq]

theorem asc_ge {A : List Nat} (hA : A.Pairwise (· < ·)) {k x : Nat} (hk : A[k]? = some x) : k ≤ x := by
  induction k generalizing x with
  | zero => omega
  | succ k ih =>
    have hl := getElem?_some_lt hk
    have h1 := ih (List.getElem?_eq_getElem (by omega : k < A.length))
    have h2 := getElem_lt hA (List.getElem?_eq_getElem (by omega : k < A.length)) hk (by omega)
    omega

theorem asc_step {A : List Nat} (hA : A.Pairwise (· < ·)) {j k x y : Nat} (hj : A[j]? = some x) (hk : A[k]? = some y) (h : j ≤ k) : x + (k - j) ≤ y := by
  induction k generalizing y with
  | zero =>
    obtain rfl : j = 0 := by omega
    rw [hj] at hk; cases hk; omega
  | succ k ih =>
    by_cases he : j = k + 1
    · subst he; rw [hj] at hk; cases hk; omega
    · have hl := getElem?_some_lt hk
      have h1 := ih (List.getElem?_eq_getElem (by omega : k < A.length)) (by omega)
      have h2 := getElem_lt hA (List.getElem?_eq_getElem (by omega : k < A.length)) hk (by omega)
      omega

/-- **C81.** `spread_vector` has an entry for each atom: how much it exceeds its position.  The entries are not negative and not descending,
and they are all zero iff `is_root`. -/
theorem C81_spread_vector (f : Boolf) (hf : Obj f) :
    ∃ v, f.spreadVector = .ok v ∧ v.length = f.valency ∧
      (∀ k x : Nat, f.atomvals[k]? = some x → v[k]? = some ((x : Int) - k)) ∧
      (∀ z ∈ v, 0 ≤ z) ∧ v.Pairwise (· ≤ ·) ∧ ((∀ z ∈ v, z = 0) ↔ f.isRoot = true) := by
  have h := hf.good.toSound
  have e : f.spreadVector = .ok ((List.range f.valency).map fun i => ((f.atomvals.getD i 0 : Nat) : Int) - (i : Int)) := by
    unfold Boolf.spreadVector
    apply mapM_ok
    intro i hi
    rw [List.mem_range, h.val] at hi
    simp only [item_ok (List.getElem?_eq_getElem hi), bind, Except.bind, pure, Except.pure, List.getD_eq_getElem?_getD,
      List.getElem?_eq_getElem hi, Option.getD_some]
  have hget : ∀ k x : Nat, f.atomvals[k]? = some x →
      ((List.range f.valency).map fun i => ((f.atomvals.getD i 0 : Nat) : Int) - (i : Int))[k]? = some ((x : Int) - k) := by
    intro k x hk
    rw [List.getElem?_map, List.getElem?_range (by rw [h.val]; exact getElem?_some_lt hk), Option.map_some, List.getD_eq_getElem?_getD, hk]
    rfl
  refine ⟨_, e, by simp, hget, ?_, ?_, ?_⟩
  · intro z hz
    obtain ⟨i, hi, rfl⟩ := List.mem_map.1 hz
    rw [List.mem_range, h.val] at hi
    have := asc_ge h.asc (List.getElem?_eq_getElem hi)
    simp only [List.getD_eq_getElem?_getD, List.getElem?_eq_getElem hi, Option.getD_some]
    omega
  · rw [List.pairwise_map]
    refine List.Pairwise.imp_of_mem ?_ (List.pairwise_lt_range (n := f.valency))
    intro a b ha hb hab
    rw [List.mem_range, h.val] at ha hb
    have := asc_step h.asc (List.getElem?_eq_getElem ha) (List.getElem?_eq_getElem hb) hab.le
    simp only [List.getD_eq_getElem?_getD, List.getElem?_eq_getElem ha, List.getElem?_eq_getElem hb, Option.getD_some]
    omega
  · rw [isRoot_iff h]
    constructor
    · intro hz
      apply List.ext_getElem?
      intro k
      by_cases hk : k < f.atomvals.length
      · have h1 := hget k _ (List.getElem?_eq_getElem hk)
        have h2 := hz _ (List.mem_of_getElem? h1)
        rw [List.getElem?_range (by rw [h.val]; exact hk), List.getElem?_eq_getElem hk]
        congr 1
        omega
      · rw [List.getElem?_eq_none (by omega), List.getElem?_eq_none (by rw [List.length_range, h.val]; omega)]
    · intro he z hz
      obtain ⟨i, hi, rfl⟩ := List.mem_map.1 hz
      rw [he, List.getD_eq_getElem?_getD, List.getElem?_range (List.mem_range.1 hi)]
      simp

/-- **C81.** `inflated_fullspots(atoms)`, with `U` the ascending list of the given atoms: the true spots with respect to those atoms; `ArgMismatchError` if
an atom of the function is missing. -/
theorem C81_inflated_fullspots (f : Boolf) (hf : Obj f) (U : List Nat) (hU : U.Pairwise (· < ·)) (l : List Int)
    (hl : ∀ z : Int, z ∈ l ↔ ∃ x ∈ U, z = (x : Int)) :
    ((∀ x ∈ f.atomvals, x ∈ U) → ∃ r, f.inflatedFullspots l = .ok r ∧ r.Pairwise (· < ·) ∧ (∀ s ∈ r, s < 2 ^ U.length) ∧
      ∀ s key : Nat, s < 2 ^ U.length → (∀ k x : Nat, U[k]? = some x → s.testBit k = key.testBit x) →
        (s ∈ r ↔ f.getItem key = .ok true)) ∧
    (¬ (∀ x ∈ f.atomvals, x ∈ U) → f.inflatedFullspots l = .error .argMismatch) := by
  obtain ⟨h1, h2⟩ := C51_tt_atoms f hf U hU l hl
  constructor
  · intro hs
    obtain ⟨t, t1, t2, t3⟩ := h1 hs
    refine ⟨t.exposet, ?_, exposet_pairwise t, ?_, ?_⟩
    · unfold Boolf.inflatedFullspots
      rw [t1]; rfl
    · intro s hs
      have := getElem?_some_lt (mem_exposet.1 hs)
      unfold Binv.length at t2
      omega
    · intro s key hs hk
      rw [← t3 s key hs hk, mem_exposet]
      unfold Binv.length at t2
      unfold Binv.getItem
      rw [List.getElem?_eq_getElem (by omega)]
      simp
  · intro hn
    unfold Boolf.inflatedFullspots
    rw [h2 hn]; rfl

/-- **C81.** `atomvals_integer` is the number whose binary digits 1 stand at the atoms. -/
theorem C81_atomvals_integer (f : Boolf) :
    ∃ m, f.atomvalsInteger = .ok m ∧ ∀ x : Nat, m.testBit x = true ↔ x ∈ f.atomvals := by
  obtain ⟨b, b1, _, b3⟩ := (C26_exposet f.atomvals 0).2.2
  refine ⟨b.intval, by unfold Boolf.atomvalsInteger; rw [b1]; rfl, fun x => ?_⟩
  rw [← b3 x, mem_exposet, intval_eq, testBit_valB, List.getD_eq_getElem?_getD]
  cases b.vector[x]? <;> simp

instance (v : List Bool) (n k : Nat) : Decidable (Ess v n k) := by unfold Ess; infer_instance

/-- the object made from a truth table without superfluous atoms -/
theorem newTT_explicit (s : List Char) (v : List Bool) (A : List Nat) (ad : Nat) (hs : s.filter (· ≠ ' ') = v.map fun b => if b then '1' else '0')
    (hA : A.Pairwise (· < ·)) (hv : v.length = 2 ^ A.length) (had : ∀ n, ad ≤ n ↔ ∀ x ∈ A, x < n) (h0 : A ≠ [])
    (hess : ∀ k < A.length, Ess v (A.length - 1) k) :
    newTT (.str s) (some (A.map Int.ofNat)) = .ok ⟨⟨v⟩, A, A.length, ad, false, false⟩ ∧
    (A = List.range A.length → newTT (.str s) = .ok ⟨⟨v⟩, A, A.length, ad, false, false⟩) ∧
    Canon ⟨⟨v⟩, A, A.length, ad, false, false⟩ := by
  have hc : Canon ⟨⟨v⟩, A, A.length, ad, false, false⟩ := ⟨⟨hA, hv, rfl, had⟩, by simp [h0], rfl, hess⟩
  refine ⟨?_, fun hr => ?_, hc⟩
  · obtain ⟨f, f1, f2, f3⟩ := newTT_list (v := v) (A := A) hA hv
    have h2 := C64_formats v (some (A.map Int.ofNat)) false s hs
    rw [h2.2.1, ← h2.1, f1]
    exact congrArg Except.ok (f2.ext hc fun a => by rw [f3]; rfl)
  · obtain ⟨g, g1, g2, _, g4⟩ := newTT_table (v := v) hv
    have h2 := C64_formats v none false s hs
    rw [h2.2.1, ← h2.1, g1]
    refine congrArg Except.ok (g2.ext hc fun a => ?_)
    rw [g4, ← hr]; rfl

/-- `Boolf('0001', [1, 3])` is no root; its root is the conjunction of the atoms 0 and 1. -/
example : ∃ f g, newTT (.str ['0', '0', '0', '1']) (some [1, 3]) = .ok f ∧ Reach f ∧ f.isRoot = false ∧ f.fullspots = [3] ∧
    f.spreadVector = .ok [1, 2] ∧ f.rootBoolf = .ok g ∧ newTT (.str ['0', '0', '0', '1']) = .ok g ∧ g ≠ f := by
  obtain ⟨e1, _, e2⟩ := newTT_explicit ['0', '0', '0', '1'] [false, false, false, true] [1, 3] 4 (by decide) (by decide) (by decide)
    (by intro n; simp; omega) (by decide) (by decide)
  obtain ⟨_, e3, e4⟩ := newTT_explicit ['0', '0', '0', '1'] [false, false, false, true] [0, 1] 2 (by decide) (by decide) (by decide)
    (by intro n; simp; omega) (by decide) (by decide)
  exact ⟨_, _, e1, e2.reach, by decide, by decide, by decide, rootBoolf_eq e2, e3 (by decide), by decide⟩

end Verif.BF
