import Verif.Boolf.Ctor

/-! # Canonical form; operators in terms of assignments -/

namespace Verif.BF
open Verif.Py Verif.BV Verif.P Verif.W
open Verif.A hiding Mat

theorem exists_assign {A : List Nat} (hA : A.Nodup) {y : Nat} (hy : y < 2 ^ A.length) : ∃ a : Nat → Bool, valB (A.map a) = y := by
  refine ⟨fun x => y.testBit (A.idxOf x), ?_⟩
  apply Nat.eq_of_testBit_eq
  intro k
  rw [testBit_valB_map]
  by_cases hk : k < A.length
  · rw [List.getElem?_eq_getElem hk, Option.map_some, hA.idxOf_getElem]; rfl
  · rw [List.getElem?_eq_none (by omega), Nat.testBit_lt_two_pow (lt_of_lt_of_le hy (Nat.pow_le_pow_right (by omega) (by omega)))]; rfl

/-- the assignment that agrees with `a` outside of `x` -/
def upd (a : Nat → Bool) (x : Nat) (b : Bool) : Nat → Bool := fun y => if y = x then b else a y

/-- the value depends on `x` -/
def Dep (e : (Nat → Bool) → Bool) (x : Nat) : Prop := ∃ a, e (upd a x false) ≠ e (upd a x true)

theorem Boolf.not_dep {f : Boolf} {x : Nat} (h : x ∉ f.atomvals) : ¬ Dep f.eval x := by
  rintro ⟨a, ha⟩
  apply ha
  apply Boolf.eval_congr
  intro y hy
  unfold upd
  rw [if_neg (by rintro rfl; exact h hy), if_neg (by rintro rfl; exact h hy)]

theorem dep_of_ess {f : Boolf} (h : Sound f) {k : Nat} (hk : k < f.atomvals.length) (he : Ess f.root.vector (f.atomvals.length - 1) k) :
    Dep f.eval f.atomvals[k] := by
  have hne : ∃ j < 2 ^ (f.atomvals.length - 1),
      f.root.vector.getD (ins k false j) false ≠ f.root.vector.getD (ins k true j) false := by
    by_contra hc
    push Not at hc
    apply he
    unfold half
    apply List.map_congr_left
    intro j hj
    exact hc j (List.mem_range.1 hj)
  obtain ⟨j, hj, hne⟩ := hne
  have hl : (f.atomvals.eraseIdx k).length = f.atomvals.length - 1 := List.length_eraseIdx_of_lt hk
  obtain ⟨a, ha⟩ := exists_assign (A := f.atomvals.eraseIdx k) (h.nodup.sublist (List.eraseIdx_sublist _ _)) (y := j) (by rw [hl]; exact hj)
  refine ⟨a, ?_⟩
  have hmem : f.atomvals[k] ∉ f.atomvals.eraseIdx k := by
    rw [List.mem_iff_getElem?]
    rintro ⟨i, hi⟩
    have hnd := (List.nodup_iff_getElem?_ne_getElem?).1 h.nodup
    rw [List.getElem?_eraseIdx, ← List.getElem?_eq_getElem hk] at hi
    split at hi
    · exact hnd i k (by omega) hk hi
    · have hlt := getElem?_some_lt (hi.trans (List.getElem?_eq_getElem hk))
      exact hnd k (i + 1) (by omega) hlt hi.symm
  have key : ∀ b, f.eval (upd a f.atomvals[k] b) = f.root.vector.getD (ins k b j) false := by
    intro b
    unfold Boolf.eval
    rw [valB_map_erase _ _ k hk]
    have e1 : upd a f.atomvals[k] b f.atomvals[k] = b := by unfold upd; rw [if_pos rfl]
    have e2 : (f.atomvals.eraseIdx k).map (upd a f.atomvals[k] b) = (f.atomvals.eraseIdx k).map a := by
      apply List.map_congr_left
      intro y hy
      unfold upd
      rw [if_neg (by rintro rfl; exact hmem hy)]
    rw [e1, e2, ha]
  rw [key, key]
  exact hne

theorem Canon.mem_iff {f : Boolf} (h : Canon f) (x : Nat) : x ∈ f.atomvals ↔ Dep f.eval x := by
  constructor
  · intro hx
    obtain ⟨k, hk, rfl⟩ := List.mem_iff_getElem.1 hx
    exact dep_of_ess h.toSound hk (h.ess k hk)
  · intro hd
    by_contra hc
    exact Boolf.not_dep hc hd

theorem root_eq_of_eval {f g : Boolf} (hf : Sound f) (hg : Sound g) (hA : f.atomvals = g.atomvals) (he : ∀ a, f.eval a = g.eval a) :
    f.root = g.root := by
  suffices h : f.root.vector = g.root.vector by cases hf' : f.root; cases hg' : g.root; rw [hf', hg'] at h; simp only at h; rw [h]
  apply List.ext_getElem?
  intro i
  have hl : f.root.vector.length = g.root.vector.length := by rw [hf.len, hg.len, hA]
  by_cases hi : i < f.root.vector.length
  · obtain ⟨a, ha⟩ := exists_assign hf.nodup (y := i) (by rw [← hf.len]; exact hi)
    have h1 := he a
    unfold Boolf.eval at h1
    rw [← hA, ha, List.getD_eq_getElem?_getD, List.getD_eq_getElem?_getD, List.getElem?_eq_getElem hi,
      List.getElem?_eq_getElem (by omega)] at h1
    rw [List.getElem?_eq_getElem hi, List.getElem?_eq_getElem (by omega)]
    exact congrArg some h1
  · rw [List.getElem?_eq_none (by omega), List.getElem?_eq_none (by omega)]

theorem adicity_eq {f g : Boolf} (hf : Sound f) (hg : Sound g) (hA : f.atomvals = g.atomvals) : f.adicity = g.adicity := by
  apply le_antisymm
  · rw [hf.adic, hA, ← hg.adic]
  · rw [hg.adic, ← hA, ← hf.adic]

/-- canonical objects with the same values have the same attributes -/
theorem Canon.ext {f g : Boolf} (hf : Canon f) (hg : Canon g) (he : ∀ a, f.eval a = g.eval a) : f = g := by
  have hfun : f.eval = g.eval := funext he
  have hA : f.atomvals = g.atomvals := by
    apply eq_of_mem_iff_of_lt hf.asc hg.asc
    intro x
    rw [hf.mem_iff, hg.mem_iff, hfun]
  have hr := root_eq_of_eval hf.toSound hg.toSound hA he
  have hd := adicity_eq hf.toSound hg.toSound hA
  have hv : f.valency = g.valency := by rw [hf.val, hg.val, hA]
  have hc : f.isConstant = g.isConstant := by rw [hf.const, hg.const, hA]
  have hi : f.isInflated = g.isInflated := by rw [hf.infl, hg.infl]
  cases f; cases g
  simp only at *
  subst hA hr hd hv hc hi
  rfl

/-- the value depends only on finitely many atoms, so natural keys suffice -/
theorem eval_key (f g : Boolf) (hf : Sound f) (hg : Sound g) (a : Nat → Bool) :
    ∃ key : Nat, f.eval a = f.eval key.testBit ∧ g.eval a = g.eval key.testBit := by
  refine ⟨valB ((List.range (max f.adicity g.adicity)).map a), ?_, ?_⟩
  all_goals
    apply Boolf.eval_congr
    intro x hx
    rw [testBit_valB_map]
    have hlt : x < max f.adicity g.adicity := by
      first
        | exact lt_of_lt_of_le (hf.adic_lt hx) (le_max_left _ _)
        | exact lt_of_lt_of_le (hg.adic_lt hx) (le_max_right _ _)
    rw [List.getElem?_range hlt]; rfl

theorem Canon.ext_key {f g : Boolf} (hf : Canon f) (hg : Canon g) (he : ∀ key : Nat, f.getItem key = g.getItem key) : f = g := by
  apply hf.ext hg
  intro a
  obtain ⟨key, k1, k2⟩ := eval_key f g hf.toSound hg.toSound a
  have := he key
  rw [getItem_eq hf.toSound, getItem_eq hg.toSound] at this
  rw [k1, k2, Except.ok.inj this]

theorem Boolf.eq_iff (f g : Boolf) : f.eq g = true ↔ f.root = g.root ∧ f.atomvals = g.atomvals := by
  unfold Boolf.eq Binv.eq
  cases hf : f.root; cases hg : g.root
  simp

/-! ## Operators -/

theorem unionAtoms_nodup (f g : Boolf) : (unionAtoms f g).Nodup := (sorted_perm _).nodup_iff.2 (List.nodup_dedup _)

theorem mem_unionAtoms {f g : Boolf} {x : Nat} : x ∈ unionAtoms f g ↔ x ∈ f.atomvals ∨ x ∈ g.atomvals := by
  unfold unionAtoms
  rw [mem_sorted, List.mem_dedup, List.mem_append]

theorem unionAtoms_lt (f g : Boolf) : (unionAtoms f g).Pairwise (· < ·) := sorted_pairwise_lt (List.nodup_dedup _)

theorem sortedI_map {A : List Nat} (h : A.Pairwise (· < ·)) :
    (A.map Int.ofNat).dedup.insertionSort (· ≤ ·) = A.map Int.ofNat := by
  have hnd : (A.map Int.ofNat).Nodup := List.Nodup.map (f := Int.ofNat) (fun x y hxy => by simpa using hxy) (h.imp (fun h => Nat.ne_of_lt h))
  rw [List.dedup_eq_self.2 hnd]
  apply List.Pairwise.insertionSort_eq
  rw [List.pairwise_map]
  exact h.imp (fun h => by simpa using h.le)

theorem tt_union {f : Boolf} (h : Sound f) {A : List Nat} (hA : A.Pairwise (· < ·)) (hs : ∀ x ∈ f.atomvals, x ∈ A) :
    ∃ r, f.tt (.atoms (A.map Int.ofNat)) = .ok r ∧ r.length = 2 ^ A.length ∧
      ∀ a : Nat → Bool, r.vector.getD (valB (A.map a)) false = f.eval a := by
  obtain ⟨r, r1, r2, r3⟩ := tt_atoms_eq h (l := A.map Int.ofNat) (fun x hx => List.mem_map.2 ⟨x, hs x hx, rfl⟩)
  rw [sortedI_map hA] at r2 r3
  refine ⟨r, r1, by simpa using r2, fun a => ?_⟩
  have := r3 (fun z => a z.toNat)
  rw [List.map_map] at this
  exact this

theorem getD_zipWith (op : Bool → Bool → Bool) {v w : List Bool} {i : Nat} (hv : i < v.length) (hw : i < w.length) :
    (List.zipWith op v w).getD i false = op (v.getD i false) (w.getD i false) := by
  simp only [List.getD_eq_getElem?_getD, List.getElem?_zipWith, List.getElem?_eq_getElem hv, List.getElem?_eq_getElem hw]
  rfl

theorem toNat_map_ofNat (A : List Nat) : (A.map Int.ofNat).map Int.toNat = A := by
  rw [List.map_map]; simp [Function.comp_def]

theorem sorted_eq_self {A : List Nat} (h : A.Pairwise (· < ·)) : sorted A = A :=
  List.Pairwise.insertionSort_eq (h.imp (fun h => h.le))

theorem mk_binv (b : Binv) : BV.mk { vector := some (.binv b) } = .ok b := by
  unfold BV.mk mkVector
  simp

/-- a table with ascending natural atoms -/
theorem ttDeflated_asc {b : Binv} {A : List Nat} (hA : A.Pairwise (· < ·)) (hb : b.length = 2 ^ A.length) :
    ∃ f, ttDeflated b (some (A.map Int.ofNat)) = .ok f ∧ Canon f ∧ ∀ a, f.eval a = b.vector.getD (valB (A.map a)) false := by
  have hnd : A.Nodup := hA.imp (fun h => Nat.ne_of_lt h)
  apply ttDeflated_some (hnd.map (fun x y hxy => by simpa using hxy)) (by intro x hx; obtain ⟨y, _, rfl⟩ := List.mem_map.1 hx; simp)
    (by simpa using hb)
  rw [toNat_map_ofNat]
  exact readOrder_sorted hnd (sorted_eq_self hA).symm

theorem bitwise_spec {f g : Boolf} (hf : Sound f) (hg : Sound g) (op : Bool → Bool → Bool) :
    ∃ h, f.bitwise op g = .ok h ∧ Canon h ∧ ∀ a, h.eval a = op (f.eval a) (g.eval a) := by
  have hU := unionAtoms_lt f g
  obtain ⟨v, v1, v2, v3⟩ := tt_union hf hU (fun x hx => mem_unionAtoms.2 (Or.inl hx))
  obtain ⟨w, w1, w2, w3⟩ := tt_union hg hU (fun x hx => mem_unionAtoms.2 (Or.inr hx))
  obtain ⟨h, h1, h2, h3⟩ := ttDeflated_asc (b := ⟨List.zipWith op v.vector w.vector⟩) hU (by
    unfold Binv.length at *; simp only [List.length_zipWith]; omega)
  refine ⟨h, ?_, h2, fun a => ?_⟩
  · unfold Boolf.bitwise
    simp only [bind, Except.bind]
    rw [v1]
    simp only
    rw [w1]
    simp only
    rw [bitwise_eq _ _ _ (by omega)]
    simp only
    unfold newTT ttBinv
    simp only [bind, Except.bind]
    rw [mk_binv]
    exact h1
  · have hlt := valB_map_lt (unionAtoms f g) a
    rw [h3, getD_zipWith _ (by unfold Binv.length at v2; omega) (by unfold Binv.length at w2; omega), v3, w3]

theorem mk_list (v : List Bool) : BV.mk { vector := some (.list (v.map fun b => (b.toNat : Int))) } = .ok ⟨v⟩ := ofBools_eq v

theorem newTT_list {v : List Bool} {A : List Nat} (hA : A.Pairwise (· < ·)) (hb : v.length = 2 ^ A.length) :
    ∃ f, newTT (.list (v.map fun b => (b.toNat : Int))) (some (A.map Int.ofNat)) = .ok f ∧ Canon f ∧
      ∀ a, f.eval a = v.getD (valB (A.map a)) false := by
  obtain ⟨f, f1, f2, f3⟩ := ttDeflated_asc (b := ⟨v⟩) hA hb
  refine ⟨f, ?_, f2, f3⟩
  unfold newTT ttBinv
  simp only [bind, Except.bind]
  rw [mk_list]
  exact f1

theorem complement_spec {f : Boolf} (hf : Sound f) : ∃ g, f.complement = .ok g ∧ Canon g ∧ ∀ a, g.eval a = !f.eval a := by
  obtain ⟨g, g1, g2, g3⟩ := newTT_list (v := f.root.vector.map (!·)) hf.asc (by rw [List.length_map, hf.len])
  refine ⟨g, ?_, g2, fun a => ?_⟩
  · unfold Boolf.complement
    rw [List.map_map] at g1
    exact g1
  · have hlt : valB (f.atomvals.map a) < f.root.vector.length := by rw [hf.len]; exact valB_map_lt _ _
    rw [g3]
    unfold Boolf.eval
    simp only [List.getD_eq_getElem?_getD, List.getElem?_map, List.getElem?_eq_getElem hlt]
    rfl

theorem valB_map_not (A : List Nat) (a : Nat → Bool) : valB (A.map fun x => !a x) = 2 ^ A.length - 1 - valB (A.map a) := by
  have hlt := valB_map_lt A a
  have e : 2 ^ A.length - 1 - valB (A.map a) = 2 ^ A.length - (valB (A.map a) + 1) := by omega
  rw [e]
  apply Nat.eq_of_testBit_eq
  intro i
  rw [Nat.testBit_two_pow_sub_succ hlt, testBit_valB_map, testBit_valB_map]
  by_cases hi : i < A.length
  · rw [List.getElem?_eq_getElem hi]; simp [hi]
  · rw [List.getElem?_eq_none (by omega)]; simp [hi]

theorem reverse_spec {f : Boolf} (hf : Sound f) : ∃ g, f.reverse = .ok g ∧ Canon g ∧ ∀ a, g.eval a = f.eval (fun x => !a x) := by
  obtain ⟨g, g1, g2, g3⟩ := newTT_list (v := f.root.vector.reverse) hf.asc (by rw [List.length_reverse, hf.len])
  refine ⟨g, g1, g2, fun a => ?_⟩
  have hlt : valB (f.atomvals.map a) < f.root.vector.length := by rw [hf.len]; exact valB_map_lt _ _
  rw [g3]
  unfold Boolf.eval
  rw [valB_map_not, List.getD_eq_getElem?_getD, List.getElem?_reverse hlt, List.getD_eq_getElem?_getD, ← hf.len]

end Verif.BF
