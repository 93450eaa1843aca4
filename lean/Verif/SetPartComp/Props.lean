import Verif.SetPartComp.Cases
import Verif.Binv.Props

/-!
# C45, C46, C47, C60, C61: theorems about `SetPartComp`
-/

namespace Verif.SPC
open Verif.Py Verif.SP

/-! ### histories -/

/-- `a` and `b` are the same or in a common list. -/
def SameIn (blocks : List (List Int)) (a b : Int) : Prop := a = b ∨ ∃ B ∈ blocks, a ∈ B ∧ b ∈ B

/-- The facts given to the constructor. -/
def Given (blocks : List (List Int)) (pairs : List (Int × Int)) : Fact → Prop
  | .eq a b => ∃ B ∈ blocks, a ∈ B ∧ b ∈ B
  | .comp a b => (a, b) ∈ pairs

/-- No element is paired with itself, and pairs with a common (or equal) element are the same up to order and equality. -/
def Matching (blocks : List (List Int)) (pairs : List (Int × Int)) : Prop :=
  (∀ ab ∈ pairs, ab.1 ≠ ab.2) ∧
  ∀ ab ∈ pairs, ∀ cd ∈ pairs,
    SameIn blocks ab.1 cd.1 ∨ SameIn blocks ab.1 cd.2 ∨ SameIn blocks ab.2 cd.1 ∨ SameIn blocks ab.2 cd.2 →
      SameIn blocks ab.1 cd.1 ∧ SameIn blocks ab.2 cd.2 ∨ SameIn blocks ab.1 cd.2 ∧ SameIn blocks ab.2 cd.1

/-- The call that enters a fact. -/
def call (s : SetPartComp) : Fact → Except Err Unit × SetPartComp
  | .eq a b => s.setEqual a b
  | .comp a b => s.setComp a b

/-- The two arguments are different. -/
def Fact.Proper : Fact → Prop
  | .eq a b => a ≠ b
  | .comp a b => a ≠ b

/-- `Reach F s`: some history of calls (with different arguments) leads to the object `s`, where `F` are the facts given to the
constructor and those entered by calls that did not raise an exception.  Between the calls the order of the stored pairs may
change, because python does not fix the order of a set. -/
inductive Reach : (Fact → Prop) → SetPartComp → Prop
  | empty {s} (h : new none none = .ok s) : Reach (fun _ => False) s
  | lists {s} (blocks : List (List Int)) (pairs : List (Int × Int)) (hm : Matching blocks pairs)
      (h : new (some blocks) (some pairs) = .ok s) : Reach (Given blocks pairs) s
  | reorder {F s} (l : List (Int × Int)) (hr : Reach F s) (hl : l.Perm s.compPairs) : Reach F { s with compPairs := l }
  | accepted {F s s'} (f : Fact) (hr : Reach F s) (hf : f.Proper) (h : call s f = (.ok (), s')) :
      Reach (fun g => F g ∨ g = f) s'
  | rejected {F s s'} (f : Fact) (e : Err) (hr : Reach F s) (hf : f.Proper) (h : call s f = (.error e, s')) : Reach F s'

/-- The truth values `v` agree with all the facts. -/
def Models (F : Fact → Prop) (v : Int → Bool) : Prop := ∀ f, F f → f.Holds v

/-! ### the constructor -/

theorem sameIn_eqv {blocks : List (List Int)} {q : SetPart Unit} (hq : WF q)
    (h : ∀ a b, a ≠ b → (q.pairInSameBlock a b = true ↔ ∃ B ∈ blocks, a ∈ B ∧ b ∈ B)) (a b : Int) :
    SameIn blocks a b ↔ Eqv q.blocks a b := by
  by_cases hab : a = b
  · subst hab; exact ⟨fun _ => Or.inl rfl, fun _ => Or.inl rfl⟩
  · unfold SameIn Eqv
    rw [← hq.pairInSameBlock, h a b hab]

theorem minOf_rep {q : SetPart Unit} (hq : WF q) (a : Int) : minOf (q.elementToBlock a) = q.rep a := by
  unfold minOf SetPart.rep
  exact foldl_min_head (hq.elementToBlock_lt a)

/-- `x` is the element of a pair of representatives -/
theorem pair_eq_pair {a b c d : Int} : pair a b = pair c d ↔ (a = c ∧ b = d) ∨ (a = d ∧ b = c) := by
  constructor
  · intro h
    rcases pair_cases a b with h1 | h1 <;> rcases pair_cases c d with h2 | h2 <;> rw [h1, h2, Prod.mk.injEq] at h <;> tauto
  · rintro (⟨rfl, rfl⟩ | ⟨rfl, rfl⟩)
    · rfl
    · exact pair_comm _ _

/-- **C60.** The constructor.  It raises `CompWithoutPartError` for pairs without a partition, `DuplicateElementsError` for
overlapping blocks, and `PartCompMismatchError` iff a pair has both elements in the same block.  Otherwise the object knows
exactly the given equalities, and the given pairs up to order and equality. -/
theorem C60_constructor (blocks : List (List Int)) (pairs : List (Int × Int)) :
    new none (some pairs) = .error .compWithoutPart ∧
    (¬ NoOverlap blocks → new (some blocks) (some pairs) = .error .duplicateElements) ∧
    (NoOverlap blocks → (∃ ab ∈ pairs, ∃ B ∈ blocks, 1 < B.length ∧ ab.1 ∈ B ∧ ab.2 ∈ B) →
      new (some blocks) (some pairs) = .error .partCompMismatch) ∧
    (NoOverlap blocks → (∀ ab ∈ pairs, ∀ B ∈ blocks, 1 < B.length → ¬ (ab.1 ∈ B ∧ ab.2 ∈ B)) →
      ∃ s, new (some blocks) (some pairs) = .ok s ∧
        (∀ a b, a ≠ b → (s.areEqual a b = true ↔ ∃ B ∈ blocks, a ∈ B ∧ b ∈ B)) ∧
        (∀ a b, s.areComp a b = true ↔ ∃ cd ∈ pairs, SameIn blocks a cd.1 ∧ SameIn blocks b cd.2 ∨
          SameIn blocks a cd.2 ∧ SameIn blocks b cd.1)) := by
  refine ⟨rfl, ?_, ?_, ?_⟩
  · intro hno
    unfold new
    rw [if_neg (by simp), Option.getD_some, (C37_construction (L := Unit) blocks .Z).2 hno]
  · rintro hno ⟨ab, hab, B, hB, h1, h2, h3⟩
    obtain ⟨q, q1, q2, _, _, q5⟩ := (C37_construction (L := Unit) blocks .Z).1 hno
    unfold new
    rw [if_neg (by simp), Option.getD_some, q1]
    simp only [Option.getD_some]
    rw [if_pos]
    rw [List.any_eq_true]
    refine ⟨_, mem_pySet.2 (List.mem_map.2 ⟨ab, hab, rfl⟩), ?_⟩
    rw [minOf_rep q2, minOf_rep q2, q2.pairInSameBlock]
    have hJ : Joined q.blocks ab.1 ab.2 := by
      by_cases hne : ab.1 = ab.2
      · obtain ⟨p, p1, _, p3, _⟩ := init_ok (L := Unit) (d := .Z) (l := []) (c := {}) (noOverlap_iff.1 hno)
        have : p = q := by
          have := q1; unfold newPart at this; rw [p1] at this; cases this; rfl
        subst this
        rw [p3]
        exact ⟨sortZ B, mem_cleanBlocks.2 ⟨B, hB, h1, rfl⟩, mem_sortZ.2 h2, mem_sortZ.2 h3⟩
      · rw [← q2.pairInSameBlock, q5 _ _ hne]
        exact ⟨B, hB, h2, h3⟩
    have hrep : q.rep ab.1 = q.rep ab.2 := rep_congr q2 (Or.inr hJ)
    have hpair : pair (q.rep ab.1) (q.rep ab.2) = (q.rep ab.1, q.rep ab.1) := by
      rw [hrep]; unfold pair; split <;> rfl
    rw [hpair]
    simp only
    obtain ⟨C, hC, hC1, _⟩ := hJ
    refine ⟨C, hC, ?_, ?_⟩
    · exact mem_of_eqv q2.canon hC hC1 (rep_eqv q2 _)
    · exact mem_of_eqv q2.canon hC hC1 (rep_eqv q2 _)
  · intro hno hgood
    obtain ⟨q, q1, q2, q3, q4, q5⟩ := (C37_construction (L := Unit) blocks .Z).1 hno
    obtain ⟨p, p1, _, p3, _⟩ := init_ok (L := Unit) (d := .Z) (l := []) (c := {}) (noOverlap_iff.1 hno)
    have hpq : p = q := by
      have := q1; unfold newPart at this; rw [p1] at this; cases this; rfl
    subst hpq
    have hmem : ∀ xy, xy ∈ pySet (pairs.map (fun ab => pair (minOf (p.elementToBlock ab.1)) (minOf (p.elementToBlock ab.2)))) ↔
        ∃ ab ∈ pairs, pair (p.rep ab.1) (p.rep ab.2) = xy := by
      intro xy
      rw [mem_pySet, List.mem_map]
      simp only [minOf_rep q2]
    refine ⟨{ equalPart := p, compPairs := pySet (pairs.map (fun ab =>
      pair (minOf (p.elementToBlock ab.1)) (minOf (p.elementToBlock ab.2)))) }, ?_, ?_, ?_⟩
    · unfold new
      rw [if_neg (by simp), Option.getD_some, q1]
      simp only [Option.getD_some]
      rw [if_neg]
      rw [List.any_eq_true]
      rintro ⟨xy, hxy, hJ⟩
      obtain ⟨ab, hab, rfl⟩ := (hmem xy).1 hxy
      rw [q2.pairInSameBlock] at hJ
      have hJ' : Joined p.blocks (p.rep ab.1) (p.rep ab.2) := by
        rcases pair_cases (p.rep ab.1) (p.rep ab.2) with e | e <;> rw [e] at hJ
        · exact hJ
        · exact Canon.symm hJ
      obtain ⟨C, hC, h1, h2⟩ := hJ'
      have h1' := mem_of_eqv q2.canon hC h1 (rep_eqv q2 ab.1).symm
      have h2' := mem_of_eqv q2.canon hC h2 (rep_eqv q2 ab.2).symm
      rw [p3] at hC
      obtain ⟨B, hB, hB1, rfl⟩ := mem_cleanBlocks.1 hC
      exact hgood ab hab B hB hB1 ⟨mem_sortZ.1 h1', mem_sortZ.1 h2'⟩
    · intro a b hab
      rw [areEqual_iff (by exact q2), ← q2.pairInSameBlock, q5 a b hab]
    · intro a b
      rw [areComp_iff (by exact q2), hmem]
      simp only [sameIn_eqv q2 q5]
      constructor
      · rintro ⟨cd, hcd, e⟩
        refine ⟨cd, hcd, ?_⟩
        rcases pair_eq_pair.1 e with ⟨e1, e2⟩ | ⟨e1, e2⟩
        · exact Or.inl ⟨(eqv_of_rep q2 e1).symm, (eqv_of_rep q2 e2).symm⟩
        · exact Or.inr ⟨(eqv_of_rep q2 e2).symm, (eqv_of_rep q2 e1).symm⟩
      · rintro ⟨cd, hcd, ⟨e1, e2⟩ | ⟨e1, e2⟩⟩
        · exact ⟨cd, hcd, by rw [rep_congr q2 e1, rep_congr q2 e2]⟩
        · exact ⟨cd, hcd, by rw [rep_congr q2 e1, rep_congr q2 e2, pair_comm]⟩

/-- The pairs `{(20, 30)}` become those of the smallest elements. -/
example : (new (some [[30, 31], [10, 20]]) (some [(20, 31)])).map (fun s => (s.areComp 10 31, s.compPairs)) =
    .ok (true, [(10, 30)]) := by decide

/-- The constructor does not draw conclusions: with the pairs (0, 1) and (0, 2) the elements 1 and 2 are not equal. -/
theorem C60_no_conclusions :
    ∃ s, new (some []) (some [(0, 1), (0, 2)]) = .ok s ∧ s.areEqual 1 2 = false ∧ s.areComp 0 1 = true ∧ s.areComp 0 2 = true :=
  ⟨_, rfl, by decide⟩

/-- The constructor accepts a pair of twice the same singleton. -/
theorem C60_self_pair : ∃ s, new (some []) (some [(0, 0)]) = .ok s ∧ s.areComp 0 0 = true := ⟨_, rfl, by decide⟩

/-- No pairs are the same as an empty set of pairs. -/
theorem C60_without_pairs (blocks : List (List Int)) : new (some blocks) none = new (some blocks) (some []) := rfl

theorem new_empty_inv {s : SetPartComp} (h : new none none = .ok s) : Inv s ∧ ∀ v, Sat s v := by
  have : s = { equalPart := setTrivial .Z {}, compPairs := [] } := by
    have h' : new none none = .ok { equalPart := setTrivial .Z {}, compPairs := [] } := rfl
    rw [h'] at h; cases h; rfl
  subst this
  refine ⟨⟨wf_setTrivial _ _, rfl, rfl, by simp, by simp, by simp, by simp⟩, fun v => ⟨?_, by simp⟩⟩
  rintro x y (h | ⟨B, hB, _⟩)
  · rw [h]
  · cases hB

theorem new_lists_inv {blocks : List (List Int)} {pairs : List (Int × Int)} (hm : Matching blocks pairs) {s : SetPartComp}
    (h : new (some blocks) (some pairs) = .ok s) : Inv s ∧ ∀ v, Sat s v ↔ Models (Given blocks pairs) v := by
  have hno : NoOverlap blocks := by
    by_contra hno
    rw [(C60_constructor blocks pairs).2.1 hno] at h; cases h
  obtain ⟨q, q1, q2, q3, q4, q5⟩ := (C37_construction (L := Unit) blocks .Z).1 hno
  have hE := sameIn_eqv q2 q5
  unfold new at h
  rw [if_neg (by simp), Option.getD_some, q1] at h
  simp only [Option.getD_some, minOf_rep q2] at h
  split at h
  · cases h
  · next hany =>
    cases h
    have hmem : ∀ xy, xy ∈ pySet (pairs.map (fun ab => pair (q.rep ab.1) (q.rep ab.2))) ↔
        ∃ ab ∈ pairs, pair (q.rep ab.1) (q.rep ab.2) = xy := by
      intro xy
      rw [mem_pySet, List.mem_map]
    have hne : ∀ ab ∈ pairs, q.rep ab.1 ≠ q.rep ab.2 := by
      intro ab hab e
      rcases eqv_of_rep q2 e with e' | e'
      · exact hm.1 ab hab e'
      · apply hany
        rw [List.any_eq_true]
        refine ⟨_, (hmem _).2 ⟨ab, hab, rfl⟩, ?_⟩
        obtain ⟨C, hC, hC1, hC2⟩ := e'
        have r1 := mem_of_eqv q2.canon hC hC1 (rep_eqv q2 _)
        have r2 := mem_of_eqv q2.canon hC hC2 (rep_eqv q2 _)
        rw [q2.pairInSameBlock]
        rcases pair_cases (q.rep ab.1) (q.rep ab.2) with e | e <;> rw [e]
        · exact ⟨C, hC, r1, r2⟩
        · exact ⟨C, hC, r2, r1⟩
    refine ⟨⟨q2, q3, q4, ?_, ?_, ?_, nodup_pySet _⟩, ?_⟩
    · intro xy hxy
      obtain ⟨ab, hab, rfl⟩ := (hmem xy).1 hxy
      have := hne ab hab
      unfold pair
      split
      · show q.rep ab.1 < q.rep ab.2
        omega
      · show q.rep ab.2 < q.rep ab.1
        omega
    · intro xy hxy
      obtain ⟨ab, hab, rfl⟩ := (hmem xy).1 hxy
      rcases pair_cases (q.rep ab.1) (q.rep ab.2) with e | e <;> rw [e] <;> exact ⟨rep_rep q2 _, rep_rep q2 _⟩
    · intro xy hxy zw hzw hor
      obtain ⟨ab, hab, rfl⟩ := (hmem xy).1 hxy
      obtain ⟨cd, hcd, rfl⟩ := (hmem zw).1 hzw
      have hcommon : SameIn blocks ab.1 cd.1 ∨ SameIn blocks ab.1 cd.2 ∨ SameIn blocks ab.2 cd.1 ∨ SameIn blocks ab.2 cd.2 := by
        simp only [hE]
        have heq : q.rep ab.1 = q.rep cd.1 ∨ q.rep ab.1 = q.rep cd.2 ∨ q.rep ab.2 = q.rep cd.1 ∨ q.rep ab.2 = q.rep cd.2 := by
          rcases pair_cases (q.rep ab.1) (q.rep ab.2) with e | e <;> rcases pair_cases (q.rep cd.1) (q.rep cd.2) with e' | e' <;>
            rw [e, e'] at hor <;> simp only at hor <;> tauto
        exact heq.imp (eqv_of_rep q2) (Or.imp (eqv_of_rep q2) (Or.imp (eqv_of_rep q2) (eqv_of_rep q2)))
      rw [pair_eq_pair]
      rcases hm.2 ab hab cd hcd hcommon with ⟨e1, e2⟩ | ⟨e1, e2⟩ <;> rw [hE] at e1 e2
      · exact Or.inl ⟨rep_congr q2 e1, rep_congr q2 e2⟩
      · exact Or.inr ⟨rep_congr q2 e1, rep_congr q2 e2⟩
    · intro v
      constructor
      · rintro ⟨v1, v2⟩ f hf
        have hr : ∀ x, v (q.rep x) = v x := fun x => (v1 _ _ (rep_eqv q2 x)).symm
        cases f with
        | eq a b => exact v1 a b ((hE a b).1 (Or.inr hf))
        | comp a b =>
          have := v2 _ ((hmem _).2 ⟨(a, b), hf, rfl⟩)
          rwa [pair_ne, hr, hr] at this
      · intro hv
        have v1 : ∀ x y, Eqv q.blocks x y → v x = v y := by
          intro x y hxy
          rcases (hE x y).2 hxy with e | e
          · rw [e]
          · exact hv (.eq x y) e
        refine ⟨v1, ?_⟩
        intro xy hxy
        obtain ⟨ab, hab, rfl⟩ := (hmem xy).1 hxy
        have hr : ∀ x, v (q.rep x) = v x := fun x => (v1 _ _ (rep_eqv q2 x)).symm
        rw [pair_ne, hr, hr]
        exact hv (.comp ab.1 ab.2) hab

theorem Inv.reorder {s : SetPartComp} (h : Inv s) {l : List (Int × Int)} (hl : l.Perm s.compPairs) :
    Inv { s with compPairs := l } :=
  ⟨h.wf, h.domain, h.labels, fun ab hab => h.lt ab (hl.mem_iff.1 hab), fun ab hab => h.reps ab (hl.mem_iff.1 hab),
    fun ab hab cd hcd => h.unique ab (hl.mem_iff.1 hab) cd (hl.mem_iff.1 hcd), hl.nodup_iff.2 h.nodup⟩

/-- One call with different arguments. -/
theorem call_spec {s : SetPartComp} (h : Inv s) (f : Fact) (hf : f.Proper) :
    (∃ v, Sat s v ∧ f.Holds v) ∧ Entered s f (call s f) ∨
    (¬ ∃ v, Sat s v ∧ f.Holds v) ∧
      call s f = (.error (match f with | .eq _ _ => .setEqualComplements | .comp _ _ => .setCompEquals), s) := by
  cases f with
  | eq a b => exact setEqual_spec h hf
  | comp a b => exact setComp_spec h hf

theorem reach_inv {F : Fact → Prop} {s : SetPartComp} (h : Reach F s) : Inv s ∧ ∀ v, Sat s v ↔ Models F v := by
  induction h with
  | empty h =>
    obtain ⟨h1, h2⟩ := new_empty_inv h
    exact ⟨h1, fun v => ⟨fun _ f hf => hf.elim, fun _ => h2 v⟩⟩
  | lists blocks pairs hm h => exact new_lists_inv hm h
  | reorder l hr hl ih =>
    refine ⟨ih.1.reorder hl, fun v => ?_⟩
    rw [← ih.2 v]
    unfold Sat
    simp only [hl.mem_iff]
  | @accepted F s s' f hr hf h ih =>
    rcases call_spec ih.1 f hf with ⟨_, t, e, h1, h2⟩ | ⟨_, e⟩
    · rw [h] at e
      cases e
      refine ⟨h1, fun v => ?_⟩
      rw [h2, ih.2]
      constructor
      · rintro ⟨h3, h4⟩ g (hg | rfl)
        · exact h3 g hg
        · exact h4
      · intro h3
        exact ⟨fun g hg => h3 g (Or.inl hg), h3 f (Or.inr rfl)⟩
    · rw [h] at e; cases e
  | @rejected F s s' f err hr hf h ih =>
    rcases call_spec ih.1 f hf with ⟨_, t, e, _⟩ | ⟨_, e⟩
    · rw [h] at e; cases e
    · rw [h] at e; cases e; exact ih

/-! ### C45 -/

/-- **C45.** After any history, for different elements, `are_equal` tells whether equality follows from the facts entered so far,
and `are_comp` whether complementarity follows.  The facts never contradict each other. -/
theorem C45_consequences (F : Fact → Prop) (s : SetPartComp) (h : Reach F s) :
    (∃ v, Models F v) ∧
    (∀ a b, a ≠ b → (s.areEqual a b = true ↔ ∀ v, Models F v → v a = v b)) ∧
    (∀ a b, s.areComp a b = true ↔ ∀ v, Models F v → v a ≠ v b) := by
  obtain ⟨hi, hs⟩ := reach_inv h
  refine ⟨⟨base s, (hs _).1 (base_sat hi)⟩, ?_, ?_⟩
  · intro a b hab
    rw [areEqual_iff hi.wf]
    simp only [← hs]
    rw [← eqv_iff_sat hi]
    exact ⟨Or.inr, fun h => h.resolve_left hab⟩
  · intro a b
    rw [areComp_iff hi.wf, comp_iff_sat hi]
    simp only [hs]

/-- **C45.** A call is accepted iff its fact does not contradict the previous ones.  Otherwise `set_equal` raises
`SetEqualComplementsError`, `set_comp` raises `SetCompEqualsError`, and nothing changes. -/
theorem C45_accepted (F : Fact → Prop) (s : SetPartComp) (h : Reach F s) (a b : Int) (hab : a ≠ b) :
    ((∃ v, Models F v ∧ v a = v b) → (s.setEqual a b).1 = .ok ()) ∧
    ((¬ ∃ v, Models F v ∧ v a = v b) → s.setEqual a b = (.error .setEqualComplements, s)) ∧
    ((∃ v, Models F v ∧ v a ≠ v b) → (s.setComp a b).1 = .ok ()) ∧
    ((¬ ∃ v, Models F v ∧ v a ≠ v b) → s.setComp a b = (.error .setCompEquals, s)) := by
  obtain ⟨hi, hs⟩ := reach_inv h
  simp only [← hs]
  refine ⟨?_, ?_, ?_, ?_⟩
  · intro hv
    rcases setEqual_spec hi hab with ⟨_, t, e, _⟩ | ⟨hn, _⟩
    · rw [e]
    · exact absurd hv hn
  · intro hv
    rcases setEqual_spec hi hab with ⟨hn, _⟩ | ⟨_, e⟩
    · exact absurd hn hv
    · exact e
  · intro hv
    rcases setComp_spec hi hab with ⟨_, t, e, _⟩ | ⟨hn, _⟩
    · rw [e]
    · exact absurd hv hn
  · intro hv
    rcases setComp_spec hi hab with ⟨hn, _⟩ | ⟨_, e⟩
    · exact absurd hn hv
    · exact e

/-- The history of test_2 and one more call; 0 and 6 become complements. -/
example : (new (some [[0, 1], [2, 3], [4, 5], [6, 7]]) (some [(0, 2), (4, 6)])).map (fun s =>
    let s := (call s (.comp 3 4)).2
    (s.equalPart.blocks, s.compPairs, s.areComp 0 6, (call s (.eq 1 7)).1.toOption)) =
    .ok ([[0, 1, 4, 5], [2, 3, 6, 7]], [(0, 2)], true, none) := by decide

/-- The constructor arguments of that example are a matching. -/
example : Matching [[0, 1], [2, 3], [4, 5], [6, 7]] [(0, 2), (4, 6)] := by
  unfold Matching SameIn
  simp

/-- `get_comp` finds the smallest element of the complementary block, if there is one. -/
theorem C45_get_comp (F : Fact → Prop) (s : SetPartComp) (h : Reach F s) (a : Int) :
    (s.getComp a = none ↔ ∀ b, s.areComp a b = false) ∧
    ∀ c, s.getComp a = some c → s.areComp a c = true ∧ ∀ b, s.areComp a b = true → c ≤ b := by
  obtain ⟨hi, _⟩ := reach_inv h
  constructor
  · constructor
    · intro hn b
      rw [← Bool.not_eq_true, areComp_iff hi.wf, ← getComp_iff hi, hn]
      simp
    · intro hall
      cases hc : s.getComp a with
      | none => rfl
      | some c =>
        have hm := (getComp_iff hi a c).1 hc
        have := hall c
        rw [← Bool.not_eq_true, areComp_iff hi.wf, hi.rep_right hm] at this
        exact absurd hm this
  · intro c hc
    have hm := (getComp_iff hi a c).1 hc
    have hr := hi.rep_right hm
    refine ⟨by rw [areComp_iff hi.wf, hr]; exact hm, fun b hb => ?_⟩
    rw [areComp_iff hi.wf] at hb
    have hcb := hi.partner hm hb
    rw [hcb]
    exact rep_min hi.wf b b (Or.inl rfl)

/-! ### C46 -/

/-- **C46.** In no history (of calls with different arguments) an element becomes its own complement. -/
theorem C46_no_self_complement (F : Fact → Prop) (s : SetPartComp) (h : Reach F s) (a : Int) : s.areComp a a = false := by
  rw [← Bool.not_eq_true, (C45_consequences F s h).2.2]
  intro hall
  obtain ⟨v, hv⟩ := (C45_consequences F s h).1
  exact hall v hv rfl

/-- But `set_comp(a, a)` is accepted for a singleton. -/
theorem C46_same_argument :
    ∃ s, new none none = .ok s ∧ (s.setComp 0 0).1 = .ok () ∧ (s.setComp 0 0).2.areComp 0 0 = true := ⟨_, rfl, by decide⟩

/-- And `set_equal(a, a)` for a singleton with a complement raises `KeyError` and forgets the complement. -/
theorem C46_set_equal_same_argument :
    ∃ s, new (some []) (some [(0, 1)]) = .ok s ∧ s.areComp 0 1 = true ∧ (s.setEqual 0 0).1 = .error .keyError ∧
      (s.setEqual 0 0).2.areComp 0 1 = false := ⟨_, rfl, by decide⟩

/-! ### C60, C61: derived values -/

/-- Related: equal or complementary. -/
theorem related_equivalence {s : SetPartComp} (h : Inv s) :
    Equivalence (fun a b => Eqv s.equalPart.blocks a b ∨ pair (s.equalPart.rep a) (s.equalPart.rep b) ∈ s.compPairs) := by
  refine ⟨fun x => Or.inl (Or.inl rfl), ?_, ?_⟩
  · rintro x y (h' | h')
    · exact Or.inl h'.symm
    · exact Or.inr (by rwa [pair_comm])
  · rintro x y z (h1 | h1) (h2 | h2)
    · exact Or.inl (h1.trans h.wf.canon h2)
    · exact Or.inr (by rwa [rep_congr h.wf h1])
    · exact Or.inr (by rwa [← rep_congr h.wf h2])
    · left
      rw [pair_comm] at h1
      exact eqv_of_rep h.wf (h.partner h1 h2)

theorem takeWhile_all {α} {f : α → Bool} {l : List α} (h : ∀ x ∈ l, f x = true) : l.takeWhile f = l := by
  induction l with
  | nil => rfl
  | cons a t ih => rw [List.takeWhile_cons, if_pos (h a (by simp)), ih (fun x hx => h x (by simp [hx]))]

theorem related_spec {s : SetPartComp} (h : Inv s) :
    ∃ q, s.relatedPart = .ok q ∧ WF q ∧ q.domain = .Z ∧
      ∀ a b, Eqv q.blocks a b ↔ Eqv s.equalPart.blocks a b ∨ pair (s.equalPart.rep a) (s.equalPart.rep b) ∈ s.compPairs := by
  obtain ⟨p, p1, p2, p3, p4, p5, p6⟩ := init_ok (L := Unit) (raw := s.equalPart.blocks) (d := .Z) (l := []) (c := {})
    (nodup_filter_flatten h.wf.canon.nodup _)
  have pl : p.blockLabels = [] := by rw [p5]; simp
  rw [cleanBlocks_of_canon h.wf.canon] at p3
  obtain ⟨q, q1, q2, q3, q4, q5, _, q7⟩ := mergePairs_plain s.compPairs p2 pl
  have hg : ∀ ab ∈ s.compPairs, Good p.domain ab := by
    intro ab _
    rw [p4]
    unfold Good
    simp [InDomain]
  refine ⟨q, ?_, q1, q2.trans p4, ?_⟩
  · unfold SetPartComp.relatedPart mergeAll newPart
    rw [p1]
    simp only
    have e : p.mergePairs s.compPairs = (.ok (), q) := Prod.ext (q5 hg) q4
    rw [e]
  · intro a b
    rw [q7, takeWhile_all (by intro ab hab; simpa using hg ab hab), p3]
    constructor
    · intro hc
      unfold Closure at hc
      have heq := related_equivalence h
      induction hc with
      | rel u v huv =>
        rcases huv with huv | huv
        · exact Or.inl huv
        · right
          obtain ⟨r1, r2⟩ := h.reps _ huv
          simp only at r1 r2
          rw [r1, r2, pair_of_lt (h.lt _ huv)]
          exact huv
      | refl u => exact heq.refl u
      | symm u v _ ih => exact heq.symm ih
      | trans u v w _ _ i1 i2 => exact heq.trans i1 i2
    · rintro (h' | h')
      · exact .rel _ _ (Or.inl h')
      · have h1 : Relation.EqvGen (fun u v => Eqv s.equalPart.blocks u v ∨ (u, v) ∈ s.compPairs) (s.equalPart.rep a)
            (s.equalPart.rep b) := by
          rcases pair_cases (s.equalPart.rep a) (s.equalPart.rep b) with e | e <;> rw [e] at h'
          · exact .rel _ _ (Or.inr h')
          · exact .symm _ _ (.rel _ _ (Or.inr h'))
        exact .trans _ _ _ (.rel _ _ (Or.inl (rep_eqv h.wf a))) (.trans _ _ _ h1 (.rel _ _ (Or.inl (rep_eqv h.wf b).symm)))

/-- **C61.** `related_part` joins different elements iff they are equal or complementary. -/
theorem C61_related (F : Fact → Prop) (s : SetPartComp) (h : Reach F s) :
    ∃ q, s.relatedPart = .ok q ∧
      ∀ a b, a ≠ b → (q.pairInSameBlock a b = true ↔ s.areEqual a b = true ∨ s.areComp a b = true) := by
  obtain ⟨hi, _⟩ := reach_inv h
  obtain ⟨q, q1, q2, _, q4⟩ := related_spec hi
  refine ⟨q, q1, fun a b hab => ?_⟩
  rw [q2.pairInSameBlock, areEqual_iff hi.wf, areComp_iff hi.wf]
  have := q4 a b
  unfold Eqv at this
  simpa [hab] using this

/-- Something is known about `x`. -/
def Affected (s : SetPartComp) (x : Int) : Prop := ∃ y, y ≠ x ∧ (s.areEqual x y = true ∨ s.areComp x y = true)

theorem affected_iff {s : SetPartComp} {q : SetPart Unit} (hq : WF q)
    (hr : ∀ a b, a ≠ b → (q.pairInSameBlock a b = true ↔ s.areEqual a b = true ∨ s.areComp a b = true)) (x : Int) :
    x ∈ q.blocks.flatten ↔ Affected s x := by
  unfold Affected
  constructor
  · intro hx
    obtain ⟨B, hB, hxB⟩ := List.mem_flatten.1 hx
    obtain ⟨y, hy, hyx⟩ := hq.canon.partner hB x
    exact ⟨y, hyx, (hr x y (Ne.symm hyx)).1 ((hq.pairInSameBlock _ _).2 ⟨B, hB, hxB, hy⟩)⟩
  · rintro ⟨y, hyx, hy⟩
    obtain ⟨B, hB, hxB, _⟩ := (hq.pairInSameBlock _ _).1 ((hr x y (Ne.symm hyx)).2 hy)
    exact List.mem_flatten.2 ⟨B, hB, hxB⟩

/-- **C61.** `affected_elements` are the elements equal or complementary to another one, in increasing order.  `length` is one
more than the last of them, and raises `ValueError` if there is none. -/
theorem C61_affected (F : Fact → Prop) (s : SetPartComp) (h : Reach F s) :
    ∃ l, s.affectedElements = .ok l ∧ l.Pairwise (· < ·) ∧ (∀ x, x ∈ l ↔ Affected s x) ∧
      s.numberOfAffectedElements = .ok l.length ∧ (l = [] → s.length = .error .valueError) ∧
      (l ≠ [] → ∃ m, s.length = .ok (m + 1) ∧ Affected s m ∧ ∀ x, Affected s x → x ≤ m) := by
  obtain ⟨hi, _⟩ := reach_inv h
  obtain ⟨q, q1, q2, _⟩ := related_spec hi
  obtain ⟨q', q1', q3⟩ := C61_related F s h
  rw [q1] at q1'
  cases q1'
  have hm := affected_iff q2 q3
  have hns : ∀ x, x ∈ q.nonSingletons ↔ Affected s x := by
    intro x
    rw [q2.mem_ns, ← hm, List.mem_flatten]
  have hl : ∀ x, x ∈ sortZ (pySet q.blocks.flatten) ↔ Affected s x := by
    intro x
    rw [mem_sortZ, mem_pySet, hm]
  refine ⟨sortZ (pySet q.blocks.flatten), ?_, sortZ_lt (nodup_pySet _), hl, ?_, ?_, ?_⟩
  · unfold SetPartComp.affectedElements; rw [q1]
  · unfold SetPartComp.numberOfAffectedElements SetPartComp.affectedElements; rw [q1]
  · intro he
    have : q.nonSingletons = [] := by
      rw [List.eq_nil_iff_forall_not_mem]
      intro x hx
      have := (hl x).2 ((hns x).1 hx)
      rw [he] at this; cases this
    unfold SetPartComp.length
    rw [q1]
    simp only
    rw [(pyMinMax_spec _).1 this]
  · intro hne
    obtain ⟨x, hx⟩ := List.exists_mem_of_ne_nil _ hne
    have hx' := (hns x).2 ((hl x).1 hx)
    obtain ⟨mn, mx, e, _, hmx, hall⟩ := (pyMinMax_spec q.nonSingletons).2 (List.ne_nil_of_mem hx')
    refine ⟨mx, ?_, (hns _).1 hmx, fun y hy => (hall y ((hns y).2 hy)).2⟩
    unfold SetPartComp.length
    rw [q1]
    simp only
    rw [e]

/-- **C61.** `number_of_related_blocks` is the size of every system of representatives of the affected elements. -/
theorem C61_number_of_related_blocks (F : Fact → Prop) (s : SetPartComp) (h : Reach F s) :
    ∃ R : List Int, s.numberOfRelatedBlocks = .ok R.length ∧ (∀ x ∈ R, Affected s x) ∧
      R.Pairwise (fun x y => x ≠ y ∧ s.areEqual x y = false ∧ s.areComp x y = false) ∧
      ∀ x, Affected s x → ∃ y ∈ R, x = y ∨ s.areEqual x y = true ∨ s.areComp x y = true := by
  obtain ⟨hi, _⟩ := reach_inv h
  obtain ⟨q, q1, q2, _⟩ := related_spec hi
  obtain ⟨q', q1', q3⟩ := C61_related F s h
  rw [q1] at q1'
  cases q1'
  have hm := affected_iff q2 q3
  have hhead : ∀ B ∈ q.blocks, B.headD 0 ∈ B := by
    intro B hB
    obtain ⟨y, hy, _⟩ := q2.canon.partner hB 0
    cases B with
    | nil => cases hy
    | cons a t => simp
  refine ⟨q.blocks.map (·.headD 0), ?_, ?_, ?_, ?_⟩
  · unfold SetPartComp.numberOfRelatedBlocks
    rw [q1, List.length_map]
  · intro x hx
    obtain ⟨B, hB, rfl⟩ := List.mem_map.1 hx
    exact (hm _).1 (List.mem_flatten.2 ⟨B, hB, hhead B hB⟩)
  · rw [List.pairwise_map]
    have hd : q.blocks.Pairwise (fun B C => ∀ x, x ∈ B → x ∉ C) := by
      have := (List.nodup_flatten.1 q2.canon.nodup).2
      exact this.imp (fun hd x hx hx' => hd hx hx')
    refine hd.imp_of_mem ?_
    intro B C hB hC hdis
    have hne : B.headD 0 ≠ C.headD 0 := by
      intro e
      exact hdis _ (hhead B hB) (e ▸ hhead C hC)
    refine ⟨hne, ?_⟩
    have : ¬ (s.areEqual (B.headD 0) (C.headD 0) = true ∨ s.areComp (B.headD 0) (C.headD 0) = true) := by
      rw [← q3 _ _ hne, q2.pairInSameBlock]
      intro hJ
      have := mem_of_eqv q2.canon hB (hhead B hB) (Or.inr hJ)
      exact hdis _ this (hhead C hC)
    simpa [not_or] using this
  · intro x hx
    obtain ⟨B, hB, hxB⟩ := List.mem_flatten.1 ((hm x).2 hx)
    refine ⟨_, List.mem_map.2 ⟨B, hB, rfl⟩, ?_⟩
    by_cases e : x = B.headD 0
    · exact Or.inl e
    · exact Or.inr ((q3 _ _ e).1 ((q2.pairInSameBlock _ _).2 ⟨B, hB, hxB, hhead B hB⟩))

example : (new (some [[0, 1], [2, 3]]) (some [(0, 7), (8, 9)])).map (fun s =>
    (s.relatedPart.toOption.map (·.blocks), s.affectedElements.toOption, s.length.toOption,
      s.numberOfRelatedBlocks.toOption)) =
    .ok (some [[0, 1, 7], [2, 3], [8, 9]], some [0, 1, 2, 3, 7, 8, 9], some 10, some 3) := by decide

/-- **C61.** `get_block` is the list of all equal elements, and `get_repr` the smallest of them. -/
theorem C61_block (F : Fact → Prop) (s : SetPartComp) (h : Reach F s) (a : Int) :
    (∀ x, x ∈ s.getBlock a ↔ x = a ∨ s.areEqual a x = true) ∧ (s.getBlock a).Pairwise (· < ·) ∧
    s.getRepr a ∈ s.getBlock a ∧ ∀ x ∈ s.getBlock a, s.getRepr a ≤ x := by
  obtain ⟨hi, _⟩ := reach_inv h
  have hb : s.getBlock a = s.equalPart.elementToBlock a := by
    unfold SetPartComp.getBlock
    by_cases hc : s.equalPart.nonSingletons.contains a = true
    · rw [if_pos hc]
    · rw [if_neg hc, WF.elementToBlock_of_not_mem (by simpa using hc)]
  have hr : s.getRepr a = s.equalPart.rep a := by
    unfold SetPartComp.getRepr
    rw [hb, minOf_rep hi.wf]
  rw [hr, hb]
  refine ⟨?_, hi.wf.elementToBlock_lt a, ?_, ?_⟩
  · intro x
    rw [hi.wf.mem_elementToBlock, areEqual_iff hi.wf]
  · rw [hi.wf.mem_elementToBlock]
    exact (rep_eqv hi.wf a).imp_left Eq.symm
  · intro x hx
    rw [hi.wf.mem_elementToBlock] at hx
    exact rep_min hi.wf a x (hx.imp_left Eq.symm)

theorem mem_getBlock {s : SetPartComp} (hi : Inv s) (a x : Int) : x ∈ s.getBlock a ↔ Eqv s.equalPart.blocks a x := by
  have hb : s.getBlock a = s.equalPart.elementToBlock a := by
    unfold SetPartComp.getBlock
    by_cases hc : s.equalPart.nonSingletons.contains a = true
    · rw [if_pos hc]
    · rw [if_neg hc, WF.elementToBlock_of_not_mem (by simpa using hc)]
  rw [hb, hi.wf.mem_elementToBlock]
  exact or_congr_left eq_comm

/-- **C61.** `all_complement_pairs` are the sorted pairs of complementary elements. -/
theorem C61_all_complement_pairs (F : Fact → Prop) (s : SetPartComp) (h : Reach F s) :
    s.allComplementPairs.Nodup ∧ ∀ x y, (x, y) ∈ s.allComplementPairs ↔ x < y ∧ s.areComp x y = true := by
  obtain ⟨hi, _⟩ := reach_inv h
  refine ⟨nodup_pySet _, fun x y => ?_⟩
  unfold SetPartComp.allComplementPairs
  rw [mem_pySet, List.mem_flatMap, areComp_iff hi.wf]
  simp only [List.mem_flatMap, List.mem_map, mem_getBlock hi]
  constructor
  · rintro ⟨ab, hab, u, hu, w, hw, e⟩
    obtain ⟨r1, r2⟩ := hi.reps _ hab
    have hp : pair (s.equalPart.rep u) (s.equalPart.rep w) = ab := by
      rw [← rep_congr hi.wf hu, ← rep_congr hi.wf hw, r1, r2, pair_of_lt (hi.lt _ hab)]
    have hne : u ≠ w := by
      rintro rfl
      have := hi.lt _ hab
      rw [← r1, ← r2, rep_congr hi.wf hu, rep_congr hi.wf hw] at this
      omega
    unfold pair at e
    split at e
    · next hle =>
      cases e
      exact ⟨by omega, by rw [hp]; exact hab⟩
    · next hle =>
      cases e
      exact ⟨by omega, by rw [pair_comm, hp]; exact hab⟩
  · rintro ⟨hlt, hmem⟩
    refine ⟨_, hmem, ?_⟩
    rcases pair_cases (s.equalPart.rep x) (s.equalPart.rep y) with e | e <;> rw [e]
    · exact ⟨x, (rep_eqv hi.wf x).symm, y, (rep_eqv hi.wf y).symm, pair_of_lt hlt⟩
    · exact ⟨y, (rep_eqv hi.wf y).symm, x, (rep_eqv hi.wf x).symm, by rw [pair_comm]; exact pair_of_lt hlt⟩

example : (new (some [[0, 1], [2, 3]]) (some [(0, 7), (8, 9)])).map (·.allComplementPairs) =
    .ok [(0, 7), (1, 7), (8, 9)] := by decide

/-- **C61.** `==` compares what follows from the facts. -/
theorem C61_equality (F G : Fact → Prop) (s t : SetPartComp) (hs : Reach F s) (ht : Reach G t) :
    ∃ r, s.eq t = .ok r ∧
      (r = true ↔ ∀ a b, a ≠ b → s.areEqual a b = t.areEqual a b ∧ s.areComp a b = t.areComp a b) := by
  obtain ⟨is, _⟩ := reach_inv hs
  obtain ⟨it, _⟩ := reach_inv ht
  obtain ⟨r, e, hr⟩ := (C37_equality s.equalPart t.equalPart is.wf it.wf).2 (by rw [is.domain, it.domain]; trivial)
  unfold SetPartComp.eq
  rw [e]
  have hE : (∀ a b, a ≠ b → s.equalPart.pairInSameBlock a b = t.equalPart.pairInSameBlock a b) ↔
      ∀ a b, a ≠ b → s.areEqual a b = t.areEqual a b := by
    simp only [Bool.eq_iff_iff, areEqual_iff is.wf, areEqual_iff it.wf, is.wf.pairInSameBlock, it.wf.pairInSameBlock]
  rw [hE] at hr
  cases r with
  | false =>
    refine ⟨false, rfl, ?_⟩
    simp only [Bool.false_eq_true, false_iff] at hr ⊢
    exact fun hh => hr (fun a b hab => (hh a b hab).1)
  | true =>
    refine ⟨_, rfl, ?_⟩
    have hq := hr.1 rfl
    have hrep : ∀ x, s.equalPart.rep x = t.equalPart.rep x := by
      intro x
      apply rep_of_class it.wf is.wf
      intro y
      by_cases hxy : x = y
      · subst hxy; exact ⟨fun _ => Or.inl rfl, fun _ => Or.inl rfl⟩
      · have := hq x y hxy
        rw [Bool.eq_iff_iff, areEqual_iff is.wf, areEqual_iff it.wf] at this
        unfold Eqv
        rw [this]
    have hc : (∀ a b, s.areComp a b = t.areComp a b) ↔ ∀ ab, ab ∈ s.compPairs ↔ ab ∈ t.compPairs := by
      simp only [Bool.eq_iff_iff, areComp_iff is.wf, areComp_iff it.wf, hrep]
      constructor
      · intro h ab
        constructor
        · intro hab
          have := (h ab.1 ab.2).1
          rw [← hrep, ← hrep, (is.reps _ hab).1, (is.reps _ hab).2, pair_of_lt (is.lt _ hab)] at this
          exact this hab
        · intro hab
          have := (h ab.1 ab.2).2
          rw [(it.reps _ hab).1, (it.reps _ hab).2, pair_of_lt (it.lt _ hab)] at this
          exact this hab
      · intro h a b
        exact h _
    have hc' : (∀ a b, a ≠ b → s.areComp a b = t.areComp a b) ↔ ∀ a b, s.areComp a b = t.areComp a b := by
      constructor
      · intro h a b
        by_cases hab : a = b
        · subst hab; rw [C46_no_self_complement F s hs, C46_no_self_complement G t ht]
        · exact h a b hab
      · intro h a b _; exact h a b
    rw [Bool.and_eq_true, List.all_eq_true, List.all_eq_true]
    simp only [List.contains_iff_mem]
    constructor
    · rintro ⟨h1, h2⟩ a b hab
      exact ⟨hq a b hab, hc.2 (fun ab => ⟨h1 ab, h2 ab⟩) a b⟩
    · intro h
      have := hc.1 (hc'.1 (fun a b hab => (h a b hab).2))
      exact ⟨fun ab => (this ab).1, fun ab => (this ab).2⟩

example : (do
    let s ← new (some [[0, 1]]) (some [(0, 2), (1, 2)])
    let t ← new none none
    (call (call t (.comp 2 1)).2 (.comp 0 2)).2.eq s) = .ok true := by decide

/-! ### C47 -/

/-- The binary digits of a number, as truth values of the elements. -/
def digit (n : Nat) (k : Int) : Bool := decide (0 ≤ k) && n.testBit k.toNat

theorem all_same_iff (f : Int → Bool) (B : List Int) (hB : B ≠ []) :
    (pySet (B.map f)).length = 1 ↔ ∀ x ∈ B, ∀ y ∈ B, f x = f y := by
  constructor
  · intro h x hx y hy
    obtain ⟨c, hc⟩ := List.length_eq_one_iff.1 h
    have hx' : f x ∈ pySet (B.map f) := mem_pySet.2 (List.mem_map.2 ⟨x, hx, rfl⟩)
    have hy' : f y ∈ pySet (B.map f) := mem_pySet.2 (List.mem_map.2 ⟨y, hy, rfl⟩)
    rw [hc, List.mem_singleton] at hx' hy'
    rw [hx', hy']
  · intro h
    obtain ⟨x, hx⟩ := List.exists_mem_of_ne_nil _ hB
    have hsub : pySet (B.map f) ⊆ [f x] := by
      intro c hc
      obtain ⟨y, hy, rfl⟩ := List.mem_map.1 (mem_pySet.1 hc)
      rw [h y hy x hx]; simp
    have h1 : (pySet (B.map f)).length ≤ 1 := by
      have := (List.subperm_of_subset (nodup_pySet _) hsub).length_le
      simpa using this
    have h2 : 0 < (pySet (B.map f)).length :=
      List.length_pos_of_mem (mem_pySet.2 (List.mem_map.2 ⟨x, hx, rfl⟩))
    omega

theorem two_values_iff (u v : Bool) : (pySet [u, v]).length = 2 ↔ u ≠ v := by
  cases u <;> cases v <;> decide

/-- **C47.** `int_matches(n)` tells whether the binary digits of `n` agree with all the facts entered so far. -/
theorem C47_int_matches (F : Fact → Prop) (s : SetPartComp) (h : Reach F s) (n : Nat) :
    ∃ r, s.intMatches n = .ok r ∧ (r = true ↔ Models F (digit n)) := by
  obtain ⟨hi, hs⟩ := reach_inv h
  obtain ⟨R, hR, _⟩ := C61_number_of_related_blocks F s h
  unfold SetPartComp.intMatches
  rw [hR]
  simp only
  have hlen : ∃ b, Verif.BV.mk {
      intval := some (n : Int)
      length := some ((if Verif.BV.binaryLength n > R.length then Verif.BV.binaryLength n else R.length : Nat) : Int) } =
        .ok b ∧ b.intval = n := by
    generalize hL : (if Verif.BV.binaryLength n > R.length then Verif.BV.binaryLength n else R.length) = L
    have hle : n < 2 ^ L := by
      rw [← Verif.BV.binaryLength_le, ← hL]
      split <;> omega
    by_cases h0 : L = 0
    · subst h0
      have : n = 0 := by simpa using hle
      subst this
      exact ⟨_, rfl, rfl⟩
    · obtain ⟨b, b1, _, b3⟩ := (Verif.BV.C26_intval_length n L (by omega)).1 hle
      exact ⟨b, b1, b3⟩
  obtain ⟨b, b1, b2⟩ := hlen
  rw [b1]
  refine ⟨_, rfl, ?_⟩
  have hd : hasIndexZ b = digit n := by
    funext k
    unfold hasIndexZ digit
    congr 1
    rw [Bool.eq_iff_iff, (Verif.BV.C26_attributes b).2.2.2.1, b2]
  rw [hd, ← hs, Bool.and_eq_true, List.all_eq_true, List.all_eq_true]
  simp only [decide_eq_true_eq, two_values_iff]
  unfold Sat
  apply and_congr_left
  intro _
  constructor
  · rintro h1 x y (e | ⟨B, hB, hx, hy⟩)
    · rw [e]
    · exact (all_same_iff _ B (List.ne_nil_of_mem hx)).1 (h1 B hB) x hx y hy
  · intro h1 B hB
    obtain ⟨z, hz, _⟩ := hi.wf.canon.partner hB 0
    exact (all_same_iff _ B (List.ne_nil_of_mem hz)).2 (fun x hx y hy => h1 x y (Or.inr ⟨B, hB, hx, hy⟩))

/-- 0b10110 has equal digits 1, 2 and different digits 3, 4; 0b01110 has not. -/
example : (new (some [[1, 2]]) (some [(3, 4)])).map (fun s =>
    ((s.intMatches 22).toOption, (s.intMatches 30).toOption, (s.intMatches 18).toOption)) =
    .ok (some true, some false, some false) := by decide

end Verif.SPC
