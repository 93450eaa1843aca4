import Verif.SetPart.Merge

/-!
# C37, C38: construction, equality and merging

Specification: a list of blocks joins `a` and `b` if one of its blocks contains both (`Joined`); the equivalence closure is
Mathlib's `Relation.EqvGen`.
-/

namespace Verif.SP
open Verif.Py

variable {L : Type}

/-! ### C37 -/

/-- Blocks with more than one element are disjoint and have no repeated elements.  (A block given twice overlaps with
itself.) -/
def NoOverlap (raw : List (List Int)) : Prop :=
  (∀ B ∈ raw, 1 < B.length → B.Nodup) ∧ (raw.filter (fun B => decide (1 < B.length))).Pairwise List.Disjoint

theorem noOverlap_iff {raw : List (List Int)} :
    NoOverlap raw ↔ (raw.filter (fun B => decide (B.length > 1))).flatten.Nodup := by
  unfold NoOverlap
  rw [List.nodup_flatten]
  refine and_congr ?_ Iff.rfl
  constructor
  · intro h B hB
    obtain ⟨h1, h2⟩ := List.mem_filter.1 hB
    exact h B h1 (by simpa using h2)
  · intro h B hB hl
    exact h B (List.mem_filter.2 ⟨hB, by simpa using hl⟩)

/-- **C37.** `SetPart(blocks, domain)` fails iff blocks overlap, with `DuplicateElementsError`; otherwise different
elements are in the same block iff they are in the same given block, and the object is well-formed. -/
theorem C37_construction (raw : List (List Int)) (d : Domain) :
    (NoOverlap raw → ∃ p : SetPart L, newPart raw d = .ok p ∧ WF p ∧ p.domain = d ∧ p.blockLabels = [] ∧
      ∀ a b, a ≠ b → (p.pairInSameBlock a b = true ↔ ∃ B ∈ raw, a ∈ B ∧ b ∈ B)) ∧
    (¬ NoOverlap raw → newPart raw d = (.error .duplicateElements : Except Err (SetPart L))) := by
  constructor
  · intro h
    obtain ⟨p, h1, h2, h3, h4, h5, _⟩ := init_ok (L := L) (d := d) (l := []) (c := {}) (noOverlap_iff.1 h)
    refine ⟨p, h1, h2, h4, by rw [h5]; simp, ?_⟩
    intro a b hab
    rw [h2.pairInSameBlock, h3, joined_cleanBlocks hab]
    rfl
  · intro h
    exact init_error (fun h1 => h (noOverlap_iff.2 h1))

example : NoOverlap [[2, 8], [], [1, 6, 3], [88], [88]] := noOverlap_iff.2 (by decide)

example : (newPart [[2, 8], [1, 6, 3], [88]] : Except Err (SetPart Nat)).map (·.blocks) = .ok [[1, 3, 6], [2, 8]] := by decide
example : (newPart [[2, 8], [1, 2]] : Except Err (SetPart Nat)) = .error .duplicateElements := by decide

/-- What the constructor makes is determined by its attributes: sorted blocks of at least two elements, disjoint. -/
theorem C37_canonical (raw : List (List Int)) (d : Domain) (p : SetPart L) (h : newPart raw d = .ok p) :
    p.blocks.Pairwise (· ≤ ·) ∧ (∀ B ∈ p.blocks, B.Pairwise (· < ·) ∧ 1 < B.length) ∧ p.blocks.Pairwise List.Disjoint := by
  by_cases hn : NoOverlap raw
  · obtain ⟨q, h1, h2, _⟩ := (C37_construction (L := L) raw d).1 hn
    rw [h] at h1; cases h1
    exact ⟨h2.canon.sorted, fun B hB => ⟨h2.canon.lt B hB, h2.canon.two B hB⟩, (List.nodup_flatten.1 h2.canon.nodup).2⟩
  · rw [(C37_construction (L := L) raw d).2 hn] at h
    cases h

/-- Equality of the domains as sets. -/
def SameDomain : Domain → Domain → Prop
  | .N, .N => True
  | .Z, .Z => True
  | .finite s, .finite t => ∀ x, x ∈ s ↔ x ∈ t
  | _, _ => False

theorem domain_eq_iff (d e : Domain) : d.eq e = true ↔ SameDomain d e := by
  unfold Domain.eq SameDomain
  split
  · simp
  · simp
  · rename_i s t
    simp only [Bool.and_eq_true, List.all_eq_true, List.contains_iff_mem]
    exact ⟨fun h x => ⟨h.1 x, h.2 x⟩, fun h => ⟨fun x => (h x).1, fun x => (h x).2⟩⟩
  · rename_i h1 h2 h3
    simp only [Bool.false_eq_true]

/-- **C37.** `p == q` for well-formed partitions: `DomainsNotEqualError` iff the domains differ, otherwise true iff they
join the same pairs of different elements. -/
theorem C37_equality (p q : SetPart L) (hp : WF p) (hq : WF q) :
    (¬ SameDomain p.domain q.domain → p.eq q = .error .domainsNotEqual) ∧
    (SameDomain p.domain q.domain → ∃ r, p.eq q = .ok r ∧
      (r = true ↔ ∀ a b, a ≠ b → p.pairInSameBlock a b = q.pairInSameBlock a b)) := by
  unfold SetPart.eq
  constructor
  · intro h
    rw [if_neg (by rw [domain_eq_iff]; exact h)]
  · intro h
    rw [if_pos (by rw [domain_eq_iff]; exact h)]
    refine ⟨_, rfl, ?_⟩
    rw [decide_eq_true_iff]
    constructor
    · intro he a b _
      rw [Bool.eq_iff_iff, hp.pairInSameBlock, hq.pairInSameBlock, he]
    · intro h1
      apply Canon.ext hp.canon hq.canon
      intro a b hab
      rw [← hp.pairInSameBlock, ← hq.pairInSameBlock, h1 a b hab]

example : (do let p ← newPart (L := Nat) [[2, 8], [1, 6, 3]]; let q ← newPart [[3, 1, 6], [8, 2], [5]]; p.eq q) = .ok true := by
  decide
example : (do let p ← newPart (L := Nat) [[2, 8]]; let q ← newPart [[2, 8]] .Z; p.eq q) = .error .domainsNotEqual := by decide

/-- **C37.** `element_to_block` is the block of the element (the element alone if it is in none), in ascending order. -/
theorem C37_element_to_block (p : SetPart L) (hp : WF p) (a : Int) :
    (p.elementToBlock a).Pairwise (· < ·) ∧
    ∀ x, x ∈ p.elementToBlock a ↔ x = a ∨ p.pairInSameBlock a x = true := by
  refine ⟨hp.elementToBlock_lt a, fun x => ?_⟩
  rw [hp.mem_elementToBlock, hp.pairInSameBlock]

/-- The constructor does not check that the elements are in the domain. -/
theorem C37_domain_not_checked :
    ∃ p : SetPart Nat, newPart [[-1, 2]] .N = .ok p ∧ p.pairInSameBlock (-1) 2 = true ∧ p.elementInDomain (-1) = false := by
  refine ⟨_, rfl, ?_⟩
  decide

/-! ### C38 -/

/-- A call of `merge_pair` or `merge_many`. -/
inductive Merge
  | pair (a b : Int)
  | many (l : List Int)

/-- The object after a call; an exception is caught by the caller. -/
def applyMerge [DecidableEq L] (p : SetPart L) : Merge → SetPart L
  | .pair a b => (p.mergePair a b).2
  | .many l => (p.mergeMany l).2

/-- Membership in a domain. -/
def InDomain : Domain → Int → Prop
  | .N, x => 0 ≤ x
  | .Z, _ => True
  | .finite s, x => x ∈ s

instance (d : Domain) (x : Int) : Decidable (InDomain d x) := by
  cases d <;> unfold InDomain <;> infer_instance

/-- A pair that is merged without exception: equal or both in the domain. -/
def Good (d : Domain) (ab : Int × Int) : Prop := ab.1 = ab.2 ∨ (InDomain d ab.1 ∧ InDomain d ab.2)

instance (d : Domain) (ab : Int × Int) : Decidable (Good d ab) := by unfold Good; infer_instance

/-- The pairs a call merges: all pairs of the list, up to the first one that is rejected. -/
def entered (d : Domain) : Merge → List (Int × Int)
  | .pair a b => [(a, b)].takeWhile (fun ab => decide (Good d ab))
  | .many l => (combinations2 l).takeWhile (fun ab => decide (Good d ab))

/-- The least equivalence relation containing `r` and the pairs. -/
def Closure (r : Int → Int → Prop) (pairs : List (Int × Int)) : Int → Int → Prop :=
  Relation.EqvGen (fun u v => r u v ∨ (u, v) ∈ pairs)

theorem closure_nil {r : Int → Int → Prop} (hr : Equivalence r) (x y : Int) : Closure r [] x y ↔ r x y := by
  constructor
  · intro h
    induction h with
    | rel u v h => simpa using h
    | refl u => exact hr.refl u
    | symm u v _ ih => exact hr.symm ih
    | trans u v w _ _ i1 i2 => exact hr.trans i1 i2
  · intro h; exact .rel _ _ (Or.inl h)

theorem eqvGen_le {r s : Int → Int → Prop} (h : ∀ x y, r x y → Relation.EqvGen s x y) {x y : Int}
    (hxy : Relation.EqvGen r x y) : Relation.EqvGen s x y := by
  induction hxy with
  | rel u v h' => exact h u v h'
  | refl u => exact .refl u
  | symm u v _ ih => exact ih.symm _ _
  | trans u v w _ _ i1 i2 => exact i1.trans _ _ _ i2

theorem closure_closure (r : Int → Int → Prop) (k l : List (Int × Int)) (x y : Int) :
    Closure (Closure r k) l x y ↔ Closure r (k ++ l) x y := by
  constructor
  · apply eqvGen_le
    rintro u v (h | h)
    · refine eqvGen_le ?_ h
      rintro u v (h | h)
      · exact .rel _ _ (Or.inl h)
      · exact .rel _ _ (Or.inr (List.mem_append_left _ h))
    · exact .rel _ _ (Or.inr (List.mem_append_right _ h))
  · apply eqvGen_le
    rintro u v (h | h)
    · exact .rel _ _ (Or.inl (.rel _ _ (Or.inl h)))
    · rcases List.mem_append.1 h with h | h
      · exact .rel _ _ (Or.inl (.rel _ _ (Or.inr h)))
      · exact .rel _ _ (Or.inr h)

theorem closure_congr {r s : Int → Int → Prop} (h : ∀ x y, r x y ↔ s x y) (l : List (Int × Int)) (x y : Int) :
    Closure r l x y ↔ Closure s l x y := by
  have : r = s := by funext x y; exact propext (h x y)
  rw [this]

theorem closure_congr_mem (r : Int → Int → Prop) {k l : List (Int × Int)} (h : ∀ ab, ab ∈ k ↔ ab ∈ l) (x y : Int) :
    Closure r k x y ↔ Closure r l x y := by
  constructor
  · apply eqvGen_le
    rintro u v (h' | h')
    · exact .rel _ _ (Or.inl h')
    · exact .rel _ _ (Or.inr ((h _).1 h'))
  · apply eqvGen_le
    rintro u v (h' | h')
    · exact .rel _ _ (Or.inl h')
    · exact .rel _ _ (Or.inr ((h _).2 h'))

theorem mergeRel_closure {r : Int → Int → Prop} (hr : Equivalence r) (a b x y : Int) :
    MergeRel r a b x y ↔ Closure r [(a, b)] x y := by
  rw [mergeRel_iff hr]
  unfold Closure
  simp

theorem elementInDomain_iff (p : SetPart L) (a : Int) : p.elementInDomain a = true ↔ InDomain p.domain a := by
  unfold SetPart.elementInDomain InDomain
  cases p.domain <;> simp

/-- `merge_pair` on an unlabelled partition -/
theorem mergePair_plain [DecidableEq L] {p : SetPart L} (h : WF p) (hl : p.blockLabels = []) (a b : Int) :
    ∃ q, WF q ∧ q.domain = p.domain ∧ q.blockLabels = [] ∧
      (Good p.domain (a, b) → p.mergePair a b = (.ok (), q) ∧ ∀ x y, Eqv q.blocks x y ↔ Closure (Eqv p.blocks) [(a, b)] x y) ∧
      (¬ Good p.domain (a, b) → p.mergePair a b = (.error .notInDomain, q) ∧ q = p) := by
  by_cases hab : a = b
  · subst hab
    refine ⟨p, h, rfl, hl, ?_, ?_⟩
    · intro _
      refine ⟨by rw [mergePair_eq, if_pos rfl], fun x y => ?_⟩
      rw [← mergeRel_closure (Eqv.equivalence h.canon)]
      exact mergeRel_of_eqv h.canon (Or.inl rfl) x y
    · intro hg; exact absurd (Or.inl rfl) hg
  · by_cases hd : InDomain p.domain a ∧ InDomain p.domain b
    · obtain ⟨q, h1, h2, h3, h4, h5, h6⟩ := mergePair_ok h hab ((elementInDomain_iff p a).2 hd.1)
        ((elementInDomain_iff p b).2 hd.2) (mergeBlockLabels_nil hl a b)
      refine ⟨q, h2, h3, h4, ?_, ?_⟩
      · intro _
        refine ⟨h1, fun x y => ?_⟩
        rw [h6, mergeRel_closure (Eqv.equivalence h.canon)]
      · intro hg; exact absurd (Or.inr hd) hg
    · refine ⟨p, h, rfl, hl, ?_, ?_⟩
      · rintro (hg | hg)
        · exact absurd hg hab
        · exact absurd hg hd
      · intro _
        refine ⟨?_, rfl⟩
        rw [mergePair_eq, if_neg hab, if_pos]
        rw [Bool.not_eq_true', Bool.and_eq_false_iff, ← Bool.not_eq_true, ← Bool.not_eq_true, elementInDomain_iff,
          elementInDomain_iff]
        by_contra hc
        rw [not_or, not_not, not_not] at hc
        exact hd hc

theorem mergePairs_plain [DecidableEq L] (l : List (Int × Int)) {p : SetPart L} (h : WF p) (hl : p.blockLabels = []) :
    ∃ q, WF q ∧ q.domain = p.domain ∧ q.blockLabels = [] ∧ (p.mergePairs l).2 = q ∧
      ((∀ ab ∈ l, Good p.domain ab) → (p.mergePairs l).1 = .ok ()) ∧
      ((∃ ab ∈ l, ¬ Good p.domain ab) → (p.mergePairs l).1 = .error .notInDomain) ∧
      ∀ x y, Eqv q.blocks x y ↔ Closure (Eqv p.blocks) (l.takeWhile (fun ab => decide (Good p.domain ab))) x y := by
  induction l generalizing p with
  | nil => exact ⟨p, h, rfl, hl, rfl, fun _ => rfl, by simp, fun x y => (closure_nil (Eqv.equivalence h.canon) x y).symm⟩
  | cons ab l ih =>
    obtain ⟨a, b⟩ := ab
    obtain ⟨q, h1, h2, h3, h4, h5⟩ := mergePair_plain h hl a b
    by_cases hg : Good p.domain (a, b)
    · obtain ⟨e1, e2⟩ := h4 hg
      obtain ⟨q', k1, k2, k3, k4, k5, k6, k7⟩ := ih h1 h3
      have hs : p.mergePairs ((a, b) :: l) = q.mergePairs l := by
        rw [SetPart.mergePairs, e1]
      rw [hs]
      rw [h2] at k5 k6 k7
      refine ⟨q', k1, k2.trans h2, k3, k4, ?_, ?_, ?_⟩
      · intro ha; exact k5 (fun ab hab => ha ab (by simp [hab]))
      · rintro ⟨ab, hab, hng⟩
        rcases List.mem_cons.1 hab with rfl | hab
        · exact absurd hg hng
        · exact k6 ⟨ab, hab, hng⟩
      · intro x y
        rw [List.takeWhile_cons_of_pos (by simpa using hg), k7, closure_congr e2, closure_closure]
        rfl
    · obtain ⟨e1, rfl⟩ := h5 hg
      have hs : q.mergePairs ((a, b) :: l) = (.error .notInDomain, q) := by
        rw [SetPart.mergePairs, e1]
      rw [hs]
      refine ⟨q, h, rfl, hl, rfl, ?_, fun _ => rfl, ?_⟩
      · intro ha; exact absurd (ha (a, b) (by simp)) hg
      · intro x y
        rw [List.takeWhile_cons_of_neg (by simpa using hg), closure_nil (Eqv.equivalence h.canon)]

theorem reinit_wf {p : SetPart L} (h : WF p) :
    ∃ q, reinit p = (.ok (), q) ∧ WF q ∧ q.blocks = p.blocks ∧ q.domain = p.domain ∧
      q.blockLabels = (if p.blocks = [] then [] else p.blockLabels) ∧ q.cache = { p.cache with aliased := false } := by
  obtain ⟨q, h1, h2, h3, h4, h5, h6⟩ := reinit_ok h.canon.nodup
  rw [cleanBlocks_of_canon h.canon] at h3 h5
  exact ⟨q, h1, h2, h3, h4, h5, h6⟩

theorem applyMerge_plain [DecidableEq L] (m : Merge) {p : SetPart L} (h : WF p) (hl : p.blockLabels = []) :
    WF (applyMerge p m) ∧ (applyMerge p m).domain = p.domain ∧ (applyMerge p m).blockLabels = [] ∧
      ∀ x y, Eqv (applyMerge p m).blocks x y ↔ Closure (Eqv p.blocks) (entered p.domain m) x y := by
  cases m with
  | pair a b =>
    obtain ⟨q, h1, h2, h3, h4, h5⟩ := mergePair_plain h hl a b
    by_cases hg : Good p.domain (a, b)
    · obtain ⟨e1, e2⟩ := h4 hg
      simp only [applyMerge, entered]
      rw [e1, List.takeWhile_cons_of_pos (by simpa using hg)]
      exact ⟨h1, h2, h3, e2⟩
    · obtain ⟨e1, e2⟩ := h5 hg
      simp only [applyMerge, entered]
      rw [e1, List.takeWhile_cons_of_neg (by simpa using hg)]
      exact ⟨h1, h2, h3, fun x y => by rw [closure_nil (Eqv.equivalence h.canon), e2]⟩
  | many l =>
    obtain ⟨q, h1, h2, h3, h4, h5, h6, h7⟩ := mergePairs_plain (combinations2 l) h hl
    have key : ∀ r : Except Err Unit, p.mergePairs (combinations2 l) = (r, q) →
        WF (p.mergeMany l).2 ∧ (p.mergeMany l).2.domain = p.domain ∧ (p.mergeMany l).2.blockLabels = [] ∧
        (p.mergeMany l).2.blocks = q.blocks := by
      intro r hr
      unfold SetPart.mergeMany
      rw [hr]
      cases r with
      | ok u =>
        obtain ⟨q', k1, k2, k3, k4, k5, _⟩ := reinit_wf h1
        simp only [k1]
        exact ⟨k2, k4.trans h2, by rw [k5, h3]; simp, k3⟩
      | error e => exact ⟨h1, h2, h3, rfl⟩
    obtain ⟨k1, k2, k3, k4⟩ := key (p.mergePairs (combinations2 l)).1 (Prod.ext rfl h4)
    exact ⟨k1, k2, k3, fun x y => by simp only [applyMerge]; rw [k4]; exact h7 x y⟩

/-- **C38.** After any history of `merge_pair` and `merge_many` on an unlabelled partition, two different elements are in
the same block iff they are connected by initial blocks and merged pairs, and the object is well-formed. -/
theorem C38_history [DecidableEq L] (ms : List Merge) (p : SetPart L) (hp : WF p) (hl : p.blockLabels = []) :
    WF (ms.foldl applyMerge p) ∧ (ms.foldl applyMerge p).domain = p.domain ∧
    ∀ x y, x ≠ y → ((ms.foldl applyMerge p).pairInSameBlock x y = true ↔
      Closure (fun u v => p.pairInSameBlock u v = true) (ms.flatMap (entered p.domain)) x y) := by
  have key : WF (ms.foldl applyMerge p) ∧ (ms.foldl applyMerge p).domain = p.domain ∧
      (ms.foldl applyMerge p).blockLabels = [] ∧
      ∀ x y, Eqv (ms.foldl applyMerge p).blocks x y ↔ Closure (Eqv p.blocks) (ms.flatMap (entered p.domain)) x y := by
    induction ms generalizing p with
    | nil => exact ⟨hp, rfl, hl, fun x y => (closure_nil (Eqv.equivalence hp.canon) x y).symm⟩
    | cons m ms ih =>
      obtain ⟨h1, h2, h3, h4⟩ := applyMerge_plain m hp hl
      obtain ⟨k1, k2, k3, k4⟩ := ih (applyMerge p m) h1 h3
      refine ⟨k1, k2.trans h2, k3, fun x y => ?_⟩
      rw [List.foldl_cons, k4, closure_congr h4, closure_closure, h2]
      rfl
  refine ⟨key.1, key.2.1, fun x y hxy => ?_⟩
  rw [key.1.pairInSameBlock]
  have h1 := key.2.2.2 x y
  have h2 : Eqv (ms.foldl applyMerge p).blocks x y ↔ Joined (ms.foldl applyMerge p).blocks x y :=
    ⟨fun h => h.resolve_left hxy, Or.inr⟩
  rw [← h2, h1]
  constructor
  · apply eqvGen_le
    rintro u v ((rfl | h) | h)
    · exact .refl _
    · exact .rel _ _ (Or.inl ((hp.pairInSameBlock u v).2 h))
    · exact .rel _ _ (Or.inr h)
  · apply eqvGen_le
    rintro u v (h | h)
    · exact .rel _ _ (Or.inl (Or.inr ((hp.pairInSameBlock u v).1 h)))
    · exact .rel _ _ (Or.inr h)

/-- A history: `{0,1}`, then merging 1 with 2, and 3, 4, 5 with each other. -/
example : (newPart (L := Nat) [[0, 1]]).map (fun p => ([Merge.pair 1 2, .many [3, 4, 5], .pair 7 (-1)].foldl applyMerge p).blocks)
    = .ok [[0, 1, 2], [3, 4, 5]] := by decide

/-- **C38.** From the constructor: after `SetPart(blocks, domain)` and any history of merges. -/
theorem C38_from_constructor [DecidableEq L] (raw : List (List Int)) (d : Domain) (p : SetPart L) (h : newPart raw d = .ok p)
    (ms : List Merge) (x y : Int) (hxy : x ≠ y) :
    (ms.foldl applyMerge p).pairInSameBlock x y = true ↔
      Closure (fun u v => ∃ B ∈ raw, u ∈ B ∧ v ∈ B) (ms.flatMap (entered d)) x y := by
  by_cases hn : NoOverlap raw
  · obtain ⟨q, h1, h2, h3, h4, h5⟩ := (C37_construction (L := L) raw d).1 hn
    rw [h] at h1; cases h1
    rw [(C38_history ms p h2 h4).2.2 x y hxy, h3]
    constructor
    · apply eqvGen_le
      rintro u v (h | h)
      · by_cases huv : u = v
        · subst huv; exact .refl _
        · exact .rel _ _ (Or.inl ((h5 u v huv).1 h))
      · exact .rel _ _ (Or.inr h)
    · apply eqvGen_le
      rintro u v (h | h)
      · by_cases huv : u = v
        · subst huv; exact .refl _
        · exact .rel _ _ (Or.inl ((h5 u v huv).2 h))
      · exact .rel _ _ (Or.inr h)
  · rw [(C37_construction (L := L) raw d).2 hn] at h
    cases h

/-- **C38.** The order of the calls does not matter: two histories that enter the same pairs lead to equal partitions. -/
theorem C38_order_independent [DecidableEq L] (ms ns : List Merge) (p : SetPart L) (hp : WF p) (hl : p.blockLabels = [])
    (h : ∀ ab, ab ∈ ms.flatMap (entered p.domain) ↔ ab ∈ ns.flatMap (entered p.domain)) :
    (ms.foldl applyMerge p).eq (ns.foldl applyMerge p) = .ok true := by
  obtain ⟨h1, h2, h3⟩ := C38_history ms p hp hl
  obtain ⟨k1, k2, k3⟩ := C38_history ns p hp hl
  have hs : SameDomain (ms.foldl applyMerge p).domain (ns.foldl applyMerge p).domain := by
    rw [h2, k2]; cases p.domain <;> simp [SameDomain]
  obtain ⟨r, e1, e2⟩ := (C37_equality _ _ h1 k1).2 hs
  rw [e1, e2.2 ?_]
  intro a b hab
  rw [Bool.eq_iff_iff, h3 a b hab, k3 a b hab, closure_congr_mem _ h]

/-- In particular for a permuted history. -/
theorem C38_permuted [DecidableEq L] (ms ns : List Merge) (hmn : ms.Perm ns) (p : SetPart L) (hp : WF p) (hl : p.blockLabels = []) :
    (ms.foldl applyMerge p).eq (ns.foldl applyMerge p) = .ok true :=
  C38_order_independent ms ns p hp hl (fun _ => (hmn.flatMap_right _).mem_iff)

/-- **C38.** A merge raises `NotInDomainError` iff it gets to a pair of different elements not both in the domain; there are
no other exceptions. -/
theorem C38_exceptions [DecidableEq L] (p : SetPart L) (hp : WF p) (hl : p.blockLabels = []) (a b : Int) (l : List Int) :
    ((p.mergePair a b).1 = .ok () ↔ a = b ∨ (InDomain p.domain a ∧ InDomain p.domain b)) ∧
    ((p.mergePair a b).1 ≠ .ok () → p.mergePair a b = (.error .notInDomain, p)) ∧
    ((∀ ab ∈ combinations2 l, Good p.domain ab) → (p.mergeMany l).1 = .ok ()) ∧
    ((∃ ab ∈ combinations2 l, ¬ Good p.domain ab) → (p.mergeMany l).1 = .error .notInDomain) := by
  obtain ⟨q, h1, h2, h3, h4, h5⟩ := mergePair_plain hp hl a b
  refine ⟨?_, ?_, ?_, ?_⟩
  · constructor
    · intro h
      by_contra hg
      rw [(h5 hg).1] at h
      cases h
    · intro hg; rw [(h4 hg).1]
  · intro h
    by_cases hg : Good p.domain (a, b)
    · exact absurd (by rw [(h4 hg).1]) h
    · obtain ⟨e1, e2⟩ := h5 hg
      rw [e1, e2]
  · intro h
    obtain ⟨q, k1, k2, k3, k4, k5, k6, k7⟩ := mergePairs_plain (combinations2 l) hp hl
    unfold SetPart.mergeMany
    rw [show p.mergePairs (combinations2 l) = (.ok (), q) from Prod.ext (k5 h) k4]
    obtain ⟨q', j1, _⟩ := reinit_wf k1
    simp only [j1]
  · intro h
    obtain ⟨q, k1, k2, k3, k4, k5, k6, k7⟩ := mergePairs_plain (combinations2 l) hp hl
    unfold SetPart.mergeMany
    rw [show p.mergePairs (combinations2 l) = (.error .notInDomain, q) from Prod.ext (k6 h) k4]

end Verif.SP
