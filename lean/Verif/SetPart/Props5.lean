import Verif.SetPart.Props4

/-!
# C44: labelling the elements of a domain one after the other
-/

namespace Verif.SP
open Verif.Py

variable {L : Type} [DecidableEq L]

/-- a loop of `add_label_to_element` over pairs of element and label; stops at the first exception -/
def SetPart.addLabels (p : SetPart L) : List (Int × L) → Except Err Unit × SetPart L
  | [] => (.ok (), p)
  | (x, label) :: rest => match p.addLabelToElement x label with
    | (.ok _, p) => p.addLabels rest
    | (.error e, p) => (.error e, p)

/-- The stored list of blocks keeps its singletons. -/
def KeepsSingles (p q : SetPart L) : Prop :=
  ∀ r, p.cache.canonical = some r → ∃ r', q.cache.canonical = some r' ∧ ∀ x : Int, [x] ∈ r → [x] ∈ r'

omit [DecidableEq L] in
theorem KeepsSingles.refl (p : SetPart L) : KeepsSingles p p := fun r hr => ⟨r, hr, fun _ h => h⟩

omit [DecidableEq L] in
theorem KeepsSingles.trans {p q r : SetPart L} (h1 : KeepsSingles p q) (h2 : KeepsSingles q r) : KeepsSingles p r := by
  intro c hc
  obtain ⟨c', e', h'⟩ := h1 c hc
  obtain ⟨c'', e'', h''⟩ := h2 c' e'
  exact ⟨c'', e'', fun x hx => h'' x (h' x hx)⟩

omit [DecidableEq L] in
theorem reinit_singles (p : SetPart L) : KeepsSingles p (reinit p).2 := by
  unfold reinit
  cases h : init p.blocks p.domain p.blockLabels p.cache with
  | error e => exact KeepsSingles.refl p
  | ok q =>
    unfold init at h
    simp only at h
    split at h
    · cases h; exact fun r hr => ⟨r, hr, fun _ h => h⟩
    · split at h
      · cases h; exact fun r hr => ⟨r, hr, fun _ h => h⟩
      · cases h

omit [DecidableEq L] in
theorem appendToBlock_singles {p : SetPart L} (hp : WF p) (i : Nat) (b : Int) : KeepsSingles p (p.appendToBlock i b) := by
  have hne : ∀ x : Int, [x] ≠ (p.blocks[i]?).getD [] := by
    intro x hx
    cases h : p.blocks[i]? with
    | none => rw [h] at hx; cases hx
    | some B =>
      rw [h] at hx
      have := hp.canon.two B (List.mem_of_getElem? h)
      simp only [Option.getD_some] at hx
      rw [← hx] at this
      simp at this
  unfold SetPart.appendToBlock
  intro r hr
  by_cases h : p.cache.aliased = true
  · simp only [h, if_true, hr, Option.map_some]
    refine ⟨_, rfl, fun x hx => List.mem_map.2 ⟨[x], hx, ?_⟩⟩
    rw [if_neg (hne x)]
  · simp only [h, Bool.false_eq_true, if_false]; exact ⟨r, hr, fun _ h => h⟩

theorem mergePair_singles {p : SetPart L} (hp : WF p) (a b : Int) : KeepsSingles p (p.mergePair a b).2 := by
  rw [mergePair_eq]
  split
  · exact KeepsSingles.refl p
  · split
    · exact KeepsSingles.refl p
    · obtain ⟨d, hd⟩ := mergeBlockLabels_state p a b
      generalize p.mergeBlockLabels a b = r at *
      obtain ⟨o, s⟩ := r
      simp only at hd
      subst hd
      have h0 : KeepsSingles p { p with blockLabels := d } := fun r hr => ⟨r, hr, fun _ h => h⟩
      have hq : WF ({ p with blockLabels := d } : SetPart L) := hp.withLabels d
      cases o with
      | error e => exact h0
      | ok u =>
        refine h0.trans ?_
        generalize ({ p with blockLabels := d } : SetPart L) = q at *
        unfold mergeCore
        simp only
        split
        · split
          · exact KeepsSingles.refl q
          · refine KeepsSingles.trans ?_ (reinit_singles _); exact fun r hr => ⟨r, hr, fun _ h => h⟩
        · split
          · refine KeepsSingles.trans ?_ (reinit_singles _); exact fun r hr => ⟨r, hr, fun _ h => h⟩
          · split
            · exact (appendToBlock_singles hq _ _).trans (reinit_singles _)
            · exact (appendToBlock_singles hq _ _).trans (reinit_singles _)

/-- What holds after the pairs in `done` have been entered. -/
structure Entered (s : List Int) (done : List (Int × L)) (p : SetPart L) : Prop where
  wf : WF p
  lab : Labelled p
  dom : p.domain = .finite s
  ind : ElementsInDomain p
  sub : ∀ x l, (x, l) ∈ done → x ∈ s
  rel : ∀ x y, Eqv p.blocks x y ↔ x = y ∨ ∃ l, (x, l) ∈ done ∧ (y, l) ∈ done
  get : ∀ x l, p.getLabelFromElement x = some l ↔ (x, l) ∈ done
  can : (∃ r, p.cache.canonical = some r ∧ ∀ x ∈ s, [x] ∈ r) ∨ (done = [] ∧ p.cache.canonical = none ∧ p.blocks = [])

theorem entered_step {s : List Int} {done : List (Int × L)} {p : SetPart L} (h : Entered s done p) {x : Int} {label : L}
    (hx : x ∈ s) (hnew : ∀ l, (x, l) ∉ done) :
    ∃ q, p.addLabelToElement x label = (.ok (), q) ∧ Entered s (done ++ [(x, label)]) q := by
  have hxd : InDomain p.domain x := by rw [h.dom]; exact hx
  have hnone : p.getLabelFromElement x = none := by
    cases hg : p.getLabelFromElement x with
    | none => rfl
    | some l => exact absurd ((h.get x l).1 hg) (hnew l)
  have halone : ∀ y, Eqv p.blocks x y ↔ x = y := by
    intro y
    rw [h.rel]
    exact ⟨fun h' => h'.elim id (fun ⟨l, hl, _⟩ => absurd hl (hnew l)), Or.inl⟩
  have hblock : p.elementToBlock x = [x] := by
    apply eq_of_mem_iff (h.wf.elementToBlock_lt x) (by simp)
    intro y
    have := halone y
    unfold Eqv at this
    rw [h.wf.mem_elementToBlock, List.mem_singleton, eq_comm, this, eq_comm]
  obtain ⟨look1, look2⟩ := labelled_lookup h.wf h.lab
  have hkeep := labelElement_keeps h.wf x label
  by_cases hused : ∃ y, (y, label) ∈ done
  · obtain ⟨y, hy⟩ := hused
    have hyl := (h.get y label).2 hy
    have hblk : p.getBlockFromLabel label = some (p.elementToBlock y) := (look2 _ _).2 ⟨y, hyl, rfl⟩
    have hrun : p.addLabelToElement x label = p.mergePair x (p.rep y) := by
      unfold SetPart.addLabelToElement
      rw [if_neg (by simp [(elementInDomain_iff p x).2 hxd])]
      simp only
      unfold SetPart.getLabelFromElement at hnone
      rw [hnone, hblk, hblock]
      rfl
    have hyd : InDomain p.domain (p.rep y) := by
      rcases rep_eqv h.wf y with e | e
      · rw [← e, h.dom]; exact h.sub y _ hy
      · exact (joined_in_domain h.ind e).2
    have hne : x ≠ p.rep y := by
      intro he
      have := (rep_eqv h.wf y).symm
      rw [← he, halone] at this
      subst this
      exact hnew _ hy
    have hlabrep : p.getLabelFromElement (p.rep y) = some label := by
      unfold SetPart.getLabelFromElement
      rw [(h.wf.elementToBlock_eq (p.rep y) y).2 (rep_eqv h.wf y).symm]
      exact hyl
    obtain ⟨q, q1, q2, q3, q4, q5, q6⟩ := (C44_merge_pair p h.wf h.lab x (p.rep y) hne hxd hyd).2 (Or.inr (Or.inl hnone))
    have hq : (p.addLabelToElement x label).2 = q := by rw [hrun, q1]
    have hmemy : ∀ z, z ∈ p.elementToBlock (p.rep y) ↔ (z, label) ∈ done := by
      intro z
      rw [h.wf.mem_elementToBlock, ← h.get, look1 (p.rep y) z label hlabrep, h.wf.pairInSameBlock, eq_comm]
    refine ⟨q, by rw [hrun, q1], q2, q3, by rw [q4, h.dom], ?_, ?_, ?_, ?_, ?_⟩
    · rw [← hq]; exact hkeep.inDomain h.ind
    · intro z l hz
      rcases List.mem_append.1 hz with hz | hz
      · exact h.sub z l hz
      · rw [List.mem_singleton, Prod.mk.injEq] at hz; rw [hz.1]; exact hx
    · intro a b
      have e1 : ∀ a, Eqv p.blocks a x ↔ a = x := fun a => ⟨fun h' => ((halone a).1 h'.symm).symm, fun h' => h' ▸ Or.inl rfl⟩
      have e2 : ∀ a, Eqv p.blocks (p.rep y) a ↔ (a, label) ∈ done := by
        intro a
        rw [← hmemy, h.wf.mem_elementToBlock]
        unfold Eqv
        rw [eq_comm]
      have e3 : ∀ a, Eqv p.blocks a (p.rep y) ↔ (a, label) ∈ done := fun a => by
        rw [← e2]; exact ⟨Eqv.symm, Eqv.symm⟩
      rw [q5]
      unfold MergeRel
      rw [e1, e2, e3, halone, h.rel]
      constructor
      · rintro ((rfl | ⟨l, h1, h2⟩) | ⟨rfl, h2⟩ | ⟨h1, rfl⟩)
        · exact Or.inl rfl
        · exact Or.inr ⟨l, by simp [h1], by simp [h2]⟩
        · exact Or.inr ⟨label, by simp, by simp [h2]⟩
        · exact Or.inr ⟨label, by simp [h1], by simp⟩
      · rintro (rfl | ⟨l, h1, h2⟩)
        · exact Or.inl (Or.inl rfl)
        · rw [List.mem_append, List.mem_singleton, Prod.mk.injEq] at h1 h2
          rcases h1 with h1 | ⟨rfl, rfl⟩ <;> rcases h2 with h2 | ⟨rfl, e⟩
          · exact Or.inl (Or.inr ⟨l, h1, h2⟩)
          · subst e; exact Or.inr (Or.inr ⟨h1, rfl⟩)
          · exact Or.inr (Or.inl ⟨rfl, h2⟩)
          · exact Or.inl (Or.inl rfl)
    · intro z l
      simp only [q6, hblock, List.mem_singleton, hmemy, hnone, hlabrep, List.mem_append, Prod.mk.injEq]
      by_cases hz : z = x
      · subst hz
        simp only [true_or, if_true, true_and, Option.none_or, Option.some.injEq]
        exact ⟨fun h' => Or.inr h'.symm, fun h' => h'.elim (fun h' => absurd h' (hnew l)) Eq.symm⟩
      · by_cases hz2 : (z, label) ∈ done
        · simp only [hz, hz2, or_true, if_true, Option.none_or, Option.some.injEq, false_and, or_false]
          have := (h.get z label).2 hz2
          rw [← h.get, this, Option.some.injEq]
        · simp only [hz, hz2, or_self, if_false, false_and, or_false]
          exact h.get z l
    · left
      rcases h.can with ⟨r, hr, hs⟩ | ⟨h0, _⟩
      · obtain ⟨r', hr', hs'⟩ := mergePair_singles h.wf x (p.rep y) r hr
        rw [q1] at hr'
        exact ⟨r', hr', fun z hz => hs' z (hs z hz)⟩
      · rw [h0] at hy; cases hy
  · obtain ⟨r, c, hcan, hcc, hr⟩ : ∃ r c, p.canonicalBlocksWithSingletons = (.ok r, { p with cache := c }) ∧ c.canonical = some r ∧
        ∀ x ∈ s, [x] ∈ r := by
      unfold SetPart.canonicalBlocksWithSingletons
      rcases h.can with ⟨r, hr, hs⟩ | ⟨h0, h1, h2⟩
      · rw [hr]
        exact ⟨r, p.cache, rfl, hr, hs⟩
      · rw [h1]
        have hns : p.nonSingletons = [] := by
          rw [h.wf.ns, h2]; rfl
        have hb : p.blocksWithSingletons {} = .ok (p.withSingletons s) := by
          unfold SetPart.blocksWithSingletons
          simp only [h.dom]
        rw [hb]
        refine ⟨_, _, rfl, rfl, fun z hz => ?_⟩
        unfold SetPart.withSingletons
        rw [mem_sortL, h2, hns]
        simp only [List.nil_append, List.mem_map, List.mem_filter]
        exact ⟨z, ⟨mem_pySet.2 hz, by simp⟩, rfl⟩
    have hnewl : ∀ y, p.getLabelFromElement y ≠ some label := fun y hy => hused ⟨y, (h.get y label).1 hy⟩
    have hblk : p.getBlockFromLabel label = none := by
      cases hb : p.getBlockFromLabel label with
      | none => rfl
      | some B =>
        obtain ⟨y, hy, _⟩ := (look2 _ _).1 hb
        exact absurd hy (hnewl y)
    obtain ⟨q, q1, q2, q3, q4, q5⟩ := (C44_label_element p h.wf h.lab h.ind x label hxd).2.2 r (by rw [hcan])
      (by rw [hblock]; exact hr x hx) hnone hnewl
    have hq : (p.addLabelToElement x label).2 = q := by rw [q1]
    have hcache : q.cache = c := by
      rw [← hq]
      unfold SetPart.addLabelToElement
      rw [if_neg (by simp [(elementInDomain_iff p x).2 hxd])]
      simp only
      have hnone' := hnone
      unfold SetPart.getLabelFromElement at hnone'
      rw [hnone', hblk]
      simp only [Bool.false_eq_true, if_false]
      unfold SetPart.addLabelToBlock
      rw [hcan]
      simp only
      split
      · rfl
      · unfold SetPart.getLabelFromBlock at hnone'
        rw [hnone']
        simp only [Bool.false_eq_true, if_false]
        split <;> rfl
    refine ⟨q, q1, q2, q3, by rw [← hq, hkeep.domain, h.dom], ?_, ?_, ?_, ?_, Or.inl ⟨r, by rw [hcache, hcc], hr⟩⟩
    · rw [← hq]; exact hkeep.inDomain h.ind
    · intro z l hz
      rcases List.mem_append.1 hz with hz | hz
      · exact h.sub z l hz
      · rw [List.mem_singleton, Prod.mk.injEq] at hz; rw [hz.1]; exact hx
    · intro a b
      rw [q4, h.rel]
      constructor
      · rintro (rfl | ⟨l, h1, h2⟩)
        · exact Or.inl rfl
        · exact Or.inr ⟨l, by simp [h1], by simp [h2]⟩
      · rintro (rfl | ⟨l, h1, h2⟩)
        · exact Or.inl rfl
        · rw [List.mem_append, List.mem_singleton, Prod.mk.injEq] at h1 h2
          rcases h1 with h1 | ⟨rfl, rfl⟩ <;> rcases h2 with h2 | ⟨rfl, e⟩
          · exact Or.inr ⟨l, h1, h2⟩
          · subst e; exact absurd ⟨_, h1⟩ hused
          · exact absurd ⟨_, h2⟩ hused
          · exact Or.inl rfl
    · intro z l
      simp only [q5, hblock, List.mem_singleton, List.mem_append, Prod.mk.injEq]
      by_cases hz : z = x
      · subst hz
        simp only [if_true, true_and, Option.some.injEq]
        exact ⟨fun h' => Or.inr h'.symm, fun h' => h'.elim (fun h' => absurd h' (hnew l)) Eq.symm⟩
      · simp only [hz, if_false, false_and, or_false]
        exact h.get z l

theorem entered_all {s : List Int} (items : List (Int × L)) {done : List (Int × L)} {p : SetPart L} (h : Entered s done p)
    (hs : ∀ x l, (x, l) ∈ items → x ∈ s) (hn : (done ++ items).map Prod.fst |>.Nodup) :
    ∃ q, p.addLabels items = (.ok (), q) ∧ Entered s (done ++ items) q := by
  induction items generalizing done p with
  | nil => exact ⟨p, rfl, by rw [List.append_nil]; exact h⟩
  | cons xl items ih =>
    obtain ⟨x, label⟩ := xl
    obtain ⟨q, q1, q2⟩ := entered_step h (label := label) (hs x label (by simp)) (fun l hl => by
      rw [List.map_append, List.nodup_append] at hn
      exact hn.2.2 x (List.mem_map.2 ⟨_, hl, rfl⟩) x (by simp) rfl)
    obtain ⟨q', h1, h2⟩ := ih q2 (fun y l hy => hs y l (List.mem_cons_of_mem _ hy)) (by simpa using hn)
    refine ⟨q', ?_, by simpa using h2⟩
    rw [SetPart.addLabels, q1]
    exact h1

theorem labels_of {q : SetPart L} {items : List (Int × L)} (wf : WF q) (lab : Labelled q)
    (rel : ∀ x y, Eqv q.blocks x y ↔ x = y ∨ ∃ l, (x, l) ∈ items ∧ (y, l) ∈ items)
    (get : ∀ x l, q.getLabelFromElement x = some l ↔ (x, l) ∈ items) :
    (∀ x y, x ≠ y → (q.pairInSameBlock x y = true ↔ ∃ l, (x, l) ∈ items ∧ (y, l) ∈ items)) ∧
      (∀ l B, q.getBlockFromLabel l = some B ↔ B ≠ [] ∧ B.Pairwise (· < ·) ∧ ∀ x, x ∈ B ↔ (x, l) ∈ items) ∧
      (∀ l, l ∈ q.blockLabels.map Prod.snd ↔ ∃ x, (x, l) ∈ items) ∧ (q.blockLabels.map Prod.snd).Nodup := by
  obtain ⟨look1, look2⟩ := labelled_lookup wf lab
  refine ⟨?_, ?_, ?_, ?_⟩
  · intro x y hne
    rw [wf.pairInSameBlock]
    have hr := rel x y
    unfold Eqv at hr
    exact ⟨fun hj => (hr.1 (Or.inr hj)).resolve_left hne, fun hl => (hr.2 (Or.inr hl)).resolve_left hne⟩
  · intro l B
    rw [look2]
    have hmem : ∀ x y, q.getLabelFromElement x = some l → (y ∈ q.elementToBlock x ↔ (y, l) ∈ items) := by
      intro x y hx
      rw [wf.mem_elementToBlock, ← get, look1 x y l hx, wf.pairInSameBlock, eq_comm]
    constructor
    · rintro ⟨x, hx, rfl⟩
      have := (hmem x x hx).2 ((get x l).1 hx)
      exact ⟨List.ne_nil_of_mem this, wf.elementToBlock_lt x, fun y => hmem x y hx⟩
    · rintro ⟨hB, hlt, hB'⟩
      obtain ⟨x, hx⟩ := List.exists_mem_of_ne_nil B hB
      have hx' := (get x l).2 ((hB' x).1 hx)
      refine ⟨x, hx', eq_of_mem_iff hlt (wf.elementToBlock_lt x) fun y => ?_⟩
      rw [hB', hmem x y hx']
  · intro l
    rw [List.mem_map]
    constructor
    · rintro ⟨⟨B, l'⟩, hB, rfl⟩
      have := Dict.mem_get? lab.keys hB
      obtain ⟨x, hx⟩ := lab.blocks _ _ this
      refine ⟨x, (get x l').1 ?_⟩
      unfold SetPart.getLabelFromElement SetPart.getLabelFromBlock
      rw [hx]; exact this
    · rintro ⟨x, hx⟩
      exact ⟨(q.elementToBlock x, l), Dict.get?_mem ((get x l).2 hx), rfl⟩
  · have hk := lab.keys
    have hi := lab.inj
    have hi' : ∀ a ∈ q.blockLabels, ∀ b ∈ q.blockLabels, a.2 = b.2 → a = b := by
      rintro ⟨a, l⟩ ha ⟨b, l'⟩ hb e
      simp only at e
      subst e
      rw [hi a b l (Dict.mem_get? hk ha) (Dict.mem_get? hk hb)]
    exact List.Nodup.map_on (fun a ha b hb e => hi' a ha b hb e) (List.Nodup.of_map _ hk)

/-- **C44.** Labelling elements of a finite domain one after the other, starting with a partition without blocks, gives the partition into the sets of
elements with the same label.  No exception is raised.  The labels of the blocks are the labels entered, and the block of a label contains, in ascending
order, the elements for which it was entered. -/
theorem C44_label_all (s : List Int) (items : List (Int × L)) (hs : ∀ x l, (x, l) ∈ items → x ∈ s) (hn : (items.map Prod.fst).Nodup)
    (p : SetPart L) (hp : newPart [] (.finite s) = .ok p) :
    ∃ q, p.addLabels items = (.ok (), q) ∧ WF q ∧ Labelled q ∧ q.domain = .finite s ∧
      (∀ x y, x ≠ y → (q.pairInSameBlock x y = true ↔ ∃ l, (x, l) ∈ items ∧ (y, l) ∈ items)) ∧
      (∀ x l, q.getLabelFromElement x = some l ↔ (x, l) ∈ items) ∧
      (∀ l B, q.getBlockFromLabel l = some B ↔ B ≠ [] ∧ B.Pairwise (· < ·) ∧ ∀ x, x ∈ B ↔ (x, l) ∈ items) ∧
      (∀ l, l ∈ q.blockLabels.map Prod.snd ↔ ∃ x, (x, l) ∈ items) ∧ (q.blockLabels.map Prod.snd).Nodup := by
  have h0 : Entered s ([] : List (Int × L)) p := by
    cases hp
    refine ⟨wf_setTrivial _ _, labelled_nil rfl, rfl, ?_, by simp, ?_, ?_, Or.inr ⟨rfl, rfl, rfl⟩⟩
    · intro B hB; cases hB
    · intro x y; unfold Eqv Joined; simp [setTrivial]
    · intro x l; simp [SetPart.getLabelFromElement, SetPart.getLabelFromBlock, setTrivial]
  obtain ⟨q, q1, h⟩ := entered_all items h0 hs (by simpa using hn)
  rw [List.nil_append] at h
  obtain ⟨h1, h2, h3, h4⟩ := labels_of h.wf h.lab h.rel h.get
  exact ⟨q, q1, h.wf, h.lab, h.dom, h1, h.get, h2, h3, h4⟩

/-- **C44.** A label for an element of a partition with only one block, which contains the whole domain. -/
theorem C44_label_whole (s : List Int) (x : Int) (label : L) (hx : x ∈ s) (hs : s.Pairwise (· < ·)) (p : SetPart L)
    (hp : newPart [s] (.finite s) = .ok p) :
    ∃ q, p.addLabelToElement x label = (.ok (), q) ∧ WF q ∧ Labelled q ∧ q.domain = .finite s ∧
      (∀ x y, x ≠ y → (q.pairInSameBlock x y = true ↔ x ∈ s ∧ y ∈ s)) ∧
      (∀ x l, q.getLabelFromElement x = some l ↔ x ∈ s ∧ l = label) ∧
      (∀ l B, q.getBlockFromLabel l = some B ↔ l = label ∧ B = s) ∧ q.blockLabels.map Prod.snd = [label] := by
  have hsort : sortZ s = s := sortZ_of_lt hs
  have hclean : cleanBlocks [s] = if 1 < s.length then [s] else [] := by
    unfold cleanBlocks
    by_cases h : 1 < s.length
    · simp [h, hsort, sortL]
    · simp [h, sortL]
  obtain ⟨p', h1, wf, h3, h4, h5, h6⟩ := init_ok (L := L) (raw := [s]) (d := .finite s) (l := []) (c := {}) (by
    by_cases h : 1 < s.length
    · simpa [h] using nodup_of_lt hs
    · simp [h])
  have hpp : newPart [s] (.finite s) = .ok p' := h1
  rw [hp] at hpp
  cases hpp
  rw [hclean] at h3
  have hlab0 : p.blockLabels = [] := by rw [h5]; simp
  have hj : ∀ a b, Eqv p.blocks a b ↔ a = b ∨ (a ∈ s ∧ b ∈ s) := by
    intro a b
    unfold Eqv Joined
    rw [h3]
    by_cases h : 1 < s.length
    · simp [h]
    · simp only [h, if_false, List.not_mem_nil, false_and, exists_false, or_false]
      constructor
      · exact Or.inl
      · rintro (e | ⟨ha, hb⟩)
        · exact e
        · match s, h with
          | [], _ => cases ha
          | [y], _ => simp at ha hb; rw [ha, hb]
          | _ :: _ :: _, h => simp at h
  have hblock : p.elementToBlock x = s := by
    apply eq_of_mem_iff (wf.elementToBlock_lt x) hs
    intro y
    rw [wf.mem_elementToBlock]
    have := hj x y
    unfold Eqv at this
    constructor
    · rintro (rfl | h)
      · exact hx
      · rcases this.1 (Or.inr h) with rfl | h
        · exact hx
        · exact h.2
    · intro hy
      rcases this.2 (Or.inr ⟨hx, hy⟩) with h | h
      · exact Or.inl h.symm
      · exact Or.inr h
  have hget0 : ∀ y, p.getLabelFromElement y = none := by
    intro y
    unfold SetPart.getLabelFromElement SetPart.getLabelFromBlock
    rw [hlab0]; rfl
  have hb : p.canonicalBlocksWithSingletons.1 = .ok (p.withSingletons s) := by
    rw [first_canonical p (by rw [h6])]
    unfold SetPart.blocksWithSingletons
    simp only [h4]
  have hxd : InDomain p.domain x := by rw [h4]; exact hx
  have hind : ElementsInDomain p := by
    intro B hB y hy
    rw [h3] at hB
    rw [h4]
    by_cases h : 1 < s.length
    · simp [h] at hB; rw [hB] at hy; exact hy
    · simp [h] at hB
  have hmem : s ∈ p.withSingletons s := by
    unfold SetPart.withSingletons
    rw [mem_sortL, h3]
    by_cases h : 1 < s.length
    · simp [h]
    · have hns : p.nonSingletons = [] := by rw [wf.ns, h3]; simp [h]; rfl
      rw [hns]
      match s, h with
      | [], _ => cases hx
      | [y], _ => simp [mem_pySet]
      | _ :: _ :: _, h => simp at h
  obtain ⟨q, q1, q2, q3, q4, q5⟩ := (C44_label_element p wf (labelled_nil hlab0) hind x label hxd).2.2 _ hb (by rw [hblock]; exact hmem) (hget0 x)
    (fun y h => by rw [hget0] at h; cases h)
  have hq : (p.addLabelToElement x label).2 = q := by rw [q1]
  have hdom : q.domain = .finite s := by rw [← hq, (labelElement_keeps wf x label).domain, h4]
  have hmm : ∀ y l, (y, l) ∈ s.map (fun y => (y, label)) ↔ y ∈ s ∧ l = label := by
    intro y l
    simp only [List.mem_map, Prod.mk.injEq]
    exact ⟨by rintro ⟨a, ha, rfl, rfl⟩; exact ⟨ha, rfl⟩, by rintro ⟨ha, rfl⟩; exact ⟨y, ha, rfl, rfl⟩⟩
  have hg : ∀ y l, q.getLabelFromElement y = some l ↔ y ∈ s ∧ l = label := by
    intro y l
    rw [q5, hblock, hget0]
    by_cases hy : y ∈ s
    · simp [hy, eq_comm]
    · simp [hy]
  obtain ⟨r1, r2, r3, r4⟩ := labels_of (items := s.map (fun y => (y, label))) q2 q3 (by
    intro a b
    rw [q4, hj]
    simp only [hmm]
    exact or_congr Iff.rfl ⟨fun ⟨h1, h2⟩ => ⟨label, ⟨h1, rfl⟩, h2, rfl⟩, fun ⟨l, h1, h2⟩ => ⟨h1.1, h2.1⟩⟩) (fun y l => by rw [hg, hmm])
  refine ⟨q, q1, q2, q3, hdom, ?_, hg, ?_, ?_⟩
  · intro a b hab
    rw [r1 a b hab]
    simp only [hmm]
    exact ⟨fun ⟨l, h1, h2⟩ => ⟨h1.1, h2.1⟩, fun ⟨h1, h2⟩ => ⟨label, ⟨h1, rfl⟩, h2, rfl⟩⟩
  · intro l B
    rw [r2]
    simp only [hmm]
    constructor
    · rintro ⟨hB, hlt, hB'⟩
      obtain ⟨y, hy⟩ := List.exists_mem_of_ne_nil B hB
      have hl := ((hB' y).1 hy).2
      exact ⟨hl, eq_of_mem_iff hlt hs fun z => by rw [hB']; simp [hl]⟩
    · rintro ⟨rfl, rfl⟩
      exact ⟨List.ne_nil_of_mem hx, hs, fun z => by simp⟩
  · have hr : ∀ l, l ∈ q.blockLabels.map Prod.snd ↔ l = label := by
      intro l
      rw [r3]
      simp only [hmm]
      exact ⟨fun ⟨_, _, h⟩ => h, fun h => ⟨x, hx, h⟩⟩
    exact List.perm_singleton.1 ((List.perm_ext_iff_of_nodup r4 (by simp)).2 (by simpa using hr))

example : (do
    let p ← newPart [] (.finite [0, 1, 2, 3, 4])
    let (o, q) := p.addLabels [(0, 'a'), (3, 'b'), (1, 'c'), (4, 'a'), (2, 'b')]
    let _ ← o
    pure (q.blocks, q.blockLabels.map id)) = .ok ([[0, 4], [2, 3]], [([1], 'c'), ([0, 4], 'a'), ([2, 3], 'b')]) := by decide

example : (do
    let p ← newPart [[0, 1, 2]] (.finite [0, 1, 2])
    let (o, q) := p.addLabelToElement 1 'a'
    let _ ← o
    pure (q.blocks, q.blockLabels.map id)) = .ok ([[0, 1, 2]], [([0, 1, 2], 'a')]) := by decide

end Verif.SP
