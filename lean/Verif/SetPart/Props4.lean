import Verif.SetPart.History

/-!
# C42, C44: theorems about histories
-/

namespace Verif.SP
open Verif.Py

variable {L : Type} [DecidableEq L]

/-! ### C44 -/

omit [DecidableEq L] in
theorem labelled_of_same {p q : SetPart L} (hp : WF p) (hq : WF q) (hl : Labelled p) (hb : q.blocks = p.blocks)
    (hd : q.blockLabels = p.blockLabels) : Labelled q := by
  constructor
  · rw [hd]; exact hl.keys
  · rw [hd]; exact hl.inj
  · intro B l hB
    rw [hd] at hB
    obtain ⟨x, hx⟩ := hl.blocks B l hB
    exact ⟨x, by rw [elementToBlock_congr hq hp (fun y => by rw [hb]), hx]⟩

theorem mergePair_labelled {p : SetPart L} (hp : WF p) (hl : Labelled p) (a b : Int) : Labelled (p.mergePair a b).2 := by
  by_cases hab : a = b
  · rw [mergePair_eq, if_pos hab]; exact hl
  · by_cases hd : InDomain p.domain a ∧ InDomain p.domain b
    · obtain ⟨h1, h2⟩ := C44_merge_pair p hp hl a b hab hd.1 hd.2
      by_cases hc : p.pairInSameBlock a b = true ∨ p.getLabelFromElement a = none ∨ p.getLabelFromElement b = none
      · obtain ⟨q, e, _, k, _⟩ := h2 hc
        rw [e]; exact k
      · push Not at hc
        rw [h1 (by simpa using hc.1) (Option.isSome_iff_ne_none.2 hc.2.1) (Option.isSome_iff_ne_none.2 hc.2.2)]
        exact hl
    · rw [mergePair_eq, if_neg hab, if_pos]
      · exact hl
      · rw [Bool.not_eq_true', ← Bool.not_eq_true, Bool.and_eq_true, elementInDomain_iff, elementInDomain_iff]; exact hd

theorem mergePairs_labelled (l : List (Int × Int)) {p : SetPart L} (hp : WF p) (hl : Labelled p) :
    Labelled (p.mergePairs l).2 := by
  induction l generalizing p with
  | nil => exact hl
  | cons ab l ih =>
    obtain ⟨a, b⟩ := ab
    have h := mergePair_labelled hp hl a b
    have hk := mergePair_keeps hp a b
    rw [SetPart.mergePairs]
    generalize p.mergePair a b = r at *
    obtain ⟨o, q⟩ := r
    cases o with
    | ok u => exact ih hk.wf h
    | error e => exact h

omit [DecidableEq L] in
theorem reinit_labelled {p : SetPart L} (hp : WF p) (hl : Labelled p) : Labelled (reinit p).2 := by
  obtain ⟨q, h1, h2, h3, _, h5, _⟩ := reinit_wf hp
  rw [h1]
  by_cases hb : p.blocks = []
  · rw [if_pos hb] at h5; exact labelled_nil h5
  · rw [if_neg hb] at h5; exact labelled_of_same hp h2 hl h3 h5

theorem mergeMany_labelled {p : SetPart L} (hp : WF p) (hl : Labelled p) (l : List Int) : Labelled (p.mergeMany l).2 := by
  have h := mergePairs_labelled (combinations2 l) hp hl
  have hk := mergePairs_keeps (combinations2 l) hp
  unfold SetPart.mergeMany
  generalize p.mergePairs (combinations2 l) = r at *
  obtain ⟨o, q⟩ := r
  cases o with
  | ok u => exact reinit_labelled hk.wf h
  | error e => exact h

theorem labelBlock_labelled {p : SetPart L} (hl : Labelled p) {B : List Int} (hB : ∃ x, p.elementToBlock x = B)
    (label : L) : Labelled (p.addLabelToBlock B label).2 := by
  obtain ⟨c, d, h, _, _, _, hd⟩ := labelBlock_state p B label
  rw [h]
  rcases hd with hd | ⟨hd, hg⟩
  · subst hd; exact ⟨hl.keys, hl.inj, hl.blocks⟩
  · unfold bidictSet at hd
    cases hi : labelInverse p.blockLabels label with
    | some k =>
      rw [hi] at hd
      simp only at hd
      split at hd
      · cases hd; exact ⟨hl.keys, hl.inj, hl.blocks⟩
      · cases hd
    | none =>
      rw [hi] at hd
      cases hd
      have hnone := labelInverse_none hi
      refine ⟨Dict.nodup_keys_set hl.keys _ _, ?_, ?_⟩
      · intro C D l hC hD
        simp only [Dict.get?_set] at hC hD
        split at hC
        · next e1 =>
          split at hD
          · next e2 => rw [← e1, ← e2]
          · cases hC; exact absurd hD (hnone D)
        · split at hD
          · cases hD; exact absurd hC (hnone C)
          · exact hl.inj C D l hC hD
      · intro C l hC
        simp only [Dict.get?_set] at hC
        split at hC
        · next e1 => rw [← e1]; exact hB
        · exact hl.blocks C l hC

theorem labelElement_labelled {p : SetPart L} (hp : WF p) (hl : Labelled p) (x : Int) (label : L) :
    Labelled (p.addLabelToElement x label).2 := by
  rcases labelElement_state p x label with h | ⟨B, _, h⟩ | ⟨_, h⟩
  · rw [h]; exact hl
  · rw [h]; exact mergePair_labelled hp hl _ _
  · rw [h]; exact labelBlock_labelled hl ⟨x, rfl⟩ _

theorem refine_labelled {p : SetPart L} (hp : WF p) (hl : Labelled p) (bs : List (List Int)) :
    Labelled (p.refineBlock bs none).2 := by
  by_cases h : sortZ bs.flatten ∈ p.blocks
  · obtain ⟨q, h1, h2, _, h4, _, h6⟩ := refine_ok hp h
    rw [h1]
    by_cases hb : q.blocks = []
    · rw [if_pos hb] at h4; exact labelled_nil h4
    · rw [if_neg hb] at h4
      have hg : ∀ C, q.blockLabels.get? C = if sortZ bs.flatten = C then none else p.blockLabels.get? C := by
        intro C; rw [h4, Dict.get?_erase hl.keys]
      refine ⟨by rw [h4]; exact nodup_keys_erase hl.keys _, ?_, ?_⟩
      · intro C D l hC hD
        rw [hg] at hC hD
        split at hC
        · cases hC
        · split at hD
          · cases hD
          · exact hl.inj C D l hC hD
      · intro C l hC
        rw [hg] at hC
        split at hC
        · cases hC
        · next hne =>
          obtain ⟨x, hx⟩ := hl.blocks C l hC
          have hxn : x ∉ bs.flatten := by
            intro hxb
            exact hne (by rw [← hx, hp.elementToBlock_of_mem h (mem_sortZ.2 hxb)])
          refine ⟨x, ?_⟩
          rw [← hx]
          apply elementToBlock_congr h2 hp
          intro y
          rw [h6]
          constructor
          · rintro (h' | h' | ⟨D, hD, hxD, _⟩)
            · exact Or.inl h'
            · exact Or.inr h'.1
            · exact absurd (List.mem_flatten.2 ⟨D, hD, hxD⟩) hxn
          · rintro (h' | h')
            · exact Or.inl h'
            · exact Or.inr (Or.inl ⟨h', hxn⟩)
  · rw [(refine_state p bs).1 h]; exact hl

/-- In the history only existing blocks are passed to `add_label_to_block`. -/
def ValidLabels (p : SetPart L) : List (Op L) → Prop
  | [] => True
  | op :: ops => (∀ B label, op = .labelBlock B label → ∃ x, p.elementToBlock x = B) ∧ ValidLabels (applyOp p op) ops

theorem applyOp_labelled {p : SetPart L} (hp : WF p) (hl : Labelled p) (op : Op L)
    (hv : ∀ B label, op = .labelBlock B label → ∃ x, p.elementToBlock x = B) : Labelled (applyOp p op) := by
  obtain ⟨⟨c1, r1⟩, ⟨c2, r2⟩, ⟨c3, r3⟩⟩ := read_states p
  obtain ⟨c4, r4, _⟩ := canonical_state p
  cases op with
  | mergePair a b => exact mergePair_labelled hp hl a b
  | mergeMany l => exact mergeMany_labelled hp hl l
  | labelElement x label => exact labelElement_labelled hp hl x label
  | labelBlock B label => exact labelBlock_labelled hl (hv B label rfl) label
  | refine bs => exact refine_labelled hp hl bs
  | readPairs => rw [applyOp, r1]; exact ⟨hl.keys, hl.inj, hl.blocks⟩
  | readIntval => rw [applyOp, r2]; exact ⟨hl.keys, hl.inj, hl.blocks⟩
  | readSingletons => rw [applyOp, r3]; exact ⟨hl.keys, hl.inj, hl.blocks⟩
  | readCanonical => rw [applyOp, r4]; exact ⟨hl.keys, hl.inj, hl.blocks⟩

theorem run_labelled (ops : List (Op L)) {p : SetPart L} (hp : WF p) (hl : Labelled p) (hv : ValidLabels p ops) :
    Labelled (ops.foldl applyOp p) := by
  induction ops generalizing p with
  | nil => exact hl
  | cons op ops ih => exact ih (applyOp_keeps hp op).wf (applyOp_labelled hp hl op hv.1) hv.2

/-- What `Labelled` says about the methods that look up labels and blocks. -/
theorem labelled_lookup {p : SetPart L} (hp : WF p) (hl : Labelled p) :
    (∀ x y label, p.getLabelFromElement x = some label →
      (p.getLabelFromElement y = some label ↔ x = y ∨ p.pairInSameBlock x y = true)) ∧
    (∀ label B, p.getBlockFromLabel label = some B ↔ ∃ x, p.getLabelFromElement x = some label ∧ B = p.elementToBlock x) := by
  constructor
  · intro x y label hx
    rw [hp.pairInSameBlock]
    rw [← hp.elementToBlock_eq]
    constructor
    · intro hy; exact hl.inj _ _ _ hx hy
    · intro h
      unfold SetPart.getLabelFromElement at *
      rw [← h]; exact hx
  · intro label B
    constructor
    · intro h
      have hg := labelInverse_some hl.keys h
      obtain ⟨x, hx⟩ := hl.blocks _ _ hg
      exact ⟨x, by unfold SetPart.getLabelFromElement SetPart.getLabelFromBlock; rw [hx]; exact hg, hx.symm⟩
    · rintro ⟨x, hx, rfl⟩
      unfold SetPart.getBlockFromLabel
      cases hi : labelInverse p.blockLabels label with
      | none => exact absurd hx (labelInverse_none hi _)
      | some k => rw [hl.inj _ _ _ (labelInverse_some hl.keys hi) hx]

/-- **C44.** After any history of merges, refinements, reads and label additions (to existing blocks): elements have the same
label iff they are in the same block, and the block found for a label is the current block of the elements with that label. -/
theorem C44_history (p : SetPart L) (hp : WF p) (hl : p.blockLabels = []) (ops : List (Op L)) (hv : ValidLabels p ops) :
    (∀ x y label, (ops.foldl applyOp p).getLabelFromElement x = some label →
      ((ops.foldl applyOp p).getLabelFromElement y = some label ↔
        x = y ∨ (ops.foldl applyOp p).pairInSameBlock x y = true)) ∧
    (∀ label B, (ops.foldl applyOp p).getBlockFromLabel label = some B ↔
      ∃ x, (ops.foldl applyOp p).getLabelFromElement x = some label ∧ B = (ops.foldl applyOp p).elementToBlock x) :=
  labelled_lookup (run_keeps ops hp).wf (run_labelled ops hp (labelled_nil hl) hv)

/-- Labels 7 and 8, merges, and label 7 again for 4. -/
example : (newPart (L := Nat) [[0, 1], [3, 4, 5]]).map (fun p =>
    let q := ([.labelElement 0 7, .mergePair 1 2, .refine [[3], [5, 4]], .labelElement 4 7, .labelElement 2 7] :
      List (Op Nat)).foldl applyOp p
    (q.blocks, q.blockLabels)) = .ok ([[0, 1, 2, 4, 5]], [([0, 1, 2, 4, 5], 7)]) := by decide

theorem mergeRel_congr {bs : List (List Int)} (h : Canon bs) {a a' b b' : Int} (ha : Eqv bs a a') (hb : Eqv bs b b') (x y : Int) :
    MergeRel (Eqv bs) a b x y ↔ MergeRel (Eqv bs) a' b' x y := by
  unfold MergeRel
  have h1 : ∀ {u v w : Int}, Eqv bs u v → (Eqv bs w u ↔ Eqv bs w v) := fun huv =>
    ⟨fun h' => h'.trans h huv, fun h' => h'.trans h huv.symm⟩
  have h2 : ∀ {u v w : Int}, Eqv bs u v → (Eqv bs u w ↔ Eqv bs v w) := fun huv =>
    ⟨fun h' => huv.symm.trans h h', fun h' => huv.trans h h'⟩
  rw [h1 ha (w := x), h2 ha (w := y), h1 hb (w := x), h2 hb (w := y)]

/-- **C44.** `add_label_to_element(x, label)`.
* If `x` has another label, `LabelContradictionError` is raised and nothing changes.
* If the label is used for the block of `y`, and `x` has no other label, then the blocks of `x` and `y` are merged.
* If the label is new, and `x` has none, its block gets it (if it is found in `canonical_blocks_with_singletons`). -/
theorem C44_label_element (p : SetPart L) (hp : WF p) (hl : Labelled p) (he : ElementsInDomain p) (x : Int) (label : L)
    (hx : InDomain p.domain x) :
    (∀ old, p.getLabelFromElement x = some old → old ≠ label →
      p.addLabelToElement x label = (.error .labelContradiction, p)) ∧
    (∀ y, InDomain p.domain y → p.getLabelFromElement y = some label →
      (p.getLabelFromElement x = none ∨ p.getLabelFromElement x = some label) →
      ∃ q, p.addLabelToElement x label = (.ok (), q) ∧ WF q ∧ Labelled q ∧ q.getLabelFromElement x = some label ∧
        ∀ a b, Eqv q.blocks a b ↔ MergeRel (Eqv p.blocks) x y a b) ∧
    (∀ r, p.canonicalBlocksWithSingletons.1 = .ok r → p.elementToBlock x ∈ r → p.getLabelFromElement x = none →
      (∀ y, p.getLabelFromElement y ≠ some label) →
      ∃ q, p.addLabelToElement x label = (.ok (), q) ∧ WF q ∧ Labelled q ∧ q.blocks = p.blocks ∧
        ∀ y, q.getLabelFromElement y = if y ∈ p.elementToBlock x then some label else p.getLabelFromElement y) := by
  obtain ⟨look1, look2⟩ := labelled_lookup hp hl
  refine ⟨?_, ?_, ?_⟩
  · intro old ho hne
    unfold SetPart.addLabelToElement
    rw [if_neg (by simp [(elementInDomain_iff p x).2 hx])]
    simp only
    unfold SetPart.getLabelFromElement at ho
    rw [ho]
    simp only
    rw [if_pos (by simpa using fun h => hne h.symm)]
  · intro y hy hyl hxl
    have hblk : p.getBlockFromLabel label = some (p.elementToBlock y) := (look2 _ _).2 ⟨y, hyl, rfl⟩
    have hrun : p.addLabelToElement x label = p.mergePair (p.rep x) (p.rep y) := by
      unfold SetPart.addLabelToElement
      rw [if_neg (by simp [(elementInDomain_iff p x).2 hx])]
      simp only
      unfold SetPart.getLabelFromElement at hxl
      rcases hxl with h | h
      · rw [h, hblk]; rfl
      · rw [h, hblk]
        simp only [ne_eq, not_true_eq_false, decide_false, Bool.false_eq_true, if_false]
        rfl
    have hrep : ∀ z, InDomain p.domain z → InDomain p.domain (p.rep z) := by
      intro z hz
      rcases rep_eqv hp z with h | h
      · rw [← h]; exact hz
      · exact (joined_in_domain he h).2
    have hlabrep : ∀ z, p.getLabelFromElement (p.rep z) = p.getLabelFromElement z := by
      intro z
      unfold SetPart.getLabelFromElement
      rw [(hp.elementToBlock_eq z (p.rep z)).2 (rep_eqv hp z)]
    rw [hrun]
    by_cases hr : p.rep x = p.rep y
    · have hxy : Eqv p.blocks x y := by
        have h1 := rep_eqv hp x
        rw [hr] at h1
        exact h1.trans hp.canon (rep_eqv hp y).symm
      refine ⟨p, by rw [mergePair_eq, if_pos hr], hp, hl, ?_, fun a b => mergeRel_of_eqv hp.canon hxy a b⟩
      unfold SetPart.getLabelFromElement at *
      rw [(hp.elementToBlock_eq x y).2 hxy]; exact hyl
    · obtain ⟨_, h2⟩ := C44_merge_pair p hp hl (p.rep x) (p.rep y) hr (hrep x hx) (hrep y hy)
      have hcond : p.pairInSameBlock (p.rep x) (p.rep y) = true ∨ p.getLabelFromElement (p.rep x) = none ∨
          p.getLabelFromElement (p.rep y) = none := by
        rcases hxl with h | h
        · exact Or.inr (Or.inl (by rw [hlabrep]; exact h))
        · rcases (look1 x y label h).1 hyl with h' | h'
          · exact absurd (by rw [h']) hr
          · exact absurd (rep_congr hp (Or.inr ((hp.pairInSameBlock x y).1 h'))) hr
      obtain ⟨q, q1, q2, q3, _, q5, q6⟩ := h2 hcond
      refine ⟨q, q1, q2, q3, ?_, fun a b => ?_⟩
      · rw [q6, if_pos, hlabrep, hlabrep, hyl]
        · rcases hxl with h | h <;> rw [h] <;> rfl
        · left
          rw [hp.mem_elementToBlock]
          exact (rep_eqv hp x).imp_right Canon.symm
      · rw [q5]; exact mergeRel_congr hp.canon (rep_eqv hp x).symm (rep_eqv hp y).symm a b
  · intro r hr hxr hxn hnew
    have hblk : p.getBlockFromLabel label = none := by
      cases h : p.getBlockFromLabel label with
      | none => rfl
      | some B =>
        obtain ⟨y, hy, _⟩ := (look2 _ _).1 h
        exact absurd hy (hnew y)
    obtain ⟨c, hc, _⟩ := canonical_state p
    have hcan : p.canonicalBlocksWithSingletons = (.ok r, { p with cache := c }) := Prod.ext hr hc
    have hget : p.blockLabels.get? (p.elementToBlock x) = none := hxn
    have hrun : p.addLabelToElement x label =
        (.ok (), { p with cache := c, blockLabels := p.blockLabels.set (p.elementToBlock x) label }) := by
      unfold SetPart.addLabelToElement
      rw [if_neg (by simp [(elementInDomain_iff p x).2 hx])]
      simp only
      unfold SetPart.getLabelFromElement at hxn
      rw [hxn, hblk]
      simp only [Bool.false_eq_true, if_false]
      unfold SetPart.addLabelToBlock
      rw [hcan]
      simp only
      rw [if_neg (by simpa using hxr), hget]
      simp only [Bool.false_eq_true, if_false]
      unfold bidictSet
      unfold SetPart.getBlockFromLabel at hblk
      rw [hblk]
    have hlab := labelElement_labelled hp hl x label
    rw [hrun] at hlab
    refine ⟨_, hrun, ⟨hp.canon, hp.index, hp.ns, hp.len, hp.triv⟩, hlab, rfl, fun y => ?_⟩
    have hmem : y ∈ p.elementToBlock x ↔ p.elementToBlock x = p.elementToBlock y := by
      rw [hp.mem_elementToBlock, hp.elementToBlock_eq, eq_comm]
    show (p.blockLabels.set (p.elementToBlock x) label).get? (p.elementToBlock y) = _
    rw [Dict.get?_set]
    by_cases h : y ∈ p.elementToBlock x
    · rw [if_pos h, if_pos (hmem.1 h)]
    · rw [if_neg h, if_neg (fun h' => h (hmem.2 h'))]
      rfl

/-- **C44.** `add_label_to_block(B, label)` with the value `r` of `canonical_blocks_with_singletons`.  In all cases blocks and
relation stay as they are, and in the first three cases the labels too. -/
theorem C44_label_block (p : SetPart L) (hl : Labelled p) (B : List Int) (label : L) (r : List (List Int))
    (hr : p.canonicalBlocksWithSingletons.1 = .ok r) :
    ∃ o q, p.addLabelToBlock B label = (o, q) ∧ q.blocks = p.blocks ∧ (∀ a b, q.pairInSameBlock a b = p.pairInSameBlock a b) ∧
      (B ∉ r → o = .error .unknownBlock ∧ q.blockLabels = p.blockLabels) ∧
      (B ∈ r → ∀ old, p.getLabelFromBlock B = some old → old ≠ label →
        o = .error .labelContradiction ∧ q.blockLabels = p.blockLabels) ∧
      (B ∈ r → p.getLabelFromBlock B = none → ∀ C, p.getBlockFromLabel label = some C →
        o = .error .valueDuplication ∧ q.blockLabels = p.blockLabels) ∧
      (B ∈ r → p.getLabelFromBlock B = some label → o = .ok () ∧ q.blockLabels = p.blockLabels) ∧
      (B ∈ r → p.getLabelFromBlock B = none → p.getBlockFromLabel label = none →
        o = .ok () ∧ ∀ C, q.getLabelFromBlock C = if B = C then some label else p.getLabelFromBlock C) := by
  obtain ⟨c, hc, _⟩ := canonical_state p
  have hcan : p.canonicalBlocksWithSingletons = (.ok r, { p with cache := c }) := Prod.ext hr hc
  unfold SetPart.addLabelToBlock
  rw [hcan]
  simp only
  by_cases hB : B ∈ r
  · rw [if_neg (by simpa using hB)]
    unfold SetPart.getLabelFromBlock SetPart.getBlockFromLabel
    cases ho : p.blockLabels.get? B with
    | some old =>
      by_cases hne : old = label
      · subst hne
        have hi : labelInverse p.blockLabels old = some B := by
          cases hi : labelInverse p.blockLabels old with
          | none => exact absurd ho (labelInverse_none hi _)
          | some k => rw [hl.inj _ _ _ (labelInverse_some hl.keys hi) ho]
        simp only [ne_eq, not_true_eq_false, decide_false, Bool.false_eq_true, if_false, bidictSet, hi, if_true]
        refine ⟨_, _, rfl, rfl, fun _ _ => rfl, by simp [hB], ?_, by simp, by simp, by simp⟩
        intro _ o ho' hne'
        cases ho'; exact absurd rfl hne'
      · simp only [ne_eq, hne, not_false_eq_true, decide_true, if_true]
        refine ⟨_, _, rfl, rfl, fun _ _ => rfl, by simp [hB], by simp, by simp, ?_, by simp⟩
        intro _ h'; exact absurd (Option.some.inj h') hne
    | none =>
      simp only [Bool.false_eq_true, if_false, bidictSet]
      cases hi : labelInverse p.blockLabels label with
      | some k =>
        have hk : k ≠ B := by
          rintro rfl
          rw [labelInverse_some hl.keys hi] at ho; cases ho
        simp only [if_neg hk]
        exact ⟨_, _, rfl, rfl, fun _ _ => rfl, by simp [hB], by simp, by simp, by simp, by simp⟩
      | none =>
        refine ⟨_, _, rfl, rfl, fun _ _ => rfl, by simp [hB], by simp, by simp, by simp, ?_⟩
        intro _ _ _
        exact ⟨rfl, fun C => Dict.get?_set ..⟩
  · rw [if_pos (by simpa using hB)]
    exact ⟨_, _, rfl, rfl, fun _ _ => rfl, fun _ => ⟨rfl, rfl⟩, by simp [hB], by simp [hB], by simp [hB], by simp [hB]⟩

/-- `[0, 1]` and `[3]` get labels; the label of `[3]` is then refused for `[2]`. -/
example : (newPart (L := Nat) [[0, 1], [4, 5]]).map (fun p =>
    let q := ([.labelBlock [0, 1] 7, .labelBlock [3] 8] : List (Op Nat)).foldl applyOp p
    ((q.addLabelToBlock [2] 8).1.toOption, (q.addLabelToBlock [2] 9).1.toOption, (q.addLabelToBlock [3] 9).1.toOption)) =
    .ok (none, some (), none) := by decide

/-- `add_label_to_block` looks the block up in a stored list.  After a merge it accepts a block that does not exist any more,
and rejects one that does. -/
theorem C44_outdated_blocks :
    ∃ p : SetPart Nat, newPart [[3, 5], [7, 9]] = .ok p ∧
      let q := ((p.addLabelToBlock [3, 5] 0).2.mergePair 3 9).2
      q.blocks = [[3, 5, 7, 9]] ∧ (q.addLabelToBlock [7, 9] 1).1 = .ok () ∧
      (q.addLabelToBlock [7, 9] 1).2.getBlockFromLabel 1 = some [7, 9] ∧
      (q.addLabelToBlock [3, 5, 7, 9] 0).1 = .error .unknownBlock := by
  refine ⟨_, rfl, ?_⟩
  decide

/-- `merge_many` on a partition that stays trivial forgets the labels of the singletons. -/
theorem C44_forgotten_labels :
    ∃ p : SetPart Nat, newPart [] (.finite [1, 2]) = .ok p ∧
      ((p.addLabelToElement 1 0).2).getLabelFromElement 1 = some 0 ∧
      (((p.addLabelToElement 1 0).2.mergeMany [2]).2).getLabelFromElement 1 = none := by
  refine ⟨_, rfl, ?_⟩
  decide

/-! ### C42 -/

/-- The values stored by first reads are the same. -/
structure SameReads (p q : SetPart L) : Prop where
  pairs : q.cache.pairs = p.cache.pairs
  intval : q.cache.intval = p.cache.intval
  singletons : q.cache.singletons = p.cache.singletons

omit [DecidableEq L] in
theorem SameReads.trans {p q r : SetPart L} (h1 : SameReads p q) (h2 : SameReads q r) : SameReads p r :=
  ⟨h2.pairs.trans h1.pairs, h2.intval.trans h1.intval, h2.singletons.trans h1.singletons⟩

omit [DecidableEq L] in
theorem SameReads.refl (p : SetPart L) : SameReads p p := ⟨rfl, rfl, rfl⟩

omit [DecidableEq L] in
theorem reinit_reads (p : SetPart L) : SameReads p (reinit p).2 := by
  unfold reinit
  cases h : init p.blocks p.domain p.blockLabels p.cache with
  | error e => exact SameReads.refl p
  | ok q =>
    unfold init at h
    simp only at h
    split at h
    · cases h; exact ⟨rfl, rfl, rfl⟩
    · split at h
      · cases h; exact ⟨rfl, rfl, rfl⟩
      · cases h

omit [DecidableEq L] in
theorem appendToBlock_reads (p : SetPart L) (i : Nat) (b : Int) : SameReads p (p.appendToBlock i b) := by
  unfold SetPart.appendToBlock
  by_cases h : p.cache.aliased = true
  · simp only [h, if_true]; exact ⟨rfl, rfl, rfl⟩
  · simp only [h, Bool.false_eq_true, if_false]; exact ⟨rfl, rfl, rfl⟩

theorem mergePair_reads (p : SetPart L) (a b : Int) : SameReads p (p.mergePair a b).2 := by
  rw [mergePair_eq]
  split
  · exact SameReads.refl p
  · split
    · exact SameReads.refl p
    · obtain ⟨d, hd⟩ := mergeBlockLabels_state p a b
      generalize p.mergeBlockLabels a b = r at *
      obtain ⟨o, s⟩ := r
      simp only at hd
      subst hd
      have h0 : SameReads p { p with blockLabels := d } := ⟨rfl, rfl, rfl⟩
      cases o with
      | error e => exact h0
      | ok u =>
        refine h0.trans ?_
        generalize ({ p with blockLabels := d } : SetPart L) = q
        unfold mergeCore
        simp only
        split
        · split
          · exact SameReads.refl q
          · refine SameReads.trans ?_ (reinit_reads _); exact ⟨rfl, rfl, rfl⟩
        · split
          · refine SameReads.trans ?_ (reinit_reads _); exact ⟨rfl, rfl, rfl⟩
          · split
            · exact (appendToBlock_reads q _ _).trans (reinit_reads _)
            · exact (appendToBlock_reads q _ _).trans (reinit_reads _)

theorem mergePairs_reads (l : List (Int × Int)) (p : SetPart L) : SameReads p (p.mergePairs l).2 := by
  induction l generalizing p with
  | nil => exact SameReads.refl p
  | cons ab l ih =>
    obtain ⟨a, b⟩ := ab
    have h := mergePair_reads p a b
    rw [SetPart.mergePairs]
    generalize p.mergePair a b = r at *
    obtain ⟨o, q⟩ := r
    cases o with
    | ok u => exact h.trans (ih q)
    | error e => exact h

theorem mergeMany_reads (p : SetPart L) (l : List Int) : SameReads p (p.mergeMany l).2 := by
  have h := mergePairs_reads (combinations2 l) p
  unfold SetPart.mergeMany
  generalize p.mergePairs (combinations2 l) = r at *
  obtain ⟨o, q⟩ := r
  cases o with
  | ok u => exact h.trans (reinit_reads q)
  | error e => exact h

theorem labelBlock_reads (p : SetPart L) (B : List Int) (label : L) : SameReads p (p.addLabelToBlock B label).2 := by
  obtain ⟨c, d, h, h1, h2, h3, _⟩ := labelBlock_state p B label
  rw [h]
  exact ⟨h1, h2, h3⟩

theorem refine_reads (p : SetPart L) (bs : List (List Int)) : SameReads p (p.refineBlock bs none).2 := by
  by_cases h : sortZ bs.flatten ∈ p.blocks
  · rw [(refine_state p bs).2 h]
    refine SameReads.trans ?_ (reinit_reads _)
    exact ⟨rfl, rfl, rfl⟩
  · rw [(refine_state p bs).1 h]; exact SameReads.refl p

/-- Calls that do not read `pairs`, `intval` or `singletons`. -/
def Op.changes : Op L → Bool
  | .readPairs | .readIntval | .readSingletons => false
  | _ => true

theorem applyOp_reads (p : SetPart L) (op : Op L) (h : op.changes = true) : SameReads p (applyOp p op) := by
  cases op with
  | mergePair a b => exact mergePair_reads p a b
  | mergeMany l => exact mergeMany_reads p l
  | labelElement x label =>
    rw [applyOp]
    rcases labelElement_state p x label with h | ⟨B, _, h⟩ | ⟨_, h⟩
    · rw [h]; exact SameReads.refl p
    · rw [h]; exact mergePair_reads p _ _
    · rw [h]; exact labelBlock_reads p _ _
  | labelBlock B label => exact labelBlock_reads p B label
  | refine bs => exact refine_reads p bs
  | readPairs => cases h
  | readIntval => cases h
  | readSingletons => cases h
  | readCanonical =>
    obtain ⟨c, h1, h2, h3, h4⟩ := canonical_state p
    rw [applyOp, h1]
    exact ⟨h2, h3, h4⟩

theorem run_reads (ops : List (Op L)) (p : SetPart L) (h : ∀ op ∈ ops, op.changes = true) : SameReads p (ops.foldl applyOp p) := by
  induction ops generalizing p with
  | nil => exact SameReads.refl p
  | cons op ops ih => exact (applyOp_reads p op (h op (by simp))).trans (ih _ (fun o ho => h o (by simp [ho])))

/-- An object on which nothing has been read yet, like a new one. -/
def Unread (p : SetPart L) : Prop := p.cache.pairs = none ∧ p.cache.intval = none ∧ p.cache.singletons = none

/-- **C42.** After any history of merges, refinements and label additions the first read describes the current partition. -/
theorem C42_first_read (p : SetPart L) (hp : WF p) (hu : Unread p) (ops : List (Op L)) (hops : ∀ op ∈ ops, op.changes = true) :
    (∀ a b, (a, b) ∈ (ops.foldl applyOp p).pairs.1 ↔ a < b ∧ (ops.foldl applyOp p).pairInSameBlock a b = true) ∧
    ((∀ B ∈ (ops.foldl applyOp p).blocks, ∀ x ∈ B, 0 ≤ x) → ∀ a b : Nat, a < b →
      (ops.foldl applyOp p).intval.1.testBit ((List.range b).sum + a) = (ops.foldl applyOp p).pairInSameBlock a b) ∧
    (∀ s, p.domain = .finite s → ∃ v, (ops.foldl applyOp p).singletons.1 = .ok v ∧
      ∀ x, x ∈ v ↔ x ∈ s ∧ (ops.foldl applyOp p).elementToBlock x = [x]) ∧
    ((∀ s, p.domain ≠ .finite s) → (ops.foldl applyOp p).singletons.1 = .error .domainNotFinite) := by
  have hk := run_keeps ops hp
  have hr := run_reads ops p hops
  generalize ops.foldl applyOp p = q at *
  have hpf : PairsFresh q := Or.inl (hr.pairs.trans hu.1)
  refine ⟨fun a b => C43_pairs q hk.wf hpf a b, ?_, ?_, ?_⟩
  · intro hn a b hab
    exact C43_intval_bits q hk.wf hn ⟨hpf, Or.inl (hr.intval.trans hu.2.1)⟩ a b hab
  · intro s hs
    unfold SetPart.singletons
    rw [hr.singletons, hu.2.2, hk.domain, hs]
    refine ⟨_, rfl, fun x => ?_⟩
    rw [List.mem_filter, mem_pySet]
    refine and_congr Iff.rfl ?_
    rw [Bool.not_eq_true', ← Bool.not_eq_true, List.contains_iff_mem]
    constructor
    · exact fun h => WF.elementToBlock_of_not_mem h
    · intro h hx
      obtain ⟨B, hB, hxB⟩ := hk.wf.mem_ns.1 hx
      have := hk.wf.canon.two B hB
      rw [← hk.wf.elementToBlock_of_mem hB hxB, h] at this
      simp at this
  · intro hs
    unfold SetPart.singletons
    rw [hr.singletons, hu.2.2, hk.domain]
    cases hd : p.domain with
    | N => rfl
    | Z => rfl
    | finite s => exact absurd hd (hs s)

omit [DecidableEq L] in
theorem reinit_unlisted {p : SetPart L} (hn : p.cache.canonical = none) : (reinit p).2.cache.canonical = none := by
  unfold reinit
  cases h : init p.blocks p.domain p.blockLabels p.cache with
  | error e => exact hn
  | ok q =>
    unfold init at h
    simp only at h
    split at h
    · cases h; exact hn
    · split at h
      · cases h; exact hn
      · cases h

omit [DecidableEq L] in
theorem appendToBlock_unlisted {p : SetPart L} (hn : p.cache.canonical = none) (i : Nat) (b : Int) :
    (p.appendToBlock i b).cache.canonical = none := by
  unfold SetPart.appendToBlock
  by_cases h : p.cache.aliased = true
  · simp only [h, if_true, hn]; rfl
  · simp only [h, Bool.false_eq_true, if_false]; exact hn

theorem mergePair_unlisted {p : SetPart L} (hn : p.cache.canonical = none) (a b : Int) :
    (p.mergePair a b).2.cache.canonical = none := by
  rw [mergePair_eq]
  split
  · exact hn
  · split
    · exact hn
    · obtain ⟨d, hd⟩ := mergeBlockLabels_state p a b
      generalize p.mergeBlockLabels a b = r at *
      obtain ⟨o, s⟩ := r
      simp only at hd
      subst hd
      have h0 : ({ p with blockLabels := d } : SetPart L).cache.canonical = none := hn
      cases o with
      | error e => exact h0
      | ok u =>
        show (mergeCore _ a b).2.cache.canonical = none
        generalize ({ p with blockLabels := d } : SetPart L) = q at *
        unfold mergeCore
        simp only
        split
        · split
          · exact h0
          · exact reinit_unlisted h0
        · split
          · exact reinit_unlisted h0
          · split
            · exact reinit_unlisted (appendToBlock_unlisted h0 _ _)
            · exact reinit_unlisted (appendToBlock_unlisted h0 _ _)

theorem mergePairs_unlisted (l : List (Int × Int)) {p : SetPart L} (hn : p.cache.canonical = none) :
    (p.mergePairs l).2.cache.canonical = none := by
  induction l generalizing p with
  | nil => exact hn
  | cons ab l ih =>
    obtain ⟨a, b⟩ := ab
    have h := mergePair_unlisted hn a b
    rw [SetPart.mergePairs]
    generalize p.mergePair a b = r at *
    obtain ⟨o, q⟩ := r
    cases o with
    | ok u => exact ih h
    | error e => exact h

theorem mergeMany_unlisted {p : SetPart L} (hn : p.cache.canonical = none) (l : List Int) :
    (p.mergeMany l).2.cache.canonical = none := by
  have h := mergePairs_unlisted (combinations2 l) hn
  unfold SetPart.mergeMany
  generalize p.mergePairs (combinations2 l) = r at *
  obtain ⟨o, q⟩ := r
  cases o with
  | ok u => exact reinit_unlisted h
  | error e => exact h

/-- Calls that do not look at `canonical_blocks_with_singletons`. -/
def Op.unlisted : Op L → Bool
  | .labelElement .. | .labelBlock .. | .readCanonical => false
  | _ => true

theorem applyOp_unlisted {p : SetPart L} (hn : p.cache.canonical = none) (op : Op L) (h : op.unlisted = true) :
    (applyOp p op).cache.canonical = none := by
  have hpairs : p.pairs.2.cache.canonical = none := by
    unfold SetPart.pairs
    cases p.cache.pairs <;> exact hn
  cases op with
  | mergePair a b => exact mergePair_unlisted hn a b
  | mergeMany l => exact mergeMany_unlisted hn l
  | refine bs =>
    rw [applyOp]
    by_cases h : sortZ bs.flatten ∈ p.blocks
    · rw [(refine_state p bs).2 h]; exact reinit_unlisted hn
    · rw [(refine_state p bs).1 h]; exact hn
  | readPairs => exact hpairs
  | readIntval =>
    simp only [applyOp]
    unfold SetPart.intval
    cases p.cache.intval with
    | some v => exact hn
    | none => exact hpairs
  | readSingletons =>
    simp only [applyOp]
    unfold SetPart.singletons
    cases p.cache.singletons with
    | some v => exact hn
    | none =>
      simp only
      split <;> exact hn
  | _ => cases h

omit [DecidableEq L] in
theorem first_canonical (p : SetPart L) (h : p.cache.canonical = none) :
    p.canonicalBlocksWithSingletons.1 = p.blocksWithSingletons {} := by
  unfold SetPart.canonicalBlocksWithSingletons
  rw [h]
  simp only
  cases p.blocksWithSingletons {} with
  | ok v => rfl
  | error e => rfl

/-- **C42.** The first read of `canonical_blocks_with_singletons` (label additions count as reads) gives what
`blocks_with_singletons()` gives for the current partition (see C58). -/
theorem C42_first_read_canonical (p : SetPart L) (h : p.cache.canonical = none) (ops : List (Op L))
    (hops : ∀ op ∈ ops, op.unlisted = true) :
    (ops.foldl applyOp p).canonicalBlocksWithSingletons.1 = (ops.foldl applyOp p).blocksWithSingletons {} := by
  apply first_canonical
  induction ops generalizing p with
  | nil => exact h
  | cons op ops ih =>
    exact ih _ (applyOp_unlisted h op (hops op (by simp))) (fun o ho => hops o (by simp [ho]))

/-- Before a merge, `[2]` and `[3]` are listed; the merged partition is described when the list is first read after it. -/
example : (newPart (L := Nat) [[0, 4]]).map (fun p =>
    (([.mergePair 2 3] : List (Op Nat)).foldl applyOp p).canonicalBlocksWithSingletons.1.toOption) =
    .ok (some [[0, 4], [1], [2, 3]]) := by decide

/-- A later read may be outdated, or even be neither the old nor the new list: the list of 0 is extended because it is the
same python object, while the list of 2 stays. -/
theorem C42_mixed_list :
    ∃ p : SetPart Nat, newPart [[0, 1], [3, 4]] = .ok p ∧
      (([.readCanonical, .mergePair 0 2] : List (Op Nat)).foldl applyOp p).canonicalBlocksWithSingletons.1.toOption =
        some [[0, 1, 2], [2], [3, 4]] := by
  refine ⟨_, rfl, ?_⟩
  decide

/-- what has been stored stays -/
theorem stored_applyOp (p : SetPart L) (op : Op L) :
    (∀ v, p.cache.pairs = some v → (applyOp p op).cache.pairs = some v) ∧
    (∀ v, p.cache.intval = some v → (applyOp p op).cache.intval = some v) ∧
    (∀ v, p.cache.singletons = some v → (applyOp p op).cache.singletons = some v) := by
  by_cases h : op.changes = true
  · have := applyOp_reads p op h
    exact ⟨fun v hv => this.pairs.trans hv, fun v hv => this.intval.trans hv, fun v hv => this.singletons.trans hv⟩
  · have hpairs : (∀ v, p.cache.pairs = some v → p.pairs.2.cache.pairs = some v) ∧ p.pairs.2.cache.intval = p.cache.intval ∧
        p.pairs.2.cache.singletons = p.cache.singletons := by
      unfold SetPart.pairs
      cases hc : p.cache.pairs with
      | some v => exact ⟨fun w hw => by cases hw; exact hc, rfl, rfl⟩
      | none => exact ⟨fun w hw => by simp at hw, rfl, rfl⟩
    cases op with
    | readPairs => exact ⟨hpairs.1, fun v hv => hpairs.2.1.trans hv, fun v hv => hpairs.2.2.trans hv⟩
    | readIntval =>
      simp only [applyOp]
      unfold SetPart.intval
      cases hc : p.cache.intval with
      | some v => exact ⟨fun w hw => hw, fun w hw => by cases hw; exact hc, fun w hw => hw⟩
      | none =>
        exact ⟨fun w hw => hpairs.1 w hw, fun w hw => by simp at hw, fun w hw => hpairs.2.2.trans hw⟩
    | readSingletons =>
      simp only [applyOp]
      unfold SetPart.singletons
      cases hc : p.cache.singletons with
      | some v => exact ⟨fun w hw => hw, fun w hw => hw, fun w hw => by cases hw; exact hc⟩
      | none =>
        simp only
        split
        · exact ⟨fun w hw => hw, fun w hw => hw, fun w hw => by simp at hw⟩
        · exact ⟨fun w hw => hw, fun w hw => hw, fun w hw => by simp at hw⟩
    | _ => exact absurd rfl h

theorem stored_run (ops : List (Op L)) (p : SetPart L) :
    (∀ v, p.cache.pairs = some v → (ops.foldl applyOp p).cache.pairs = some v) ∧
    (∀ v, p.cache.intval = some v → (ops.foldl applyOp p).cache.intval = some v) ∧
    (∀ v, p.cache.singletons = some v → (ops.foldl applyOp p).cache.singletons = some v) := by
  induction ops generalizing p with
  | nil => exact ⟨fun _ h => h, fun _ h => h, fun _ h => h⟩
  | cons op ops ih =>
    obtain ⟨a, b, c⟩ := stored_applyOp p op
    obtain ⟨d, e, f⟩ := ih (applyOp p op)
    exact ⟨fun v h => d v (a v h), fun v h => e v (b v h), fun v h => f v (c v h)⟩

omit [DecidableEq L] in
theorem read_stored (p : SetPart L) :
    (∀ v, p.cache.pairs = some v → p.pairs.1 = v) ∧ (∀ v, p.cache.intval = some v → p.intval.1 = v) ∧
    (∀ v, p.cache.singletons = some v → p.singletons.1 = .ok v) := by
  refine ⟨?_, ?_, ?_⟩
  · intro v hv; unfold SetPart.pairs; rw [hv]
  · intro v hv; unfold SetPart.intval; rw [hv]
  · intro v hv; unfold SetPart.singletons; rw [hv]

/-- **C42.** Whatever happens after the first read, later reads give the same value. -/
theorem C42_frozen (p : SetPart L) (ops : List (Op L)) :
    ((ops.foldl applyOp p.pairs.2).pairs.1 = p.pairs.1) ∧
    ((ops.foldl applyOp p.intval.2).intval.1 = p.intval.1) ∧
    (∀ v, p.singletons.1 = .ok v → (ops.foldl applyOp p.singletons.2).singletons.1 = .ok v) := by
  have h1 : p.pairs.2.cache.pairs = some p.pairs.1 := by
    unfold SetPart.pairs
    cases hc : p.cache.pairs with
    | some v => exact hc
    | none => rfl
  have h2 : p.intval.2.cache.intval = some p.intval.1 := by
    unfold SetPart.intval
    cases hc : p.cache.intval with
    | some v => exact hc
    | none => rfl
  have h3 : ∀ v, p.singletons.1 = .ok v → p.singletons.2.cache.singletons = some v := by
    unfold SetPart.singletons
    cases hc : p.cache.singletons with
    | some v => intro w hw; cases hw; exact hc
    | none =>
      simp only
      split
      · intro w hw; cases hw; rfl
      · intro w hw; cases hw
  exact ⟨(read_stored _).1 _ ((stored_run ops p.pairs.2).1 _ h1), (read_stored _).2.1 _ ((stored_run ops p.intval.2).2.1 _ h2),
    fun v hv => (read_stored _).2.2 _ ((stored_run ops p.singletons.2).2.2 _ (h3 v hv))⟩

/-- So they can be outdated: after a read of `intval` and a merge, `pairs` and `intval` do not know the merged pair, and two
equal partitions have different `intval`. -/
theorem C42_outdated :
    ∃ p q : SetPart Nat, newPart [[0, 1]] = .ok p ∧ newPart [[0, 1], [2, 3]] = .ok q ∧
      let r := ([Op.readIntval, .mergePair 2 3] : List (Op Nat)).foldl applyOp p
      r.eq q = .ok true ∧ r.pairs.1 = [(0, 1)] ∧ r.intval.1 ≠ q.intval.1 := by
  refine ⟨_, _, rfl, rfl, ?_⟩
  decide

end Verif.SP
