import Verif.SetPart.Labels

/-!
# C42, C44, C59: histories of changes and reads, refinement
-/

namespace Verif.SP
open Verif.Py

variable {L : Type} [DecidableEq L]

/-- The calls of a history. -/
inductive Op (L : Type)
  | mergePair (a b : Int)
  | mergeMany (l : List Int)
  | labelElement (x : Int) (label : L)
  | labelBlock (B : List Int) (label : L)
  | refine (bs : List (List Int))
  | readPairs
  | readIntval
  | readSingletons
  | readCanonical

/-- The object after a call; an exception is caught by the caller. -/
def applyOp (p : SetPart L) : Op L → SetPart L
  | .mergePair a b => (p.mergePair a b).2
  | .mergeMany l => (p.mergeMany l).2
  | .labelElement x label => (p.addLabelToElement x label).2
  | .labelBlock B label => (p.addLabelToBlock B label).2
  | .refine bs => (p.refineBlock bs none).2
  | .readPairs => p.pairs.2
  | .readIntval => p.intval.2
  | .readSingletons => p.singletons.2
  | .readCanonical => p.canonicalBlocksWithSingletons.2

/-! ### well-formedness and membership in the domain -/

/-- What is kept by every call: well-formedness, the domain, and membership of elements in the domain. -/
structure Keeps (p q : SetPart L) : Prop where
  wf : WF q
  domain : q.domain = p.domain
  inDomain : ElementsInDomain p → ElementsInDomain q

omit [DecidableEq L] in
theorem Keeps.trans {p q r : SetPart L} (h1 : Keeps p q) (h2 : Keeps q r) : Keeps p r :=
  ⟨h2.wf, h2.domain.trans h1.domain, fun h => h2.inDomain (h1.inDomain h)⟩

omit [DecidableEq L] in
theorem keeps_of_same {p q : SetPart L} (hq : WF q) (hd : q.domain = p.domain) (hb : q.blocks = p.blocks) : Keeps p q :=
  ⟨hq, hd, fun h B hB x hx => by rw [hb] at hB; rw [hd]; exact h B hB x hx⟩

omit [DecidableEq L] in
theorem WF.withCache {p : SetPart L} (h : WF p) (c : Cache) : WF { p with cache := c } :=
  ⟨h.canon, h.index, h.ns, h.len, h.triv⟩

theorem mergePair_cases {p : SetPart L} (hp : WF p) (a b : Int) :
    WF (p.mergePair a b).2 ∧ (p.mergePair a b).2.domain = p.domain ∧
      ((p.mergePair a b).2.blocks = p.blocks ∨ (InDomain p.domain a ∧ InDomain p.domain b ∧
        ∀ x y, Eqv (p.mergePair a b).2.blocks x y ↔ MergeRel (Eqv p.blocks) a b x y)) := by
  rw [mergePair_eq]
  by_cases hab : a = b
  · rw [if_pos hab]; exact ⟨hp, rfl, Or.inl rfl⟩
  · rw [if_neg hab]
    by_cases hd : p.elementInDomain a = true ∧ p.elementInDomain b = true
    · rw [if_neg (by simp [hd])]
      obtain ⟨d, hd'⟩ := mergeBlockLabels_state p a b
      generalize p.mergeBlockLabels a b = r at *
      obtain ⟨o, s⟩ := r
      simp only at hd'
      subst hd'
      cases o with
      | error e => exact ⟨hp.withLabels d, rfl, Or.inl rfl⟩
      | ok u =>
        obtain ⟨q, h1, h2, h3, _, _, h6⟩ := mergeCore_ok (hp.withLabels d) hab
        simp only [h1]
        exact ⟨h2, h3, Or.inr ⟨(elementInDomain_iff p a).1 hd.1, (elementInDomain_iff p b).1 hd.2, h6⟩⟩
    · rw [if_pos]
      · exact ⟨hp, rfl, Or.inl rfl⟩
      · rw [Bool.not_eq_true', ← Bool.not_eq_true, Bool.and_eq_true]; exact hd

theorem mergePair_keeps {p : SetPart L} (hp : WF p) (a b : Int) : Keeps p (p.mergePair a b).2 := by
  obtain ⟨h1, h2, h3⟩ := mergePair_cases hp a b
  rcases h3 with h3 | ⟨ha, hb, h3⟩
  · exact keeps_of_same h1 h2 h3
  · refine ⟨h1, h2, fun h B hB x hx => ?_⟩
    rw [h2]
    obtain ⟨y, hy, hyx⟩ := h1.canon.partner hB x
    have key : ∀ {z}, InDomain p.domain z → Eqv p.blocks x z → InDomain p.domain x := by
      rintro z hz (rfl | hxz)
      · exact hz
      · exact (joined_in_domain h hxz).1
    rcases (h3 x y).1 (Or.inr ⟨B, hB, hx, hy⟩) with h' | h' | h'
    · rcases h' with rfl | h'
      · exact absurd rfl hyx
      · exact (joined_in_domain h h').1
    · exact key ha h'.1
    · exact key hb h'.1

theorem mergePairs_keeps (l : List (Int × Int)) {p : SetPart L} (hp : WF p) : Keeps p (p.mergePairs l).2 := by
  induction l generalizing p with
  | nil => exact keeps_of_same hp rfl rfl
  | cons ab l ih =>
    obtain ⟨a, b⟩ := ab
    have h := mergePair_keeps hp a b
    rw [SetPart.mergePairs]
    generalize p.mergePair a b = r at *
    obtain ⟨o, q⟩ := r
    cases o with
    | ok u => exact h.trans (ih h.wf)
    | error e => exact h

omit [DecidableEq L] in
theorem reinit_keeps {p : SetPart L} (hp : WF p) : Keeps p (reinit p).2 := by
  obtain ⟨q, h1, h2, h3, h4, _, _⟩ := reinit_wf hp
  rw [h1]
  exact keeps_of_same h2 h4 h3

theorem mergeMany_keeps {p : SetPart L} (hp : WF p) (l : List Int) : Keeps p (p.mergeMany l).2 := by
  have h := mergePairs_keeps (combinations2 l) hp
  unfold SetPart.mergeMany
  generalize p.mergePairs (combinations2 l) = r at *
  obtain ⟨o, q⟩ := r
  cases o with
  | ok u => exact h.trans (reinit_keeps h.wf)
  | error e => exact h

omit [DecidableEq L] in
theorem canonical_state (p : SetPart L) : ∃ c, p.canonicalBlocksWithSingletons.2 = { p with cache := c } ∧
    c.pairs = p.cache.pairs ∧ c.intval = p.cache.intval ∧ c.singletons = p.cache.singletons := by
  unfold SetPart.canonicalBlocksWithSingletons
  cases h : p.cache.canonical with
  | some v => exact ⟨p.cache, rfl, rfl, rfl, rfl⟩
  | none =>
    cases h' : p.blocksWithSingletons {} with
    | ok v => exact ⟨_, rfl, rfl, rfl, rfl⟩
    | error e => exact ⟨p.cache, rfl, rfl, rfl, rfl⟩

theorem labelBlock_state (p : SetPart L) (B : List Int) (label : L) :
    ∃ c d, (p.addLabelToBlock B label).2 = { p with cache := c, blockLabels := d } ∧
      c.pairs = p.cache.pairs ∧ c.intval = p.cache.intval ∧ c.singletons = p.cache.singletons ∧
      (d = p.blockLabels ∨ (bidictSet p.blockLabels B label = .ok d ∧
        (p.blockLabels.get? B = none ∨ p.blockLabels.get? B = some label))) := by
  obtain ⟨c, h1, h2, h3, h4⟩ := canonical_state p
  unfold SetPart.addLabelToBlock
  generalize p.canonicalBlocksWithSingletons = r at *
  obtain ⟨o, q⟩ := r
  simp only at h1
  subst h1
  cases o with
  | error e => exact ⟨c, p.blockLabels, rfl, h2, h3, h4, Or.inl rfl⟩
  | ok canonical =>
    simp only
    split
    · exact ⟨c, p.blockLabels, rfl, h2, h3, h4, Or.inl rfl⟩
    · cases hg : p.blockLabels.get? B with
      | none =>
        simp only [Bool.false_eq_true, if_false]
        cases hb : bidictSet p.blockLabels B label with
        | ok d => exact ⟨c, d, rfl, h2, h3, h4, Or.inr ⟨rfl, by simp⟩⟩
        | error e => exact ⟨c, p.blockLabels, rfl, h2, h3, h4, Or.inl rfl⟩
      | some old =>
        simp only
        by_cases ho : old = label
        · subst ho
          rw [if_neg (by simp)]
          cases hb : bidictSet p.blockLabels B old with
          | ok d => exact ⟨c, d, rfl, h2, h3, h4, Or.inr ⟨rfl, Or.inr rfl⟩⟩
          | error e => exact ⟨c, p.blockLabels, rfl, h2, h3, h4, Or.inl rfl⟩
        · rw [if_pos (by simpa using ho)]
          exact ⟨c, p.blockLabels, rfl, h2, h3, h4, Or.inl rfl⟩

theorem labelBlock_keeps {p : SetPart L} (hp : WF p) (B : List Int) (label : L) : Keeps p (p.addLabelToBlock B label).2 := by
  obtain ⟨c, d, h, _⟩ := labelBlock_state p B label
  rw [h]
  exact keeps_of_same ⟨hp.canon, hp.index, hp.ns, hp.len, hp.triv⟩ rfl rfl

/-- the three ways of `add_label_to_element` -/
theorem labelElement_state (p : SetPart L) (x : Int) (label : L) :
    (p.addLabelToElement x label).2 = p ∨
    (∃ B, p.getBlockFromLabel label = some B ∧
      p.addLabelToElement x label = p.mergePair ((p.elementToBlock x).headD 0) (B.headD 0)) ∨
    (p.getBlockFromLabel label = none ∧ p.addLabelToElement x label = p.addLabelToBlock (p.elementToBlock x) label) := by
  unfold SetPart.addLabelToElement
  split
  · exact Or.inl rfl
  · simp only
    cases p.getLabelFromBlock (p.elementToBlock x) with
    | none =>
      cases h : p.getBlockFromLabel label with
      | none => exact Or.inr (Or.inr ⟨rfl, rfl⟩)
      | some B => exact Or.inr (Or.inl ⟨B, rfl, rfl⟩)
    | some old =>
      by_cases ho : label = old
      · simp only [ho, ne_eq, not_true_eq_false, decide_false, Bool.false_eq_true, if_false]
        cases h : p.getBlockFromLabel old with
        | none => exact Or.inr (Or.inr ⟨rfl, rfl⟩)
        | some B => exact Or.inr (Or.inl ⟨B, rfl, rfl⟩)
      · simp [ho]

theorem labelElement_keeps {p : SetPart L} (hp : WF p) (x : Int) (label : L) : Keeps p (p.addLabelToElement x label).2 := by
  rcases labelElement_state p x label with h | ⟨B, _, h⟩ | ⟨_, h⟩
  · rw [h]; exact keeps_of_same hp rfl rfl
  · rw [h]; exact mergePair_keeps hp _ _
  · rw [h]; exact labelBlock_keeps hp _ _

/-! ### C59: refine_block -/

omit [DecidableEq L] in
theorem refine_raw {p : SetPart L} (hp : WF p) {bs : List (List Int)} (h : sortZ bs.flatten ∈ p.blocks) :
    (p.blocks.erase (sortZ bs.flatten) ++ bs).flatten.Nodup := by
  have h1 : p.blocks.Perm (sortZ bs.flatten :: p.blocks.erase (sortZ bs.flatten)) := List.perm_cons_erase h
  have h2 := h1.flatten
  rw [List.flatten_cons] at h2
  have h3 : (p.blocks.erase (sortZ bs.flatten) ++ bs).flatten.Perm p.blocks.flatten := by
    rw [List.flatten_append]
    refine List.Perm.trans ?_ h2.symm
    exact List.perm_append_comm.trans ((sortZ_perm _).symm.append (List.Perm.refl _))
  exact h3.nodup_iff.2 hp.canon.nodup

theorem refine_state (p : SetPart L) (bs : List (List Int)) :
    (sortZ bs.flatten ∉ p.blocks → p.refineBlock bs none = (.error .argValue, p)) ∧
    (sortZ bs.flatten ∈ p.blocks → p.refineBlock bs none = reinit
      { p with blocks := p.blocks.erase (sortZ bs.flatten) ++ bs, blockLabels := p.blockLabels.erase (sortZ bs.flatten) }) := by
  unfold SetPart.refineBlock
  constructor
  · intro h
    simp only
    rw [if_pos (by simpa using h)]
  · intro h
    simp only
    rw [if_neg (by simpa using h)]

omit [DecidableEq L] in
theorem eqv_refine {p : SetPart L} (hp : WF p) {bs : List (List Int)} (h : sortZ bs.flatten ∈ p.blocks) (x y : Int) :
    Eqv (p.blocks.erase (sortZ bs.flatten) ++ bs) x y ↔
      x = y ∨ (Joined p.blocks x y ∧ x ∉ bs.flatten) ∨ Joined bs x y := by
  unfold Eqv
  refine or_congr Iff.rfl ?_
  constructor
  · rintro ⟨B, hB, hx, hy⟩
    rcases List.mem_append.1 hB with hB | hB
    · rw [hp.canon.nodup_blocks.mem_erase_iff] at hB
      refine Or.inl ⟨⟨B, hB.2, hx, hy⟩, fun hxb => hB.1 ?_⟩
      exact hp.canon.unique hB.2 h hx (mem_sortZ.2 hxb)
    · exact Or.inr ⟨B, hB, hx, hy⟩
  · rintro (⟨⟨B, hB, hx, hy⟩, hn⟩ | ⟨B, hB, hx, hy⟩)
    · refine ⟨B, List.mem_append_left _ (hp.canon.nodup_blocks.mem_erase_iff.2 ⟨?_, hB⟩), hx, hy⟩
      rintro rfl
      exact hn (mem_sortZ.1 hx)
    · exact ⟨B, List.mem_append_right _ hB, hx, hy⟩

/-- `refine_block` without labels -/
theorem refine_ok {p : SetPart L} (hp : WF p) {bs : List (List Int)} (h : sortZ bs.flatten ∈ p.blocks) :
    ∃ q, p.refineBlock bs none = (.ok (), q) ∧ WF q ∧ q.domain = p.domain ∧
      q.blockLabels = (if q.blocks = [] then [] else p.blockLabels.erase (sortZ bs.flatten)) ∧
      q.cache = { p.cache with aliased := false } ∧
      ∀ x y, Eqv q.blocks x y ↔ x = y ∨ (Joined p.blocks x y ∧ x ∉ bs.flatten) ∨ Joined bs x y := by
  rw [(refine_state p bs).2 h]
  obtain ⟨q, h1, h2, h3, h4, h5, h6⟩ := reinit_ok (p := { p with
    blocks := p.blocks.erase (sortZ bs.flatten) ++ bs, blockLabels := p.blockLabels.erase (sortZ bs.flatten) }) (refine_raw hp h)
  refine ⟨q, h1, h2, h4, by rw [h5, h3], h6, fun x y => ?_⟩
  rw [h3]
  rw [← eqv_refine hp h]
  exact eqv_cleanBlocks x y

/-- **C59.** `refine_block(new_blocks)` succeeds iff the new blocks together are, up to order, one of the blocks (of at least
two elements).  Then the elements of that block are joined iff they are in the same new block, and all others as before.
Otherwise it raises `ArgValueError` and nothing changes. -/
theorem C59_refine (p : SetPart L) (hp : WF p) (bs : List (List Int)) :
    ((∃ x, 2 ≤ (p.elementToBlock x).length ∧ bs.flatten.Perm (p.elementToBlock x)) →
      ∃ q, p.refineBlock bs none = (.ok (), q) ∧ WF q ∧ q.domain = p.domain ∧
        ∀ a b, a ≠ b → (q.pairInSameBlock a b = true ↔
          (∃ B ∈ bs, a ∈ B ∧ b ∈ B) ∨ (a ∉ bs.flatten ∧ p.pairInSameBlock a b = true))) ∧
    ((¬ ∃ x, 2 ≤ (p.elementToBlock x).length ∧ bs.flatten.Perm (p.elementToBlock x)) →
      p.refineBlock bs none = (.error .argValue, p)) := by
  have hiff : (∃ x, 2 ≤ (p.elementToBlock x).length ∧ bs.flatten.Perm (p.elementToBlock x)) ↔ sortZ bs.flatten ∈ p.blocks := by
    constructor
    · rintro ⟨x, hx, hperm⟩
      have hs : sortZ bs.flatten = p.elementToBlock x := by
        have h1 : (p.elementToBlock x).Nodup := nodup_of_lt (hp.elementToBlock_lt x)
        apply eq_of_mem_iff (sortZ_lt (hperm.nodup_iff.2 h1)) (hp.elementToBlock_lt x)
        intro a; rw [mem_sortZ, hperm.mem_iff]
      rw [hs]
      by_cases hn : x ∈ p.nonSingletons
      · obtain ⟨B, hB, hxB⟩ := hp.mem_ns.1 hn
        rw [hp.elementToBlock_of_mem hB hxB]; exact hB
      · rw [WF.elementToBlock_of_not_mem hn] at hx; simp at hx
    · intro h
      obtain ⟨x, hx⟩ := List.exists_mem_of_ne_nil _ (hp.canon.ne_nil h)
      refine ⟨x, ?_, ?_⟩
      · rw [hp.elementToBlock_of_mem h hx]; exact hp.canon.two _ h
      · rw [hp.elementToBlock_of_mem h hx]; exact (sortZ_perm _).symm
  rw [hiff]
  refine ⟨?_, (refine_state p bs).1⟩
  intro h
  obtain ⟨q, h1, h2, h3, _, _, h6⟩ := refine_ok hp h
  refine ⟨q, h1, h2, h3, fun a b hab => ?_⟩
  rw [eqv_iff_pair h2 hab, h6, hp.pairInSameBlock]
  unfold Joined
  constructor
  · rintro (h | h | h)
    · exact absurd h hab
    · exact Or.inr ⟨h.2, h.1⟩
    · exact Or.inl h
  · rintro (h | h)
    · exact Or.inr (Or.inr h)
    · exact Or.inr (Or.inl ⟨h.2, h.1⟩)

example : (newPart (L := Nat) [[1, 2, 3, 4, 5], [7, 8]]).map (fun p => (p.refineBlock [[5, 1], [2], [4, 3]] none).2.blocks)
    = .ok [[1, 5], [3, 4], [7, 8]] := by decide
example : (newPart (L := Nat) [[1, 2, 3, 4, 5], [7, 8]]).map (fun p => (p.refineBlock [[5, 1], [4, 3]] none).1)
    = .ok (.error .argValue) := by decide

/-- When the number of labels is wrong, `ArgValueError` is raised after the blocks have been changed: the object is left
inconsistent (here 1 and 3 count as joined although no block contains them). -/
theorem C59_wrong_number_of_labels :
    ∃ p : SetPart Nat, newPart [[1, 2, 3, 4]] = .ok p ∧
      (p.refineBlock [[1, 2], [3, 4]] (some [7])).1 = .error .argValue ∧
      (p.refineBlock [[1, 2], [3, 4]] (some [7])).2.blocks = [[1, 2], [3, 4]] ∧
      (p.refineBlock [[1, 2], [3, 4]] (some [7])).2.pairInSameBlock 1 3 = true := by
  refine ⟨_, rfl, ?_⟩
  decide

theorem refine_keeps {p : SetPart L} (hp : WF p) (bs : List (List Int)) : Keeps p (p.refineBlock bs none).2 := by
  by_cases h : sortZ bs.flatten ∈ p.blocks
  · obtain ⟨q, h1, h2, h3, _, _, h6⟩ := refine_ok hp h
    rw [h1]
    refine ⟨h2, h3, fun he B hB x hx => ?_⟩
    rw [h3]
    obtain ⟨y, hy, hyx⟩ := h2.canon.partner hB x
    rcases (h6 x y).1 (Or.inr ⟨B, hB, hx, hy⟩) with h' | h' | ⟨C, hC, h', _⟩
    · exact absurd h'.symm hyx
    · exact (joined_in_domain he h'.1).1
    · exact he _ h x (mem_sortZ.2 (List.mem_flatten.2 ⟨C, hC, h'⟩))
  · rw [(refine_state p bs).1 h]
    exact keeps_of_same hp rfl rfl

omit [DecidableEq L] in
theorem read_states (p : SetPart L) :
    (∃ c, p.pairs.2 = { p with cache := c }) ∧ (∃ c, p.intval.2 = { p with cache := c }) ∧
    (∃ c, p.singletons.2 = { p with cache := c }) := by
  have h1 : ∃ c, p.pairs.2 = { p with cache := c } := by
    unfold SetPart.pairs
    cases p.cache.pairs with
    | some v => exact ⟨p.cache, rfl⟩
    | none => exact ⟨_, rfl⟩
  refine ⟨h1, ?_, ?_⟩
  · obtain ⟨c, hc⟩ := h1
    unfold SetPart.intval
    cases p.cache.intval with
    | some v => exact ⟨p.cache, rfl⟩
    | none =>
      generalize p.pairs = r at *
      obtain ⟨v, q⟩ := r
      simp only at hc
      subst hc
      exact ⟨_, rfl⟩
  · unfold SetPart.singletons
    cases p.cache.singletons with
    | some v => exact ⟨p.cache, rfl⟩
    | none =>
      simp only
      split
      · exact ⟨_, rfl⟩
      · exact ⟨p.cache, rfl⟩

theorem applyOp_keeps {p : SetPart L} (hp : WF p) (op : Op L) : Keeps p (applyOp p op) := by
  obtain ⟨⟨c1, r1⟩, ⟨c2, r2⟩, ⟨c3, r3⟩⟩ := read_states p
  obtain ⟨c4, r4, _⟩ := canonical_state p
  cases op with
  | mergePair a b => exact mergePair_keeps hp a b
  | mergeMany l => exact mergeMany_keeps hp l
  | labelElement x label => exact labelElement_keeps hp x label
  | labelBlock B label => exact labelBlock_keeps hp B label
  | refine bs => exact refine_keeps hp bs
  | readPairs => rw [applyOp, r1]; exact keeps_of_same (hp.withCache _) rfl rfl
  | readIntval => rw [applyOp, r2]; exact keeps_of_same (hp.withCache _) rfl rfl
  | readSingletons => rw [applyOp, r3]; exact keeps_of_same (hp.withCache _) rfl rfl
  | readCanonical => rw [applyOp, r4]; exact keeps_of_same (hp.withCache _) rfl rfl

theorem run_keeps (ops : List (Op L)) {p : SetPart L} (hp : WF p) : Keeps p (ops.foldl applyOp p) := by
  induction ops generalizing p with
  | nil => exact keeps_of_same hp rfl rfl
  | cons op ops ih => exact (applyOp_keeps hp op).trans (ih (applyOp_keeps hp op).wf)

end Verif.SP
