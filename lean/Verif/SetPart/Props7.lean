import Verif.SetPart.Props4

/-!
# C155: refine_block with labels for the new blocks
-/

namespace Verif.SP
open Verif.Py

variable {L : Type} [DecidableEq L]

/-! ### a loop of `bd[key] = label` with new keys -/

theorem labelInverse_eq_none {d : Dict (List Int) L} (hd : d.keys.Nodup) {l : L} (h : ∀ k, d.get? k ≠ some l) :
    labelInverse d l = none := by
  cases hi : labelInverse d l with
  | none => rfl
  | some k => exact absurd (labelInverse_some hd hi) (h k)

theorem setLabels_ok (items : List (List Int × L)) {d : Dict (List Int) L} (hd : d.keys.Nodup)
    (hk : (items.map Prod.fst).Nodup) (hl : (items.map Prod.snd).Nodup)
    (hf : ∀ l ∈ items.map Prod.snd, ∀ k, d.get? k ≠ some l) :
    ∃ d', setLabels d items = (.ok (), d') ∧ d'.keys.Nodup ∧
      ∀ k l, d'.get? k = some l ↔ (k, l) ∈ items ∨ (k ∉ items.map Prod.fst ∧ d.get? k = some l) := by
  induction items generalizing d with
  | nil => exact ⟨d, rfl, hd, fun k l => by simp⟩
  | cons kl items ih =>
    obtain ⟨k0, l0⟩ := kl
    rw [List.map_cons, List.nodup_cons] at hk hl
    simp only at hk hl
    have hi : labelInverse d l0 = none := labelInverse_eq_none hd (hf l0 (by simp))
    have hb : bidictSet d k0 l0 = .ok (d.set k0 l0) := by unfold bidictSet; rw [hi]
    obtain ⟨d', h1, h2, h3⟩ := ih (d := d.set k0 l0) (Dict.nodup_keys_set hd _ _) hk.2 hl.2 (by
      intro l hm k hc
      rw [Dict.get?_set] at hc
      split at hc
      · cases hc; exact hl.1 hm
      · exact hf l (List.mem_cons_of_mem _ hm) k hc)
    refine ⟨d', by rw [setLabels, hb]; exact h1, h2, fun k l => ?_⟩
    rw [h3, Dict.get?_set]
    by_cases e : k0 = k
    · subst e
      rw [if_pos rfl]
      simp only [List.mem_cons, List.map_cons, not_true_eq_false, true_or, false_and, or_false, Prod.mk.injEq, true_and,
        Option.some.injEq]
      have hn : ∀ l, (k0, l) ∉ items := fun l hm => hk.1 (List.mem_map.2 ⟨(k0, l), hm, rfl⟩)
      constructor
      · rintro (h | ⟨_, h⟩)
        · exact absurd h (hn l)
        · exact Or.inl h.symm
      · rintro (h | h)
        · exact Or.inr ⟨hk.1, h.symm⟩
        · exact absurd h (hn l)
    · rw [if_neg e]
      have e' : ¬ k = k0 := fun h => e h.symm
      simp only [List.mem_cons, List.map_cons, Prod.mk.injEq, e', false_and, false_or]

theorem setLabels_error (items : List (List Int × L)) {d : Dict (List Int) L} (hd : d.keys.Nodup)
    (hk : (items.map Prod.fst).Nodup) (hn : ∀ k ∈ items.map Prod.fst, d.get? k = none)
    (h : ¬ ((items.map Prod.snd).Nodup ∧ ∀ l ∈ items.map Prod.snd, ∀ k, d.get? k ≠ some l)) :
    ∃ d', setLabels d items = (.error .valueDuplication, d') := by
  induction items generalizing d with
  | nil => exact absurd ⟨List.nodup_nil, by simp⟩ h
  | cons kl items ih =>
    obtain ⟨k0, l0⟩ := kl
    rw [List.map_cons, List.nodup_cons] at hk
    simp only at hk
    cases hi : labelInverse d l0 with
    | some k =>
      have hg := labelInverse_some hd hi
      have hne : k ≠ k0 := by
        rintro rfl
        rw [hn k (by simp)] at hg; cases hg
      refine ⟨d, ?_⟩
      rw [setLabels]
      have : bidictSet d k0 l0 = .error .valueDuplication := by
        unfold bidictSet; rw [hi]; simp only; rw [if_neg hne]
      rw [this]
    | none =>
      have hnone := labelInverse_none hi
      have hb : bidictSet d k0 l0 = .ok (d.set k0 l0) := by unfold bidictSet; rw [hi]
      obtain ⟨d', h1⟩ := ih (d := d.set k0 l0) (Dict.nodup_keys_set hd _ _) hk.2 (by
        intro k hm
        rw [Dict.get?_set, if_neg (by rintro rfl; exact hk.1 hm)]
        exact hn k (List.mem_cons_of_mem _ hm)) (by
        rintro ⟨h2, h3⟩
        apply h
        refine ⟨?_, ?_⟩
        · rw [List.map_cons, List.nodup_cons]
          refine ⟨fun hm => h3 l0 hm k0 ?_, h2⟩
          rw [Dict.get?_set, if_pos rfl]
        · intro l hm k hc
          rw [List.map_cons, List.mem_cons] at hm
          rcases hm with rfl | hm
          · exact hnone k hc
          · by_cases e : k0 = k
            · subst e; rw [hn k0 (by simp)] at hc; cases hc
            · exact h3 l hm k (by rw [Dict.get?_set, if_neg e]; exact hc))
      exact ⟨d', by rw [setLabels, hb]; exact h1⟩

/-! ### what is split -/

/-- The new blocks together are, up to order, a block of at least two elements. -/
def Splits (p : SetPart L) (bs : List (List Int)) : Prop :=
  ∃ x, 2 ≤ (p.elementToBlock x).length ∧ bs.flatten.Perm (p.elementToBlock x)

/-- The labels are different, and no element outside of the new blocks has one of them. -/
def FreshLabels (p : SetPart L) (bs : List (List Int)) (ls : List L) : Prop :=
  ls.Nodup ∧ ∀ l ∈ ls, ∀ y, p.getLabelFromElement y = some l → y ∈ bs.flatten

omit [DecidableEq L] in
theorem splits_iff {p : SetPart L} (hp : WF p) (bs : List (List Int)) : Splits p bs ↔ sortZ bs.flatten ∈ p.blocks := by
  constructor
  · rintro ⟨x, hx, hperm⟩
    have hs : sortZ bs.flatten = p.elementToBlock x := by
      have h1 : (p.elementToBlock x).Nodup := nodup_of_lt (hp.elementToBlock_lt x)
      apply eq_of_mem_iff (sortZ_lt (hperm.nodup_iff.2 h1)) (hp.elementToBlock_lt x)
      intro a; rw [mem_sortZ, hperm.mem_iff]
    rw [hs]
    by_cases hn : x ∈ p.nonSingletons
    · obtain ⟨B, hB, hxB⟩ := hp.mem_ns.1 hn
      rw [hp.elementToBlock_of_mem hB hxB]; exact hB
    · rw [WF.elementToBlock_of_not_mem hn] at hx; simp at hx
  · intro h
    obtain ⟨x, hx⟩ := List.exists_mem_of_ne_nil _ (hp.canon.ne_nil h)
    refine ⟨x, ?_, ?_⟩
    · rw [hp.elementToBlock_of_mem h hx]; exact hp.canon.two _ h
    · rw [hp.elementToBlock_of_mem h hx]; exact (sortZ_perm _).symm

/-- The steps of `refine_block` with labels -/
theorem refine_labels_state (p : SetPart L) (bs : List (List Int)) (ls : List L) :
    (sortZ bs.flatten ∉ p.blocks → p.refineBlock bs (some ls) = (.error .argValue, p)) ∧
    (sortZ bs.flatten ∈ p.blocks → ls.length ≠ bs.length → p.refineBlock bs (some ls) = (.error .argValue,
      { p with blocks := p.blocks.erase (sortZ bs.flatten) ++ bs, blockLabels := p.blockLabels.erase (sortZ bs.flatten) })) ∧
    (sortZ bs.flatten ∈ p.blocks → ls.length = bs.length → ∀ d,
      (setLabels (p.blockLabels.erase (sortZ bs.flatten)) (bs.zip ls) = (.ok (), d) →
        p.refineBlock bs (some ls) = reinit
          { p with blocks := p.blocks.erase (sortZ bs.flatten) ++ bs, blockLabels := d }) ∧
      (∀ e, setLabels (p.blockLabels.erase (sortZ bs.flatten)) (bs.zip ls) = (.error e, d) →
        p.refineBlock bs (some ls) = (.error e,
          { p with blocks := p.blocks.erase (sortZ bs.flatten) ++ bs, blockLabels := d }))) := by
  unfold SetPart.refineBlock
  refine ⟨fun h => ?_, fun h hn => ?_, fun h he d => ⟨fun hs => ?_, fun e hs => ?_⟩⟩
  · simp only
    rw [if_pos (by simpa using h)]
  · simp only
    rw [if_neg (by simpa using h), if_pos hn]
  · simp only
    rw [if_neg (by simpa using h), if_neg (by simpa using he), hs]
  · simp only
    rw [if_neg (by simpa using h), if_neg (by simpa using he), hs]

section splitting
variable {p : SetPart L} {bs : List (List Int)} {ls : List L}

omit [DecidableEq L] in
theorem mem_new_of_erased (hp : WF p) (hl : Labelled p) (h : sortZ bs.flatten ∈ p.blocks) {C : List Int} {l : L}
    (hC : (p.blockLabels.erase (sortZ bs.flatten)).get? C = some l) :
    (∃ x, x ∉ bs.flatten ∧ p.elementToBlock x = C ∧ p.getLabelFromElement x = some l) ∧
      ∀ B ∈ bs, B ≠ [] → B ≠ C := by
  rw [Dict.get?_erase hl.keys] at hC
  split at hC
  · cases hC
  · next hne =>
    obtain ⟨x, hx⟩ := hl.blocks C l hC
    have hxn : x ∉ bs.flatten := by
      intro hxb
      exact hne (by rw [← hx, hp.elementToBlock_of_mem h (mem_sortZ.2 hxb)])
    refine ⟨⟨x, hxn, hx, by unfold SetPart.getLabelFromElement SetPart.getLabelFromBlock; rw [hx]; exact hC⟩, ?_⟩
    rintro B hB hne' rfl
    obtain ⟨y, hy⟩ := List.exists_mem_of_ne_nil _ hne'
    have hyo : y ∈ sortZ bs.flatten := mem_sortZ.2 (List.mem_flatten.2 ⟨B, hB, hy⟩)
    have hyx : y ∈ p.elementToBlock x := by rw [hx]; exact hy
    rw [hp.mem_elementToBlock] at hyx
    rcases hyx with e | ⟨D, hD, hxD, hyD⟩
    · subst e; exact hxn (mem_sortZ.1 hyo)
    · rw [hp.canon.unique hD h hyD hyo] at hxD
      exact hxn (mem_sortZ.1 hxD)

omit [DecidableEq L] in
theorem new_nodup (hp : WF p) (h : sortZ bs.flatten ∈ p.blocks) : bs.flatten.Nodup :=
  (sortZ_perm bs.flatten).nodup_iff.1 (nodup_of_lt (hp.canon.lt _ h))

omit [DecidableEq L] in
theorem new_unique (hp : WF p) (h : sortZ bs.flatten ∈ p.blocks) {B C : List Int} (hB : B ∈ bs) (hC : C ∈ bs) {x : Int}
    (hxB : x ∈ B) (hxC : x ∈ C) : B = C := by
  by_contra hne
  have h1 := (List.nodup_flatten.1 (new_nodup hp h)).2
  have : Std.Symm (List.Disjoint (α := Int)) := ⟨fun _ _ h => List.Disjoint.symm h⟩
  exact List.Pairwise.forall h1 hB hC hne hxB hxC

omit [DecidableEq L] in
theorem new_blocks_nodup (hp : WF p) (h : sortZ bs.flatten ∈ p.blocks) (hne : ∀ B ∈ bs, B ≠ []) : bs.Nodup := by
  have h1 := (List.nodup_flatten.1 (new_nodup hp h)).2
  refine List.Pairwise.imp_of_mem ?_ h1
  rintro B C hB _ hd rfl
  obtain ⟨x, hx⟩ := List.exists_mem_of_ne_nil _ (hne B hB)
  exact hd hx hx

omit [DecidableEq L] in
theorem zip_fst (hlen : ls.length = bs.length) : (bs.zip ls).map Prod.fst = bs := by
  rw [List.map_fst_zip (by omega)]

omit [DecidableEq L] in
theorem zip_snd (hlen : ls.length = bs.length) : (bs.zip ls).map Prod.snd = ls := by
  rw [List.map_snd_zip (by omega)]

omit [DecidableEq L] in
/-- The labels that stay are not among the new ones, iff the new ones are fresh. -/
theorem fresh_iff (hp : WF p) (hl : Labelled p) (h : sortZ bs.flatten ∈ p.blocks) :
    FreshLabels p bs ls ↔
      ls.Nodup ∧ ∀ l ∈ ls, ∀ k, (p.blockLabels.erase (sortZ bs.flatten)).get? k ≠ some l := by
  refine and_congr Iff.rfl ⟨fun hf l hm k hk => ?_, fun hf l hm y hy => ?_⟩
  · obtain ⟨⟨x, hxn, _, hx⟩, _⟩ := mem_new_of_erased hp hl h hk
    exact hxn (hf l hm x hx)
  · by_contra hyn
    refine hf l hm (p.elementToBlock y) ?_
    rw [Dict.get?_erase hl.keys, if_neg]
    · exact hy
    · intro e
      have : y ∈ sortZ bs.flatten := by rw [e]; exact (hp.mem_elementToBlock y y).2 (Or.inl rfl)
      exact hyn (mem_sortZ.1 this)

end splitting

/-- **C155.** `refine_block(new_blocks, new_labels)` with as many labels as blocks (ascending, not empty), where the labels are
different and not used for another block: the partition is refined, every new block gets its label, and the other blocks keep
theirs.  But when no block with more than one element is left, all labels are forgotten. -/
theorem C155_refine_labels (p : SetPart L) (hp : WF p) (hl : Labelled p) (bs : List (List Int)) (ls : List L)
    (hs : Splits p bs) (hlen : ls.length = bs.length) (hasc : ∀ B ∈ bs, B ≠ [] ∧ B.Pairwise (· < ·))
    (hf : FreshLabels p bs ls) :
    ∃ q, p.refineBlock bs (some ls) = (.ok (), q) ∧ WF q ∧ Labelled q ∧ q.domain = p.domain ∧
      (∀ a b, a ≠ b → (q.pairInSameBlock a b = true ↔
        (∃ B ∈ bs, a ∈ B ∧ b ∈ B) ∨ (a ∉ bs.flatten ∧ p.pairInSameBlock a b = true))) ∧
      ((∃ a b, a ≠ b ∧ q.pairInSameBlock a b = true) →
        (∀ B l x, (B, l) ∈ bs.zip ls → x ∈ B → q.getLabelFromElement x = some l ∧ q.getBlockFromLabel l = some B) ∧
        (∀ x, x ∉ bs.flatten → q.getLabelFromElement x = p.getLabelFromElement x)) ∧
      ((∀ a b, a ≠ b → q.pairInSameBlock a b = false) →
        (∀ x, q.getLabelFromElement x = none) ∧ ∀ l, q.getBlockFromLabel l = none) := by
  have h := (splits_iff hp bs).1 hs
  have hne : ∀ B ∈ bs, B ≠ [] := fun B hB => (hasc B hB).1
  have hfr := (fresh_iff (ls := ls) hp hl h).1 hf
  obtain ⟨d, e1, e2, e3⟩ := setLabels_ok (bs.zip ls) (d := p.blockLabels.erase (sortZ bs.flatten))
    (nodup_keys_erase hl.keys _) (by rw [zip_fst hlen]; exact new_blocks_nodup hp h hne)
    (by rw [zip_snd hlen]; exact hfr.1) (by rw [zip_snd hlen]; exact hfr.2)
  rw [zip_fst hlen] at e3
  obtain ⟨q, h1, h2, h3, h4, h5, _⟩ := reinit_ok (p := { p with
    blocks := p.blocks.erase (sortZ bs.flatten) ++ bs, blockLabels := d }) (refine_raw hp h)
  simp only at h3 h4 h5
  rw [← h3] at h5
  have h6 : ∀ x y, Eqv q.blocks x y ↔ x = y ∨ (Joined p.blocks x y ∧ x ∉ bs.flatten) ∨ Joined bs x y := by
    intro x y
    rw [h3, ← eqv_refine hp h]
    exact eqv_cleanBlocks x y
  have hpair : ∀ a b, a ≠ b → (q.pairInSameBlock a b = true ↔
      (∃ B ∈ bs, a ∈ B ∧ b ∈ B) ∨ (a ∉ bs.flatten ∧ p.pairInSameBlock a b = true)) := by
    intro a b hab
    rw [eqv_iff_pair h2 hab, h6, hp.pairInSameBlock]
    unfold Joined
    constructor
    · rintro (h | h | h)
      · exact absurd h hab
      · exact Or.inr ⟨h.2, h.1⟩
      · exact Or.inl h
    · rintro (h | h)
      · exact Or.inr (Or.inr h)
      · exact Or.inr (Or.inl ⟨h.2, h.1⟩)
  have hnew : ∀ B ∈ bs, ∀ x ∈ B, q.elementToBlock x = B := by
    intro B hB x hx
    apply eq_of_mem_iff (h2.elementToBlock_lt x) (hasc B hB).2
    intro y
    rw [h2.mem_elementToBlock, show (y = x ∨ Joined q.blocks x y) ↔ Eqv q.blocks x y from or_congr eq_comm Iff.rfl, h6]
    constructor
    · rintro (e | e | ⟨C, hC, hxC, hyC⟩)
      · rw [← e]; exact hx
      · exact absurd (List.mem_flatten.2 ⟨B, hB, hx⟩) e.2
      · rw [new_unique hp h hB hC hx hxC]; exact hyC
    · intro hy; exact Or.inr (Or.inr ⟨B, hB, hx, hy⟩)
  have hold : ∀ x, x ∉ bs.flatten → q.elementToBlock x = p.elementToBlock x := by
    intro x hxn
    apply elementToBlock_congr h2 hp
    intro y
    rw [h6]
    constructor
    · rintro (h' | h' | ⟨D, hD, hxD, _⟩)
      · exact Or.inl h'
      · exact Or.inr h'.1
      · exact absurd (List.mem_flatten.2 ⟨D, hD, hxD⟩) hxn
    · rintro (h' | h')
      · exact Or.inl h'
      · exact Or.inr (Or.inl ⟨h', hxn⟩)
  have hblock : ∀ B l, (B, l) ∈ bs.zip ls → B ∈ bs := fun B l hm => (List.of_mem_zip hm).1
  have hlab : Labelled q := by
    by_cases hb : q.blocks = []
    · rw [if_pos hb] at h5; exact labelled_nil h5
    · rw [if_neg hb] at h5
      refine ⟨by rw [h5]; exact e2, ?_, ?_⟩
      · intro B C l hB hC
        rw [h5, e3] at hB hC
        rcases hB with hB | ⟨hBn, hB⟩
        · rcases hC with hC | ⟨hCn, hC⟩
          · have hn : ((bs.zip ls).map Prod.snd).Nodup := by rw [zip_snd hlen]; exact hfr.1
            exact congrArg Prod.fst (List.inj_on_of_nodup_map hn hB hC rfl)
          · exact absurd hC (hfr.2 l (List.of_mem_zip hB).2 C)
        · rcases hC with hC | ⟨hCn, hC⟩
          · exact absurd hB (hfr.2 l (List.of_mem_zip hC).2 B)
          · rw [Dict.get?_erase hl.keys] at hB hC
            split at hB
            · cases hB
            · split at hC
              · cases hC
              · exact hl.inj B C l hB hC
      · intro B l hB
        rw [h5, e3] at hB
        rcases hB with hB | ⟨hBn, hB⟩
        · obtain ⟨x, hx⟩ := List.exists_mem_of_ne_nil _ (hne B (hblock B l hB))
          exact ⟨x, hnew B (hblock B l hB) x hx⟩
        · obtain ⟨⟨x, hxn, hx, _⟩, _⟩ := mem_new_of_erased hp hl h hB
          exact ⟨x, by rw [hold x hxn, hx]⟩
  refine ⟨q, by rw [((refine_labels_state p bs ls).2.2 h hlen d).1 e1]; exact h1, h2, hlab, h4, hpair, ?_, ?_⟩
  · rintro ⟨a, b, hab, hj⟩
    have hb : q.blocks ≠ [] := by
      intro hb
      rcases (eqv_iff_pair h2 hab).1 hj with e | ⟨B, hB, _⟩
      · exact hab e
      · rw [hb] at hB; cases hB
    rw [if_neg hb] at h5
    refine ⟨fun B l x hm hx => ?_, fun x hxn => ?_⟩
    · have hg : q.blockLabels.get? B = some l := by rw [h5, e3]; exact Or.inl hm
      refine ⟨?_, ?_⟩
      · unfold SetPart.getLabelFromElement SetPart.getLabelFromBlock
        rw [hnew B (hblock B l hm) x hx]; exact hg
      · unfold SetPart.getBlockFromLabel
        cases hi : labelInverse q.blockLabels l with
        | none => exact absurd hg (labelInverse_none hi _)
        | some k => rw [hlab.inj _ _ _ (labelInverse_some hlab.keys hi) hg]
    · unfold SetPart.getLabelFromElement SetPart.getLabelFromBlock
      rw [hold x hxn, h5]
      have hx1 : x ∈ p.elementToBlock x := (hp.mem_elementToBlock x x).2 (Or.inl rfl)
      have hnb : p.elementToBlock x ∉ bs := fun hm => hxn (List.mem_flatten.2 ⟨_, hm, hx1⟩)
      have hno : sortZ bs.flatten ≠ p.elementToBlock x := fun e => hxn (mem_sortZ.1 (by rw [e]; exact hx1))
      apply Option.ext
      intro l
      rw [e3, Dict.get?_erase hl.keys, if_neg hno]
      constructor
      · rintro (hm | hm)
        · exact absurd (hblock _ _ hm) hnb
        · exact hm.2
      · intro hm; exact Or.inr ⟨hnb, hm⟩
  · intro hnone
    have hb : q.blocks = [] := by
      by_contra hb
      obtain ⟨B, hB⟩ := List.exists_mem_of_ne_nil _ hb
      obtain ⟨x, hx⟩ := List.exists_mem_of_ne_nil _ (h2.canon.ne_nil hB)
      obtain ⟨y, hy, hyx⟩ := h2.canon.partner hB x
      have := (eqv_iff_pair h2 (Ne.symm hyx)).2 (Or.inr ⟨B, hB, hx, hy⟩)
      rw [hnone x y (Ne.symm hyx)] at this; cases this
    rw [if_pos hb] at h5
    refine ⟨fun x => ?_, fun l => ?_⟩
    · unfold SetPart.getLabelFromElement SetPart.getLabelFromBlock; rw [h5]; rfl
    · unfold SetPart.getBlockFromLabel; rw [h5]; rfl

/-- **C155.** The other outcomes of `refine_block(new_blocks, new_labels)`: when the new blocks are not together a block,
nothing changes.  A wrong number of labels and labels that are not fresh raise their exceptions after the list of blocks was
changed: no pair counts as separated, but `blocks` contains the new blocks instead of the old one. -/
theorem C155_refine_labels_errors (p : SetPart L) (hp : WF p) (hl : Labelled p) (bs : List (List Int)) (ls : List L) :
    (¬ Splits p bs → p.refineBlock bs (some ls) = (.error .argValue, p)) ∧
    (Splits p bs → ls.length ≠ bs.length → ∃ q, p.refineBlock bs (some ls) = (.error .argValue, q) ∧
      (∀ a b, q.pairInSameBlock a b = p.pairInSameBlock a b) ∧
      ∀ B, B ∈ q.blocks ↔ B ∈ bs ∨ (B ∈ p.blocks ∧ ¬ B.Perm bs.flatten)) ∧
    (Splits p bs → ls.length = bs.length → (∀ B ∈ bs, B ≠ []) → ¬ FreshLabels p bs ls →
      ∃ q, p.refineBlock bs (some ls) = (.error .valueDuplication, q) ∧
        (∀ a b, q.pairInSameBlock a b = p.pairInSameBlock a b) ∧
        ∀ B, B ∈ q.blocks ↔ B ∈ bs ∨ (B ∈ p.blocks ∧ ¬ B.Perm bs.flatten)) := by
  have hmem : sortZ bs.flatten ∈ p.blocks → ∀ B, B ∈ p.blocks.erase (sortZ bs.flatten) ++ bs ↔
      B ∈ bs ∨ (B ∈ p.blocks ∧ ¬ B.Perm bs.flatten) := by
    intro h B
    rw [List.mem_append, hp.canon.nodup_blocks.mem_erase_iff, or_comm]
    refine or_congr Iff.rfl ⟨fun ⟨h1, h2⟩ => ⟨h2, fun hperm => h1 ?_⟩, fun ⟨h1, h2⟩ => ⟨fun e => h2 ?_, h1⟩⟩
    · apply eq_of_mem_iff (hp.canon.lt _ h2) (hp.canon.lt _ h)
      intro a; rw [mem_sortZ, hperm.mem_iff]
    · rw [e]; exact sortZ_perm _
  refine ⟨fun hs => ?_, fun hs hlen => ?_, fun hs hlen hne hf => ?_⟩
  · rw [splits_iff hp] at hs
    exact (refine_labels_state p bs ls).1 hs
  · rw [splits_iff hp] at hs
    exact ⟨_, (refine_labels_state p bs ls).2.1 hs hlen, fun a b => rfl, hmem hs⟩
  · rw [splits_iff hp] at hs
    rw [fresh_iff hp hl hs] at hf
    obtain ⟨d, e⟩ := setLabels_error (bs.zip ls) (d := p.blockLabels.erase (sortZ bs.flatten))
      (nodup_keys_erase hl.keys _) (by rw [zip_fst hlen]; exact new_blocks_nodup hp hs hne)
      (by
        rw [zip_fst hlen]
        intro k hk
        cases hg : (p.blockLabels.erase (sortZ bs.flatten)).get? k with
        | none => rfl
        | some l => exact absurd rfl ((mem_new_of_erased hp hl hs hg).2 k hk (hne k hk)))
      (by rw [zip_snd hlen]; exact hf)
    exact ⟨_, ((refine_labels_state p bs ls).2.2 hs hlen d).2 _ e, fun a b => rfl, hmem hs⟩

/-- The label of a new block that is not ascending is stored under that list, so that the block is found for the label, but no
label for its elements. -/
theorem C155_unsorted_block :
    ∃ p : SetPart Nat, newPart [[1, 2, 3, 4]] = .ok p ∧
      (p.refineBlock [[2, 1], [3, 4]] (some [7, 8])).1 = .ok () ∧
      (p.refineBlock [[2, 1], [3, 4]] (some [7, 8])).2.blocks = [[1, 2], [3, 4]] ∧
      (p.refineBlock [[2, 1], [3, 4]] (some [7, 8])).2.getLabelFromElement 1 = none ∧
      (p.refineBlock [[2, 1], [3, 4]] (some [7, 8])).2.getBlockFromLabel 7 = some [2, 1] ∧
      (p.refineBlock [[2, 1], [3, 4]] (some [7, 8])).2.getLabelFromElement 3 = some 8 := by
  refine ⟨_, rfl, ?_⟩
  decide

-- the hypotheses of the first theorem
example : ∃ p : SetPart Nat, newPart [[1, 2, 3, 4], [7, 8]] = .ok p ∧ WF p ∧ Labelled p ∧
    Splits p [[4], [1, 3], [2]] ∧ FreshLabels p [[4], [1, 3], [2]] [9, 5, 3] := by
  obtain ⟨p, h1, h2, h3, h4, _⟩ := (C37_construction (L := Nat) [[1, 2, 3, 4], [7, 8]] .N).1 (by unfold NoOverlap; simp [List.Disjoint])
  refine ⟨p, h1, h2, labelled_nil h4, ?_, by decide, fun l _ y hy => ?_⟩
  · have hp : Except.ok (ε := Err) p = newPart (L := Nat) [[1, 2, 3, 4], [7, 8]] .N := h1.symm
    injection hp with hp
    subst hp
    exact ⟨1, by decide, by decide⟩
  · unfold SetPart.getLabelFromElement SetPart.getLabelFromBlock at hy; rw [h4] at hy; cases hy
-- {1, 2, 3, 4} has label 5 and {7, 8} label 6; then {1, 2, 3, 4} is split, and 5 is used again
example : (newPart (L := Nat) [[1, 2, 3, 4], [7, 8]]).map (fun p =>
      let q := ((((p.addLabelToElement 1 5).2.addLabelToElement 7 6).2).refineBlock [[4], [1, 3], [2]] (some [9, 5, 3]))
      (q.1, q.2.blocks, [1, 2, 3, 4, 7].map q.2.getLabelFromElement))
    = .ok (.ok (), [[1, 3], [7, 8]], [some 5, some 3, some 5, some 9, some 6]) := by decide
-- the label 6 is already used
example : (newPart (L := Nat) [[1, 2, 3, 4], [7, 8]]).map (fun p =>
      ((((p.addLabelToElement 1 5).2.addLabelToElement 7 6).2).refineBlock [[4], [1, 3], [2]] (some [9, 6, 3])).1)
    = .ok (.error .valueDuplication) := by decide
-- only singletons are left
example : (newPart (L := Nat) [[1, 2]]).map (fun p =>
      let q := p.refineBlock [[1], [2]] (some [5, 6])
      (q.1, q.2.getLabelFromElement 1, q.2.getLabelFromElement 2)) = .ok (.ok (), none, none) := by decide

end Verif.SP
