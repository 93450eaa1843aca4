import Verif.SetPart.Props3

/-!
# C42, C44: histories with labels and reads
-/

namespace Verif.SP
open Verif.Py

variable {L : Type} [DecidableEq L]

theorem nodup_keys_erase {α β : Type} [DecidableEq α] {d : Dict α β} (h : d.keys.Nodup) (k : α) : (d.erase k).keys.Nodup := by
  rw [Dict.keys_erase]; exact h.erase k

theorem labelInverse_some {d : Dict (List Int) L} (hd : d.keys.Nodup) {l : L} {k : List Int} (h : labelInverse d l = some k) :
    d.get? k = some l := by
  apply Dict.mem_get? hd
  clear hd
  induction d with
  | nil => simp [labelInverse] at h
  | cons kv d ih =>
    obtain ⟨k', v⟩ := kv
    rw [labelInverse] at h
    split at h
    · next hv => cases h; rw [hv]; simp
    · exact List.mem_cons_of_mem _ (ih h)

theorem labelInverse_none {d : Dict (List Int) L} {l : L} (h : labelInverse d l = none) (k : List Int) :
    d.get? k ≠ some l := by
  intro hk
  have := Dict.get?_mem hk
  clear hk
  induction d with
  | nil => cases this
  | cons kv d ih =>
    obtain ⟨k', v⟩ := kv
    rw [labelInverse] at h
    split at h
    · cases h
    · next hv =>
      rcases List.mem_cons.1 this with h' | h'
      · cases h'; exact hv rfl
      · exact ih h h'

/-- The labels are a bijection between some of the blocks of the partition and the labels used. -/
structure Labelled (p : SetPart L) : Prop where
  keys : p.blockLabels.keys.Nodup
  inj : ∀ B C l, p.blockLabels.get? B = some l → p.blockLabels.get? C = some l → B = C
  blocks : ∀ B l, p.blockLabels.get? B = some l → ∃ x, p.elementToBlock x = B

omit [DecidableEq L] in
theorem elementToBlock_congr {p q : SetPart L} (hp : WF p) (hq : WF q) {x : Int}
    (h : ∀ y, Eqv p.blocks x y ↔ Eqv q.blocks x y) : p.elementToBlock x = q.elementToBlock x := by
  apply eq_of_mem_iff (hp.elementToBlock_lt x) (hq.elementToBlock_lt x)
  intro y
  have := h y
  unfold Eqv at this
  rw [hp.mem_elementToBlock, hq.mem_elementToBlock, eq_comm, this]

omit [DecidableEq L] in
theorem labelled_nil {p : SetPart L} (h : p.blockLabels = []) : Labelled p := by
  constructor
  · rw [h]; simp [Dict.keys]
  · intro B C l hB; rw [h] at hB; simp [Dict.get?] at hB
  · intro B l hB; rw [h] at hB; simp [Dict.get?] at hB

/-- the effect of `merge_block_labels` -/
theorem mergeBlockLabels_spec {p : SetPart L} (hp : WF p) (hl : Labelled p) (a b : Int) :
    (p.elementToBlock a = p.elementToBlock b → p.mergeBlockLabels a b = (.ok (), p)) ∧
    (p.elementToBlock a ≠ p.elementToBlock b → (p.getLabelFromElement a).isSome → (p.getLabelFromElement b).isSome →
      p.mergeBlockLabels a b = (.error .labelContradiction, p)) ∧
    (p.elementToBlock a ≠ p.elementToBlock b → (p.getLabelFromElement a = none ∨ p.getLabelFromElement b = none) →
      ∃ d, p.mergeBlockLabels a b = (.ok (), { p with blockLabels := d }) ∧ d.keys.Nodup ∧
        ∀ B, d.get? B = if B = sortZ (p.elementToBlock a ++ p.elementToBlock b) then
            (p.getLabelFromElement a).or (p.getLabelFromElement b)
          else if B = p.elementToBlock a ∨ B = p.elementToBlock b then none
          else p.blockLabels.get? B) := by
  unfold SetPart.mergeBlockLabels SetPart.getLabelFromElement
  simp only
  refine ⟨?_, ?_, ?_⟩
  · intro h; rw [if_pos h]
  · intro h h1 h2
    rw [if_neg h, if_pos (by rw [h1, h2]; rfl)]
  · intro h h12
    rw [if_neg h, if_neg (by rcases h12 with h' | h' <;> simp [h'])]
    generalize hA : p.elementToBlock a = A at *
    generalize hB : p.elementToBlock b = B at *
    have hk1 : ((p.blockLabels.erase A).erase B).keys.Nodup := nodup_keys_erase (nodup_keys_erase hl.keys _) _
    have hg1 : ∀ C, ((p.blockLabels.erase A).erase B).get? C = if C = A ∨ C = B then none else p.blockLabels.get? C := by
      intro C
      have hkA : (p.blockLabels.erase A).keys.Nodup := nodup_keys_erase hl.keys _
      rw [Dict.get?_erase hkA, Dict.get?_erase hl.keys]
      by_cases hCB : B = C
      · rw [if_pos hCB, if_pos (Or.inr hCB.symm)]
      · rw [if_neg hCB]
        by_cases hCA : A = C
        · rw [if_pos hCA, if_pos (Or.inl hCA.symm)]
        · rw [if_neg hCA, if_neg (by rintro (h | h); exacts [hCA h.symm, hCB h.symm])]
    -- the united block has no label of its own
    have hM : p.blockLabels.get? (sortZ (A ++ B)) = none := by
      by_contra hne
      obtain ⟨l, hlab⟩ := Option.ne_none_iff_exists'.1 hne
      obtain ⟨x, hx⟩ := hl.blocks _ _ hlab
      have ha : a ∈ p.elementToBlock x := by
        rw [hx, mem_sortZ, List.mem_append, ← hA]; exact Or.inl ((hp.mem_elementToBlock a a).2 (Or.inl rfl))
      have hb : b ∈ p.elementToBlock x := by
        rw [hx, mem_sortZ, List.mem_append, ← hB]; exact Or.inr ((hp.mem_elementToBlock b b).2 (Or.inl rfl))
      have e1 := (hp.elementToBlock_eq x a).2 (((hp.mem_elementToBlock x a).1 ha).imp_left Eq.symm)
      have e2 := (hp.elementToBlock_eq x b).2 (((hp.mem_elementToBlock x b).1 hb).imp_left Eq.symm)
      exact h (by rw [← hA, ← hB, ← e1, ← e2])
    have hMne : sortZ (A ++ B) ≠ A ∧ sortZ (A ++ B) ≠ B := by
      have hlen : ∀ x, 0 < (p.elementToBlock x).length := fun x => List.length_pos_of_ne_nil (elementToBlock_ne_nil hp x)
      have h1 := hlen a; have h2 := hlen b
      rw [hA] at h1; rw [hB] at h2
      constructor <;> intro he <;> have := congrArg List.length he <;> rw [length_sortZ, List.length_append] at this <;> omega
    unfold SetPart.getLabelFromBlock at *
    cases hor : (p.blockLabels.get? A).or (p.blockLabels.get? B) with
    | none =>
      refine ⟨_, rfl, hk1, fun C => ?_⟩
      rw [hg1]
      by_cases hC : C = sortZ (A ++ B)
      · rw [if_pos hC, hC, if_neg (by rintro (h | h); exacts [hMne.1 h, hMne.2 h]), hM]
      · rw [if_neg hC]
    | some label =>
      simp only
      have hlab : p.blockLabels.get? A = some label ∨ p.blockLabels.get? B = some label := by
        rcases Option.or_eq_some_iff.1 hor with h | h
        · exact Or.inl h
        · exact Or.inr h.2
      have hnone : labelInverse ((p.blockLabels.erase A).erase B) label = none := by
        by_contra hne
        obtain ⟨k, hk⟩ := Option.ne_none_iff_exists'.1 hne
        have hk' := labelInverse_some hk1 hk
        rw [hg1] at hk'
        split at hk'
        · cases hk'
        · next hnot =>
          rcases hlab with h' | h'
          · exact hnot (Or.inl (hl.inj _ _ _ hk' h'))
          · exact hnot (Or.inr (hl.inj _ _ _ hk' h'))
      unfold bidictSet
      rw [hnone]
      refine ⟨_, rfl, Dict.nodup_keys_set hk1 _ _, fun C => ?_⟩
      rw [Dict.get?_set, hg1]
      by_cases hC : C = sortZ (A ++ B)
      · rw [if_pos hC.symm, if_pos hC]
      · rw [if_neg (fun h => hC h.symm), if_neg hC]

/-- **C44.** `merge_pair` on a partition with labels.  If both blocks have labels it raises `LabelContradictionError` and
nothing changes.  Otherwise the united block has the label that one of the parts had, and other blocks keep theirs. -/
theorem C44_merge_pair (p : SetPart L) (hp : WF p) (hl : Labelled p) (a b : Int) (hab : a ≠ b)
    (ha : InDomain p.domain a) (hb : InDomain p.domain b) :
    (p.pairInSameBlock a b = false → (p.getLabelFromElement a).isSome → (p.getLabelFromElement b).isSome →
      p.mergePair a b = (.error .labelContradiction, p)) ∧
    ((p.pairInSameBlock a b = true ∨ p.getLabelFromElement a = none ∨ p.getLabelFromElement b = none) →
      ∃ q, p.mergePair a b = (.ok (), q) ∧ WF q ∧ Labelled q ∧ q.domain = p.domain ∧
        (∀ x y, Eqv q.blocks x y ↔ MergeRel (Eqv p.blocks) a b x y) ∧
        ∀ x, q.getLabelFromElement x = if x ∈ p.elementToBlock a ∨ x ∈ p.elementToBlock b then
            (p.getLabelFromElement a).or (p.getLabelFromElement b)
          else p.getLabelFromElement x) := by
  obtain ⟨m1, m2, m3⟩ := mergeBlockLabels_spec hp hl a b
  have hsame : p.elementToBlock a = p.elementToBlock b ↔ p.pairInSameBlock a b = true := by
    rw [hp.elementToBlock_eq, hp.pairInSameBlock]
    exact ⟨fun h => h.resolve_left hab, Or.inr⟩
  have ha' := (elementInDomain_iff p a).2 ha
  have hb' := (elementInDomain_iff p b).2 hb
  refine ⟨?_, ?_⟩
  · intro hn h1 h2
    have hne : p.elementToBlock a ≠ p.elementToBlock b := by rw [ne_eq, hsame, hn]; simp
    rw [mergePair_eq, if_neg hab, if_neg (by simp [ha', hb']), m2 hne h1 h2]
  · intro h
    by_cases hs : p.elementToBlock a = p.elementToBlock b
    · obtain ⟨q, q1, q2, q3, q4, _, q6⟩ := mergePair_ok hp hab ha' hb' (d := p.blockLabels) (m1 hs)
      have heq : ∀ x y, Eqv q.blocks x y ↔ Eqv p.blocks x y := by
        intro x y
        rw [q6]
        exact (mergeRel_of_eqv hp.canon (Or.inr ((hp.pairInSameBlock a b).1 (hsame.1 hs))) x y).symm
      have hblk : ∀ x, q.elementToBlock x = p.elementToBlock x := fun x => elementToBlock_congr q2 hp (heq x)
      refine ⟨q, q1, q2, ⟨?_, ?_, ?_⟩, q3, q6, ?_⟩
      · rw [q4]; exact hl.keys
      · rw [q4]; exact hl.inj
      · intro B l hB
        rw [q4] at hB
        obtain ⟨x, hx⟩ := hl.blocks B l hB
        exact ⟨x, by rw [hblk, hx]⟩
      · intro x
        unfold SetPart.getLabelFromElement SetPart.getLabelFromBlock
        rw [hblk, q4, ← hs, Option.or_self]
        split
        · next hx =>
          rw [or_self] at hx
          rw [(hp.elementToBlock_eq a x).2 (((hp.mem_elementToBlock a x).1 hx).imp_left Eq.symm)]
        · rfl
    · have h' : p.getLabelFromElement a = none ∨ p.getLabelFromElement b = none := by
        rcases h with h | h
        · exact absurd (hsame.2 h) hs
        · exact h
      obtain ⟨d, d1, d2, d3⟩ := m3 hs h'
      obtain ⟨q, q1, q2, q3, q4, _, q6⟩ := mergePair_ok hp hab ha' hb' d1
      have hin : ∀ {z x}, x ∈ p.elementToBlock z ↔ Eqv p.blocks x z := by
        intro z x
        rw [hp.mem_elementToBlock]
        exact ⟨fun h => h.imp_right Canon.symm, fun h => h.imp_right Canon.symm⟩
      have hunited : ∀ x, (x ∈ p.elementToBlock a ∨ x ∈ p.elementToBlock b) →
          q.elementToBlock x = sortZ (p.elementToBlock a ++ p.elementToBlock b) := by
        intro x hx
        have hnd : (p.elementToBlock a ++ p.elementToBlock b).Nodup := by
          rw [List.nodup_append']
          refine ⟨nodup_of_lt (hp.elementToBlock_lt a), nodup_of_lt (hp.elementToBlock_lt b), ?_⟩
          intro y hya hyb
          rw [hin] at hya hyb
          exact hs ((hp.elementToBlock_eq a b).2 (hya.symm.trans hp.canon hyb))
        apply eq_of_mem_iff (q2.elementToBlock_lt x) (sortZ_lt hnd)
        intro y
        rw [mem_sortZ, List.mem_append, hin, hin]
        have hqin : y ∈ q.elementToBlock x ↔ Eqv q.blocks y x := by
          rw [q2.mem_elementToBlock]
          exact ⟨fun h => h.imp_right Canon.symm, fun h => h.imp_right Canon.symm⟩
        rw [hin, hin] at hx
        rw [hqin, q6]
        unfold MergeRel
        constructor
        · rintro (h | h | h)
          · exact hx.imp (fun hx => h.trans hp.canon hx) (fun hx => h.trans hp.canon hx)
          · exact Or.inl h.1
          · exact Or.inr h.1
        · rintro (h | h)
          · rcases hx with hx | hx
            · exact Or.inl (h.trans hp.canon hx.symm)
            · exact Or.inr (Or.inl ⟨h, hx.symm⟩)
          · rcases hx with hx | hx
            · exact Or.inr (Or.inr ⟨h, hx.symm⟩)
            · exact Or.inl (h.trans hp.canon hx.symm)
      have hother : ∀ x, ¬ (x ∈ p.elementToBlock a ∨ x ∈ p.elementToBlock b) → q.elementToBlock x = p.elementToBlock x := by
        intro x hx
        rw [hin, hin, not_or] at hx
        apply elementToBlock_congr q2 hp
        intro y
        rw [q6]
        unfold MergeRel
        constructor
        · rintro (h | h | h)
          · exact h
          · exact absurd h.1 hx.1
          · exact absurd h.1 hx.2
        · exact Or.inl
      have hlab : ∀ x, q.getLabelFromElement x = if x ∈ p.elementToBlock a ∨ x ∈ p.elementToBlock b then
            (p.getLabelFromElement a).or (p.getLabelFromElement b) else p.getLabelFromElement x := by
        intro x
        by_cases hx : x ∈ p.elementToBlock a ∨ x ∈ p.elementToBlock b
        · rw [if_pos hx]
          unfold SetPart.getLabelFromElement SetPart.getLabelFromBlock at *
          rw [hunited x hx, q4, d3, if_pos rfl]
        · rw [if_neg hx]
          have hself : ∀ z, z ∈ p.elementToBlock z := fun z => hin.2 (Or.inl rfl)
          have hxx := hself x
          unfold SetPart.getLabelFromElement SetPart.getLabelFromBlock at *
          rw [hother x hx, q4, d3, if_neg, if_neg]
          · rintro (he | he)
            · exact hx (Or.inl (he ▸ hxx))
            · exact hx (Or.inr (he ▸ hxx))
          · intro he
            rw [he, mem_sortZ, List.mem_append] at hxx
            exact hx hxx
      have hsrc : ∀ B l, q.blockLabels.get? B = some l → (∃ x, q.elementToBlock x = B) ∧
          ((B = sortZ (p.elementToBlock a ++ p.elementToBlock b) ∧
            (p.blockLabels.get? (p.elementToBlock a) = some l ∨ p.blockLabels.get? (p.elementToBlock b) = some l)) ∨
           (p.blockLabels.get? B = some l ∧ B ≠ p.elementToBlock a ∧ B ≠ p.elementToBlock b)) := by
        intro B l hB
        rw [q4, d3] at hB
        split at hB
        · next he =>
          refine ⟨⟨a, by rw [he]; exact hunited a (Or.inl (hin.2 (Or.inl rfl)))⟩, Or.inl ⟨he, ?_⟩⟩
          rcases Option.or_eq_some_iff.1 hB with h | h
          · exact Or.inl h
          · exact Or.inr h.2
        · split at hB
          · cases hB
          · next hnot =>
            rw [not_or] at hnot
            obtain ⟨x, hx⟩ := hl.blocks B l hB
            refine ⟨⟨x, ?_⟩, Or.inr ⟨hB, hnot.1, hnot.2⟩⟩
            rw [← hx]
            apply hother
            rintro (h | h)
            · exact hnot.1 (hx ▸ (hp.elementToBlock_eq x a).2 (hin.1 h))
            · exact hnot.2 (hx ▸ (hp.elementToBlock_eq x b).2 (hin.1 h))
      refine ⟨q, q1, q2, ⟨?_, ?_, ?_⟩, q3, q6, hlab⟩
      · rw [q4]; exact d2
      · intro B C l hB hC
        obtain ⟨_, hB'⟩ := hsrc B l hB
        obtain ⟨_, hC'⟩ := hsrc C l hC
        rcases hB' with ⟨e1, hB'⟩ | ⟨hB', n1, n2⟩
        · rcases hC' with ⟨e2, _⟩ | ⟨hC', n3, n4⟩
          · rw [e1, e2]
          · rcases hB' with h | h
            · exact absurd (hl.inj _ _ _ hC' h) n3
            · exact absurd (hl.inj _ _ _ hC' h) n4
        · rcases hC' with ⟨e2, hC'⟩ | ⟨hC', _, _⟩
          · rcases hC' with h | h
            · exact absurd (hl.inj _ _ _ hB' h) n1
            · exact absurd (hl.inj _ _ _ hB' h) n2
          · exact hl.inj _ _ _ hB' hC'
      · intro B l hB; exact (hsrc B l hB).1

end Verif.SP
