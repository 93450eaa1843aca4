import Verif.SetPartComp.Ops

/-! Helper lemmas: what each case of `set_equal` and `set_comp` does. -/

namespace Verif.SPC
open Verif.Py Verif.SP

/-- The last step: adding the pair of the representatives of `u` and `w` to a state `t` with fewer pairs. -/
theorem finish {s t : SetPartComp} (h : Inv s) (hwf : WF t.equalPart) (hd : t.equalPart.domain = .Z)
    (hl : t.equalPart.blockLabels = []) (T : Int → Prop)
    (hT : ∀ x, ¬ T x → ∀ y, Eqv t.equalPart.blocks x y ↔ Eqv s.equalPart.blocks x y)
    (hTc : ∀ x y, Eqv t.equalPart.blocks x y → T x → T y)
    (hRn : t.compPairs.Nodup) (hR : ∀ ab ∈ t.compPairs, ab ∈ s.compPairs ∧ ¬ T ab.1 ∧ ¬ T ab.2)
    {u w : Int} (hu : T u) (hw : T w) (huw : ¬ Eqv t.equalPart.blocks u w) :
    ∃ s', t.addPair (pair (t.representative u) (t.representative w)) = (.ok (), s') ∧ Inv s' ∧
      ∀ v, Sat s' v ↔ (∀ x y, Eqv t.equalPart.blocks x y → v x = v y) ∧ (∀ ab ∈ t.compPairs, v ab.1 ≠ v ab.2) ∧ v u ≠ v w := by
  rw [representative_eq hwf, representative_eq hwf]
  have hnew : pair (t.equalPart.rep u) (t.equalPart.rep w) ∉ t.compPairs := by
    intro hm
    obtain ⟨_, h1, h2⟩ := hR _ hm
    have hTu : T (t.equalPart.rep u) := hTc _ _ (rep_eqv hwf u) hu
    rcases pair_cases (t.equalPart.rep u) (t.equalPart.rep w) with e | e <;> rw [e] at h1 h2
    · exact h1 hTu
    · exact h2 hTu
  rw [addPair_new hnew]
  refine ⟨_, rfl, rebuild h hwf hd hl T hT hTc t.compPairs hRn hR (Or.inr ⟨u, w, hu, hw, huw, rfl⟩), ?_⟩
  intro v
  unfold Sat
  simp only
  refine and_congr_right (fun hv => ?_)
  have hr : ∀ x, v (t.equalPart.rep x) = v x := fun x => (hv _ _ (rep_eqv hwf x)).symm
  constructor
  · intro hall
    refine ⟨fun ab hab => hall ab (by simp [hab]), ?_⟩
    have := hall _ (List.mem_append_right _ (List.mem_singleton.2 rfl))
    rwa [pair_ne, hr, hr] at this
  · rintro ⟨h1, h2⟩ ab hab
    rcases List.mem_append.1 hab with hab | hab
    · exact h1 ab hab
    · rw [List.mem_singleton] at hab
      subst hab
      rw [pair_ne, hr, hr]
      exact h2

theorem eqv_refl' (bs : List (List Int)) (x : Int) : Eqv bs x x := Or.inl rfl

/-- pairs other than one of them -/
theorem mem_erase' {l : List (Int × Int)} (h : l.Nodup) {ab cd : Int × Int} : ab ∈ l.erase cd ↔ ab ≠ cd ∧ ab ∈ l :=
  h.mem_erase_iff

theorem sat_split {s : SetPartComp} (h : Inv s) {v : Int → Bool} {a c : Int} (hc : pair (s.equalPart.rep a) c ∈ s.compPairs) :
    Sat s v ↔ (∀ x y, Eqv s.equalPart.blocks x y → v x = v y) ∧
      (∀ ab ∈ s.compPairs.erase (pair (s.equalPart.rep a) c), v ab.1 ≠ v ab.2) ∧ v a ≠ v c := by
  unfold Sat
  refine and_congr_right (fun hv => ?_)
  constructor
  · intro hall
    refine ⟨fun ab hab => hall ab (List.mem_of_mem_erase hab), ?_⟩
    have := hall _ hc
    rwa [pair_ne, sat_rep h hv] at this
  · rintro ⟨h1, h2⟩ ab hab
    by_cases e : ab = pair (s.equalPart.rep a) c
    · subst e; rw [pair_ne, sat_rep h hv]; exact h2
    · exact h1 ab ((mem_erase' h.nodup).2 ⟨e, hab⟩)

theorem sat_split2 {s : SetPartComp} (h : Inv s) {v : Int → Bool} {a c b d : Int}
    (hc : pair (s.equalPart.rep a) c ∈ s.compPairs) (hd : pair (s.equalPart.rep b) d ∈ s.compPairs) :
    Sat s v ↔ (∀ x y, Eqv s.equalPart.blocks x y → v x = v y) ∧
      (∀ ab ∈ (s.compPairs.erase (pair (s.equalPart.rep a) c)).erase (pair (s.equalPart.rep b) d), v ab.1 ≠ v ab.2) ∧
      v a ≠ v c ∧ v b ≠ v d := by
  unfold Sat
  refine and_congr_right (fun hv => ?_)
  constructor
  · intro hall
    refine ⟨fun ab hab => hall ab (List.mem_of_mem_erase (List.mem_of_mem_erase hab)), ?_, ?_⟩
    · have := hall _ hc
      rwa [pair_ne, sat_rep h hv] at this
    · have := hall _ hd
      rwa [pair_ne, sat_rep h hv] at this
  · rintro ⟨h1, h2, h3⟩ ab hab
    by_cases e : ab = pair (s.equalPart.rep a) c
    · subst e; rw [pair_ne, sat_rep h hv]; exact h2
    · by_cases e' : ab = pair (s.equalPart.rep b) d
      · subst e'; rw [pair_ne, sat_rep h hv]; exact h3
      · exact h1 ab ((mem_erase' (h.nodup.erase _)).2 ⟨e', (mem_erase' h.nodup).2 ⟨e, hab⟩⟩)

/-- being in one of the merged classes is closed under the merged relation -/
theorem mergeRel_closed {bs : List (List Int)} {a b x y : Int} (h : MergeRel (Eqv bs) a b x y) (T : Int → Prop)
    (hT : ∀ x y, Eqv bs x y → T x → T y) (hab : T a ↔ T b) (hx : T x) : T y := by
  rcases h with h | ⟨h1, h2⟩ | ⟨h1, h2⟩
  · exact hT _ _ h hx
  · exact hT _ _ h2 (hab.1 (hT _ _ h1 hx))
  · exact hT _ _ h2 (hab.2 (hT _ _ h1 hx))

/-- Two merges. -/
theorem merge2_spec {p : SetPart Unit} (hp : WF p) (hd : p.domain = .Z) (hl : p.blockLabels = []) (a b c d : Int) :
    ∃ q r, p.mergePair a b = (.ok (), q) ∧ q.mergePair c d = (.ok (), r) ∧ WF r ∧ r.domain = .Z ∧ r.blockLabels = [] ∧
      (∀ v : Int → Bool, (∀ x y, Eqv r.blocks x y → v x = v y) ↔
        (∀ x y, Eqv p.blocks x y → v x = v y) ∧ v a = v b ∧ v c = v d) ∧
      (∀ x, ¬ Eqv p.blocks x a → ¬ Eqv p.blocks x b → ¬ Eqv p.blocks x c → ¬ Eqv p.blocks x d →
        ∀ y, Eqv r.blocks x y ↔ Eqv p.blocks x y) ∧
      (∀ T : Int → Prop, (∀ x y, Eqv p.blocks x y → T x → T y) → (T a ↔ T b) → (T c ↔ T d) →
        ∀ x y, Eqv r.blocks x y → T x → T y) := by
  obtain ⟨q, q1, q2, q3, q4, q5⟩ := merge_spec hp hd hl a b
  obtain ⟨r, r1, r2, r3, r4, r5⟩ := merge_spec q2 q3 q4 c d
  refine ⟨q, r, q1, r1, r2, r3, r4, ?_, ?_, ?_⟩
  · intro v
    have h1 := mergeRel_sat (eqv_refl' p.blocks) v a b
    have h2 := mergeRel_sat (eqv_refl' q.blocks) v c d
    simp only [r5, q5] at h2 ⊢
    have e : (fun x y => Eqv q.blocks x y) = (fun x y => MergeRel (Eqv p.blocks) a b x y) := by
      funext x y; exact propext (q5 x y)
    rw [h2, h1, and_assoc]
  · intro x ha hb hc hd y
    rw [r5, mergeRel_untouched, q5, mergeRel_untouched ha hb]
    · rw [q5, mergeRel_untouched ha hb]; exact hc
    · rw [q5, mergeRel_untouched ha hb]; exact hd
  · intro T hT hab hcd x y hxy hx
    rw [r5] at hxy
    refine mergeRel_closed hxy T ?_ hcd hx
    intro x y hxy hx
    rw [q5] at hxy
    exact mergeRel_closed hxy T hT hab hx

/-- One merge. -/
theorem merge1_spec {p : SetPart Unit} (hp : WF p) (hd : p.domain = .Z) (hl : p.blockLabels = []) (a b : Int) :
    ∃ q, p.mergePair a b = (.ok (), q) ∧ WF q ∧ q.domain = .Z ∧ q.blockLabels = [] ∧
      (∀ v : Int → Bool, (∀ x y, Eqv q.blocks x y → v x = v y) ↔ (∀ x y, Eqv p.blocks x y → v x = v y) ∧ v a = v b) ∧
      (∀ x, ¬ Eqv p.blocks x a → ¬ Eqv p.blocks x b → ∀ y, Eqv q.blocks x y ↔ Eqv p.blocks x y) ∧
      (∀ T : Int → Prop, (∀ x y, Eqv p.blocks x y → T x → T y) → (T a ↔ T b) → ∀ x y, Eqv q.blocks x y → T x → T y) := by
  obtain ⟨q, q1, q2, q3, q4, q5⟩ := merge_spec hp hd hl a b
  refine ⟨q, q1, q2, q3, q4, ?_, ?_, ?_⟩
  · intro v
    simp only [q5]
    exact mergeRel_sat (eqv_refl' p.blocks) v a b
  · intro x ha hb y
    rw [q5, mergeRel_untouched ha hb]
  · intro T hT hab x y hxy hx
    rw [q5] at hxy
    exact mergeRel_closed hxy T hT hab hx

theorem class_closed {bs : List (List Int)} (hb : Canon bs) (l : List Int) :
    ∀ x y, Eqv bs x y → (∃ z ∈ l, Eqv bs x z) → ∃ z ∈ l, Eqv bs y z := by
  rintro x y hxy ⟨z, hz, h⟩
  exact ⟨z, hz, hxy.symm.trans hb h⟩

theorem setEqual_no_comp {s : SetPartComp} (h : Inv s) {a b : Int} (ha : s.getComp a = none) (hb : s.getComp b = none) :
    Entered s (.eq a b) (s.mergePair a b) := by
  obtain ⟨q, q1, q2, q3, q4, q5, q6, q7⟩ := merge1_spec h.wf h.domain h.labels a b
  refine ⟨{ s with equalPart := q }, by unfold SetPartComp.mergePair; rw [q1], ?_, ?_⟩
  · refine rebuild h q2 q3 q4 (fun x => ∃ z ∈ [a, b], Eqv s.equalPart.blocks x z) ?_ ?_ s.compPairs h.nodup ?_ (Or.inl rfl)
    · intro x hx
      simp only [List.mem_cons, List.not_mem_nil, or_false, exists_eq_or_imp, exists_eq_left, not_or] at hx
      exact q6 x hx.1 hx.2
    · exact q7 _ (class_closed h.wf.canon [a, b])
        ⟨fun _ => ⟨b, by simp, Or.inl rfl⟩, fun _ => ⟨a, by simp, Or.inl rfl⟩⟩
    · intro ab hab
      have h1 := h.untouched ha hab
      have h2 := h.untouched hb hab
      refine ⟨hab, ?_, ?_⟩
      · simp only [List.mem_cons, List.not_mem_nil, or_false, exists_eq_or_imp, exists_eq_left, not_or]; exact ⟨h1.1, h2.1⟩
      · simp only [List.mem_cons, List.not_mem_nil, or_false, exists_eq_or_imp, exists_eq_left, not_or]; exact ⟨h1.2, h2.2⟩
  · intro v
    unfold Sat Fact.Holds
    simp only [q5]
    tauto

theorem setEqual_first {s : SetPartComp} (h : Inv s) {a b c : Int} (hc : pair (s.equalPart.rep a) c ∈ s.compPairs)
    (hb : s.getComp b = none) (hne : ∃ v, Sat s v ∧ v a = v b) :
    Entered s (.eq a b) (s.setEqualFirstComp a b c) := by
  obtain ⟨q, q1, q2, q3, q4, q5, q6, q7⟩ := merge1_spec h.wf h.domain h.labels a b
  have hrem := removePair_mem hc
  have hsat : ∀ v, Sat s v ↔ _ := fun v => sat_split h (v := v) hc
  refine Exists.elim (finish (s := s)
    (t := { equalPart := q, compPairs := s.compPairs.erase (pair (s.equalPart.rep a) c) }) h q2 q3 q4
    (fun x => ∃ z ∈ [a, b, c], Eqv s.equalPart.blocks x z) (u := a) (w := c) ?_ ?_ (h.nodup.erase _) ?_ ?_ ?_ ?_) ?_
  · intro x hx
    simp only [List.mem_cons, List.not_mem_nil, or_false, exists_eq_or_imp, exists_eq_left, not_or] at hx
    exact q6 x hx.1 hx.2.1
  · exact q7 _ (class_closed h.wf.canon [a, b, c])
      ⟨fun _ => ⟨b, by simp, Or.inl rfl⟩, fun _ => ⟨a, by simp, Or.inl rfl⟩⟩
  · intro ab hab
    obtain ⟨hab1, hab2⟩ := (mem_erase' h.nodup).1 hab
    have h1 := h.untouched_comp hc hab2 hab1
    have h2 := h.untouched hb hab2
    refine ⟨hab2, ?_, ?_⟩ <;>
      simp only [List.mem_cons, List.not_mem_nil, or_false, exists_eq_or_imp, exists_eq_left, not_or]
    · exact ⟨h1.1, h2.1, h1.2.2.1⟩
    · exact ⟨h1.2.1, h2.2, h1.2.2.2⟩
  · exact ⟨a, by simp, Or.inl rfl⟩
  · exact ⟨c, by simp, Or.inl rfl⟩
  · intro hac
    obtain ⟨v, hv, hab⟩ := hne
    obtain ⟨v1, _, v3⟩ := (hsat v).1 hv
    exact v3 ((q5 v).2 ⟨v1, hab⟩ a c hac)
  · rintro s' ⟨e, hi, hs⟩
    refine ⟨s', ?_, hi, ?_⟩
    · unfold SetPartComp.setEqualFirstComp
      simp only [representative_eq h.wf, hrem]
      simp only [andThen]
      unfold SetPartComp.mergePair
      rw [q1]
      exact e
    · intro v
      rw [hs, hsat]
      unfold Fact.Holds
      simp only [q5]
      tauto

theorem setEqual_both {s : SetPartComp} (h : Inv s) {a b c d : Int} (hc : pair (s.equalPart.rep a) c ∈ s.compPairs)
    (hd : pair (s.equalPart.rep b) d ∈ s.compPairs) (hab : ¬ Eqv s.equalPart.blocks a b) (hne : ∃ v, Sat s v ∧ v a = v b) :
    Entered s (.eq a b) (s.setEqualBothComp a b c d) := by
  obtain ⟨q, r, q1, q2, q3, q4, q5, q6, q7, q8⟩ := merge2_spec h.wf h.domain h.labels a b c d
  have hsat : ∀ v, Sat s v ↔ _ := fun v => sat_split2 h (v := v) hc hd
  have hdiff : pair (s.equalPart.rep b) d ≠ pair (s.equalPart.rep a) c := by
    intro e
    -- then `b` is equal to `a` or complementary to it
    obtain ⟨v, hv, hvab⟩ := hne
    have hvd := ((hsat v).1 hv).2.2
    have hm : s.equalPart.rep b = s.equalPart.rep a ∨ s.equalPart.rep b = c := by
      have := (mem_pair (a := s.equalPart.rep b) (b := d) (x := s.equalPart.rep b)).2 (Or.inl rfl)
      rw [e] at this
      exact mem_pair.1 this
    rcases hm with hm | hm
    · exact hab (eqv_of_rep h.wf hm.symm)
    · have := sat_rep h hv.1 b
      rw [hm] at this
      exact hvd.1 (hvab.trans this.symm)
  have hrem := removePair_mem hc
  have hrem2 := removePair_mem (s := { s with compPairs := s.compPairs.erase (pair (s.equalPart.rep a) c) })
    ((mem_erase' h.nodup).2 ⟨hdiff, hd⟩)
  refine Exists.elim (finish (s := s)
    (t := { equalPart := r, compPairs := (s.compPairs.erase (pair (s.equalPart.rep a) c)).erase (pair (s.equalPart.rep b) d) })
    h q3 q4 q5
    (fun x => ∃ z ∈ [a, b, c, d], Eqv s.equalPart.blocks x z) (u := a) (w := c) ?_ ?_ ((h.nodup.erase _).erase _) ?_ ?_ ?_ ?_) ?_
  · intro x hx
    simp only [List.mem_cons, List.not_mem_nil, or_false, exists_eq_or_imp, exists_eq_left, not_or] at hx
    exact q7 x hx.1 hx.2.1 hx.2.2.1 hx.2.2.2
  · exact q8 _ (class_closed h.wf.canon [a, b, c, d])
      ⟨fun _ => ⟨b, by simp, Or.inl rfl⟩, fun _ => ⟨a, by simp, Or.inl rfl⟩⟩
      ⟨fun _ => ⟨d, by simp, Or.inl rfl⟩, fun _ => ⟨c, by simp, Or.inl rfl⟩⟩
  · intro ab hab
    obtain ⟨hab1, hab2⟩ := (mem_erase' (h.nodup.erase _)).1 hab
    obtain ⟨hab3, hab4⟩ := (mem_erase' h.nodup).1 hab2
    have h1 := h.untouched_comp hc hab4 hab3
    have h2 := h.untouched_comp hd hab4 hab1
    refine ⟨hab4, ?_, ?_⟩ <;>
      simp only [List.mem_cons, List.not_mem_nil, or_false, exists_eq_or_imp, exists_eq_left, not_or]
    · exact ⟨h1.1, h2.1, h1.2.2.1, h2.2.2.1⟩
    · exact ⟨h1.2.1, h2.2.1, h1.2.2.2, h2.2.2.2⟩
  · exact ⟨a, by simp, Or.inl rfl⟩
  · exact ⟨c, by simp, Or.inl rfl⟩
  · intro hac
    obtain ⟨v, hv, hab⟩ := hne
    obtain ⟨v1, _, v3, v4⟩ := (hsat v).1 hv
    have hcd : v c = v d := by
      revert v3 v4 hab
      generalize v a = x; generalize v b = y; generalize v c = z; generalize v d = w
      revert x y z w; decide
    exact v3 ((q6 v).2 ⟨v1, hab, hcd⟩ a c hac)
  · rintro s' ⟨e, hi, hs⟩
    refine ⟨s', ?_, hi, ?_⟩
    · unfold SetPartComp.setEqualBothComp
      simp only [representative_eq h.wf, hrem]
      simp only [andThen]
      rw [hrem2]
      simp only
      unfold SetPartComp.mergePair
      simp only [q1, q2]
      exact e
    · intro v
      rw [hs, hsat]
      unfold Fact.Holds
      simp only [q6]
      have hbool : ∀ p q r t : Bool, ((p = q ∧ r = t) ∧ p ≠ r) ↔ ((p ≠ r ∧ q ≠ t) ∧ p = q) := by decide
      have := hbool (v a) (v b) (v c) (v d)
      tauto

theorem setComp_no_comp {s : SetPartComp} (h : Inv s) {a b : Int} (ha : s.getComp a = none) (hb : s.getComp b = none)
    (hab : ¬ Eqv s.equalPart.blocks a b) :
    Entered s (.comp a b) (s.addPair (pair (s.representative a) (s.representative b))) := by
  refine Exists.elim (finish (s := s) (t := s) h h.wf h.domain h.labels
    (fun x => ∃ z ∈ [a, b], Eqv s.equalPart.blocks x z) (u := a) (w := b) (fun _ _ _ => Iff.rfl)
    (class_closed h.wf.canon [a, b]) h.nodup ?_ ⟨a, by simp, Or.inl rfl⟩ ⟨b, by simp, Or.inl rfl⟩ hab) ?_
  · intro ab hab
    have h1 := h.untouched ha hab
    have h2 := h.untouched hb hab
    refine ⟨hab, ?_, ?_⟩ <;>
      simp only [List.mem_cons, List.not_mem_nil, or_false, exists_eq_or_imp, exists_eq_left, not_or]
    · exact ⟨h1.1, h2.1⟩
    · exact ⟨h1.2, h2.2⟩
  · rintro s' ⟨e, hi, hs⟩
    refine ⟨s', e, hi, fun v => ?_⟩
    rw [hs]
    unfold Sat Fact.Holds
    tauto

theorem setComp_first {s : SetPartComp} (h : Inv s) {a b c : Int} (hc : pair (s.equalPart.rep a) c ∈ s.compPairs)
    (hb : s.getComp b = none) (hne : ∃ v, Sat s v ∧ v a ≠ v b) :
    Entered s (.comp a b) (s.setCompFirstComp a b c) := by
  obtain ⟨q, q1, q2, q3, q4, q5, q6, q7⟩ := merge1_spec h.wf h.domain h.labels c b
  have hrem := removePair_mem hc
  have hsat : ∀ v, Sat s v ↔ _ := fun v => sat_split h (v := v) hc
  refine Exists.elim (finish (s := s)
    (t := { equalPart := q, compPairs := s.compPairs.erase (pair (s.equalPart.rep a) c) }) h q2 q3 q4
    (fun x => ∃ z ∈ [a, b, c], Eqv s.equalPart.blocks x z) (u := a) (w := b) ?_ ?_ (h.nodup.erase _) ?_ ?_ ?_ ?_) ?_
  · intro x hx
    simp only [List.mem_cons, List.not_mem_nil, or_false, exists_eq_or_imp, exists_eq_left, not_or] at hx
    exact q6 x hx.2.2 hx.2.1
  · exact q7 _ (class_closed h.wf.canon [a, b, c])
      ⟨fun _ => ⟨b, by simp, Or.inl rfl⟩, fun _ => ⟨c, by simp, Or.inl rfl⟩⟩
  · intro ab hab
    obtain ⟨hab1, hab2⟩ := (mem_erase' h.nodup).1 hab
    have h1 := h.untouched_comp hc hab2 hab1
    have h2 := h.untouched hb hab2
    refine ⟨hab2, ?_, ?_⟩ <;>
      simp only [List.mem_cons, List.not_mem_nil, or_false, exists_eq_or_imp, exists_eq_left, not_or]
    · exact ⟨h1.1, h2.1, h1.2.2.1⟩
    · exact ⟨h1.2.1, h2.2, h1.2.2.2⟩
  · exact ⟨a, by simp, Or.inl rfl⟩
  · exact ⟨b, by simp, Or.inl rfl⟩
  · intro hac
    obtain ⟨v, hv, hab⟩ := hne
    obtain ⟨v1, _, v3⟩ := (hsat v).1 hv
    have hcb : v c = v b := by
      revert v3 hab
      generalize v a = x; generalize v b = y; generalize v c = z
      revert x y z; decide
    exact hab ((q5 v).2 ⟨v1, hcb⟩ a b hac)
  · rintro s' ⟨e, hi, hs⟩
    refine ⟨s', ?_, hi, ?_⟩
    · unfold SetPartComp.setCompFirstComp
      simp only [representative_eq h.wf, hrem]
      simp only [andThen]
      unfold SetPartComp.mergePair
      rw [q1]
      exact e
    · intro v
      rw [hs, hsat]
      unfold Fact.Holds
      simp only [q5]
      have hbool : ∀ p q r : Bool, (r = q ∧ p ≠ q) ↔ (p ≠ r ∧ p ≠ q) := by decide
      have := hbool (v a) (v b) (v c)
      tauto

theorem setComp_both {s : SetPartComp} (h : Inv s) {a b c d : Int} (hc : pair (s.equalPart.rep a) c ∈ s.compPairs)
    (hd : pair (s.equalPart.rep b) d ∈ s.compPairs) (hcomp : pair (s.equalPart.rep a) (s.equalPart.rep b) ∉ s.compPairs)
    (hne : ∃ v, Sat s v ∧ v a ≠ v b) :
    Entered s (.comp a b) (s.setCompBothComp a b c d) := by
  obtain ⟨q, r, q1, q2, q3, q4, q5, q6, q7, q8⟩ := merge2_spec h.wf h.domain h.labels a d b c
  have hsat : ∀ v, Sat s v ↔ _ := fun v => sat_split2 h (v := v) hc hd
  have hdiff : pair (s.equalPart.rep b) d ≠ pair (s.equalPart.rep a) c := by
    intro e
    obtain ⟨v, hv, hvab⟩ := hne
    have hm : s.equalPart.rep b = s.equalPart.rep a ∨ s.equalPart.rep b = c := by
      have := (mem_pair (a := s.equalPart.rep b) (b := d) (x := s.equalPart.rep b)).2 (Or.inl rfl)
      rw [e] at this
      exact mem_pair.1 this
    rcases hm with hm | hm
    · exact hvab (hv.1 _ _ (eqv_of_rep h.wf hm.symm))
    · rw [hm] at hcomp
      exact hcomp hc
  have hrem := removePair_mem hc
  have hrem2 := removePair_mem (s := { s with compPairs := s.compPairs.erase (pair (s.equalPart.rep a) c) })
    ((mem_erase' h.nodup).2 ⟨hdiff, hd⟩)
  refine Exists.elim (finish (s := s)
    (t := { equalPart := r, compPairs := (s.compPairs.erase (pair (s.equalPart.rep a) c)).erase (pair (s.equalPart.rep b) d) })
    h q3 q4 q5
    (fun x => ∃ z ∈ [a, b, c, d], Eqv s.equalPart.blocks x z) (u := a) (w := c) ?_ ?_ ((h.nodup.erase _).erase _) ?_ ?_ ?_ ?_) ?_
  · intro x hx
    simp only [List.mem_cons, List.not_mem_nil, or_false, exists_eq_or_imp, exists_eq_left, not_or] at hx
    exact q7 x hx.1 hx.2.2.2 hx.2.1 hx.2.2.1
  · exact q8 _ (class_closed h.wf.canon [a, b, c, d])
      ⟨fun _ => ⟨d, by simp, Or.inl rfl⟩, fun _ => ⟨a, by simp, Or.inl rfl⟩⟩
      ⟨fun _ => ⟨c, by simp, Or.inl rfl⟩, fun _ => ⟨b, by simp, Or.inl rfl⟩⟩
  · intro ab hab
    obtain ⟨hab1, hab2⟩ := (mem_erase' (h.nodup.erase _)).1 hab
    obtain ⟨hab3, hab4⟩ := (mem_erase' h.nodup).1 hab2
    have h1 := h.untouched_comp hc hab4 hab3
    have h2 := h.untouched_comp hd hab4 hab1
    refine ⟨hab4, ?_, ?_⟩ <;>
      simp only [List.mem_cons, List.not_mem_nil, or_false, exists_eq_or_imp, exists_eq_left, not_or]
    · exact ⟨h1.1, h2.1, h1.2.2.1, h2.2.2.1⟩
    · exact ⟨h1.2.1, h2.2.1, h1.2.2.2, h2.2.2.2⟩
  · exact ⟨a, by simp, Or.inl rfl⟩
  · exact ⟨c, by simp, Or.inl rfl⟩
  · intro hac
    obtain ⟨v, hv, hab⟩ := hne
    obtain ⟨v1, _, v3, v4⟩ := (hsat v).1 hv
    have hx : v a = v d ∧ v b = v c := by
      revert v3 v4 hab
      generalize v a = x; generalize v b = y; generalize v c = z; generalize v d = w
      revert x y z w; decide
    exact v3 ((q6 v).2 ⟨v1, hx⟩ a c hac)
  · rintro s' ⟨e, hi, hs⟩
    refine ⟨s', ?_, hi, ?_⟩
    · unfold SetPartComp.setCompBothComp
      simp only [representative_eq h.wf, hrem]
      simp only [andThen]
      rw [hrem2]
      simp only
      unfold SetPartComp.mergePair
      simp only [q1, q2]
      exact e
    · intro v
      rw [hs, hsat]
      unfold Fact.Holds
      simp only [q6]
      have hbool : ∀ p q r t : Bool, ((p = t ∧ q = r) ∧ p ≠ r) ↔ ((p ≠ r ∧ q ≠ t) ∧ p ≠ q) := by decide
      have := hbool (v a) (v b) (v c) (v d)
      tauto

theorem Entered.symm_eq {s : SetPartComp} {a b : Int} {r : Except Err Unit × SetPartComp} (h : Entered s (.eq a b) r) :
    Entered s (.eq b a) r := by
  obtain ⟨s', h1, h2, h3⟩ := h
  exact ⟨s', h1, h2, fun v => (h3 v).trans (and_congr_right fun _ => eq_comm)⟩

theorem Entered.symm_comp {s : SetPartComp} {a b : Int} {r : Except Err Unit × SetPartComp} (h : Entered s (.comp a b) r) :
    Entered s (.comp b a) r := by
  obtain ⟨s', h1, h2, h3⟩ := h
  exact ⟨s', h1, h2, fun v => (h3 v).trans (and_congr_right fun _ => ne_comm)⟩

/-- `set_equal` with different arguments -/
theorem setEqual_spec {s : SetPartComp} (h : Inv s) {a b : Int} (hab : a ≠ b) :
    (∃ v, Sat s v ∧ v a = v b) ∧ Entered s (.eq a b) (s.setEqual a b) ∨
    (¬ ∃ v, Sat s v ∧ v a = v b) ∧ s.setEqual a b = (.error .setEqualComplements, s) := by
  unfold SetPartComp.setEqual
  by_cases hc : s.areComp a b = true
  · right
    rw [if_pos hc]
    refine ⟨?_, rfl⟩
    rintro ⟨v, hv, e⟩
    exact (comp_iff_sat h a b).1 ((areComp_iff h.wf a b).1 hc) v hv e
  · left
    have hne : ∃ v, Sat s v ∧ v a = v b := by
      by_contra hno
      push Not at hno
      exact hc ((areComp_iff h.wf a b).2 ((comp_iff_sat h a b).2 hno))
    refine ⟨hne, ?_⟩
    rw [if_neg hc]
    by_cases he : s.areEqual a b = true
    · rw [if_pos he]
      refine ⟨s, rfl, h, fun v => ⟨fun hv => ⟨hv, hv.1 _ _ (Or.inr ((areEqual_iff h.wf a b).1 he))⟩, fun hv => hv.1⟩⟩
    · rw [if_neg he]
      have hneqv : ¬ Eqv s.equalPart.blocks a b := by
        rintro (e | e)
        · exact hab e
        · exact he ((areEqual_iff h.wf a b).2 e)
      cases ha : s.getComp a with
      | none =>
        cases hb : s.getComp b with
        | none => exact setEqual_no_comp h ha hb
        | some d =>
          exact (setEqual_first h ((getComp_iff h b d).1 hb) ha
            (by obtain ⟨v, h1, h2⟩ := hne; exact ⟨v, h1, h2.symm⟩)).symm_eq
      | some c =>
        cases hb : s.getComp b with
        | none => exact setEqual_first h ((getComp_iff h a c).1 ha) hb hne
        | some d => exact setEqual_both h ((getComp_iff h a c).1 ha) ((getComp_iff h b d).1 hb) hneqv hne

/-- `set_comp` with different arguments -/
theorem setComp_spec {s : SetPartComp} (h : Inv s) {a b : Int} (hab : a ≠ b) :
    (∃ v, Sat s v ∧ v a ≠ v b) ∧ Entered s (.comp a b) (s.setComp a b) ∨
    (¬ ∃ v, Sat s v ∧ v a ≠ v b) ∧ s.setComp a b = (.error .setCompEquals, s) := by
  unfold SetPartComp.setComp
  by_cases he : s.areEqual a b = true
  · right
    rw [if_pos he]
    refine ⟨?_, rfl⟩
    rintro ⟨v, hv, e⟩
    exact e (hv.1 _ _ (Or.inr ((areEqual_iff h.wf a b).1 he)))
  · left
    have hneqv : ¬ Eqv s.equalPart.blocks a b := by
      rintro (e | e)
      · exact hab e
      · exact he ((areEqual_iff h.wf a b).2 e)
    have hne : ∃ v, Sat s v ∧ v a ≠ v b := by
      by_contra hno
      push Not at hno
      exact hneqv ((eqv_iff_sat h a b).2 hno)
    refine ⟨hne, ?_⟩
    rw [if_neg he]
    by_cases hc : s.areComp a b = true
    · rw [if_pos hc]
      exact ⟨s, rfl, h, fun v => ⟨fun hv => ⟨hv, (comp_iff_sat h a b).1 ((areComp_iff h.wf a b).1 hc) v hv⟩, fun hv => hv.1⟩⟩
    · rw [if_neg hc]
      rw [areComp_iff h.wf] at hc
      cases ha : s.getComp a with
      | none =>
        cases hb : s.getComp b with
        | none => exact setComp_no_comp h ha hb hneqv
        | some d =>
          exact (setComp_first h ((getComp_iff h b d).1 hb) ha
            (by obtain ⟨v, h1, h2⟩ := hne; exact ⟨v, h1, h2.symm⟩)).symm_comp
      | some c =>
        cases hb : s.getComp b with
        | none => exact setComp_first h ((getComp_iff h a c).1 ha) hb hne
        | some d => exact setComp_both h ((getComp_iff h a c).1 ha) ((getComp_iff h b d).1 hb) hc hne

end Verif.SPC
