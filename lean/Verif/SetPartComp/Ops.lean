import Verif.SetPartComp.Basic

/-! Helper lemmas: the cases of `set_equal` and `set_comp`. -/

namespace Verif.SPC
open Verif.Py Verif.SP

/-- Merging in `equal_part` always succeeds. -/
theorem merge_spec {p : SetPart Unit} (hp : WF p) (hd : p.domain = .Z) (hl : p.blockLabels = []) (a b : Int) :
    ∃ q, p.mergePair a b = (.ok (), q) ∧ WF q ∧ q.domain = .Z ∧ q.blockLabels = [] ∧
      ∀ x y, Eqv q.blocks x y ↔ MergeRel (Eqv p.blocks) a b x y := by
  by_cases hab : a = b
  · subst hab
    exact ⟨p, by rw [mergePair_eq, if_pos rfl], hp, hd, hl, fun x y => mergeRel_of_eqv hp.canon (Or.inl rfl) x y⟩
  · have hin : ∀ x, p.elementInDomain x = true := by intro x; unfold SetPart.elementInDomain; rw [hd]
    obtain ⟨q, h1, h2, h3, h4, _, h6⟩ := mergePair_ok hp hab (hin a) (hin b) (mergeBlockLabels_nil hl a b)
    exact ⟨q, h1, h2, h3.trans hd, h4, h6⟩

theorem mergeRel_sat {r : Int → Int → Prop} (hr : ∀ x, r x x) (v : Int → Bool) (a b : Int) :
    (∀ x y, MergeRel r a b x y → v x = v y) ↔ (∀ x y, r x y → v x = v y) ∧ v a = v b := by
  constructor
  · intro h
    exact ⟨fun x y hxy => h x y (Or.inl hxy), h a b (Or.inr (Or.inl ⟨hr a, hr b⟩))⟩
  · rintro ⟨h1, h2⟩ x y (h | ⟨h3, h4⟩ | ⟨h3, h4⟩)
    · exact h1 x y h
    · rw [h1 _ _ h3, h2, h1 _ _ h4]
    · rw [h1 _ _ h3, ← h2, h1 _ _ h4]

/-- The class of an element outside the merged ones stays. -/
theorem mergeRel_untouched {r : Int → Int → Prop} {a b x : Int} (ha : ¬ r x a) (hb : ¬ r x b) (y : Int) :
    MergeRel r a b x y ↔ r x y := by
  constructor
  · rintro (h | h | h)
    · exact h
    · exact absurd h.1 ha
    · exact absurd h.1 hb
  · exact Or.inl

/-- The invariant of a state whose pairs are those of the old one outside the classes in `T`, and possibly a pair in `T`. -/
theorem rebuild {s s' : SetPartComp} (h : Inv s) (hwf : WF s'.equalPart) (hd : s'.equalPart.domain = .Z)
    (hl : s'.equalPart.blockLabels = []) (T : Int → Prop)
    (hT : ∀ x, ¬ T x → ∀ y, Eqv s'.equalPart.blocks x y ↔ Eqv s.equalPart.blocks x y)
    (hTc : ∀ x y, Eqv s'.equalPart.blocks x y → T x → T y)
    (R : List (Int × Int)) (hRn : R.Nodup) (hR : ∀ ab ∈ R, ab ∈ s.compPairs ∧ ¬ T ab.1 ∧ ¬ T ab.2)
    (hP : s'.compPairs = R ∨ ∃ u w, T u ∧ T w ∧ ¬ Eqv s'.equalPart.blocks u w ∧
      s'.compPairs = R ++ [pair (s'.equalPart.rep u) (s'.equalPart.rep w)]) : Inv s' := by
  have hRrep : ∀ ab ∈ R, s'.equalPart.rep ab.1 = ab.1 ∧ s'.equalPart.rep ab.2 = ab.2 := by
    intro ab hab
    obtain ⟨h1, h2, h3⟩ := hR ab hab
    obtain ⟨h4, h5⟩ := h.reps ab h1
    exact ⟨(rep_of_class h.wf hwf (hT _ h2)).trans h4, (rep_of_class h.wf hwf (hT _ h3)).trans h5⟩
  rcases hP with hP | ⟨u, w, hu, hw, huw, hP⟩
  · refine ⟨hwf, hd, hl, ?_, ?_, ?_, by rw [hP]; exact hRn⟩
    · intro ab hab; rw [hP] at hab; exact h.lt _ (hR ab hab).1
    · intro ab hab; rw [hP] at hab; exact hRrep ab hab
    · intro ab hab cd hcd; rw [hP] at hab hcd; exact h.unique _ (hR ab hab).1 _ (hR cd hcd).1
  · have hTu : T (s'.equalPart.rep u) := hTc _ _ (rep_eqv hwf u) hu
    have hTw : T (s'.equalPart.rep w) := hTc _ _ (rep_eqv hwf w) hw
    have hTp : T (pair (s'.equalPart.rep u) (s'.equalPart.rep w)).1 ∧ T (pair (s'.equalPart.rep u) (s'.equalPart.rep w)).2 := by
      rcases pair_cases (s'.equalPart.rep u) (s'.equalPart.rep w) with e | e <;> rw [e]
      · exact ⟨hTu, hTw⟩
      · exact ⟨hTw, hTu⟩
    have hmem : ∀ ab, ab ∈ s'.compPairs ↔ ab ∈ R ∨ ab = pair (s'.equalPart.rep u) (s'.equalPart.rep w) := by
      intro ab; rw [hP, List.mem_append, List.mem_singleton]
    have hclash : ∀ ab ∈ R, ∀ z, T z → ab.1 ≠ z ∧ ab.2 ≠ z := by
      intro ab hab z hz
      obtain ⟨_, h2, h3⟩ := hR ab hab
      exact ⟨fun e => h2 (e ▸ hz), fun e => h3 (e ▸ hz)⟩
    refine ⟨hwf, hd, hl, ?_, ?_, ?_, ?_⟩
    · intro ab hab
      rcases (hmem ab).1 hab with hab | rfl
      · exact h.lt _ (hR ab hab).1
      · have hne : s'.equalPart.rep u ≠ s'.equalPart.rep w := fun e => huw (eqv_of_rep hwf e)
        unfold pair
        split
        · show s'.equalPart.rep u < s'.equalPart.rep w
          omega
        · show s'.equalPart.rep w < s'.equalPart.rep u
          omega
    · intro ab hab
      rcases (hmem ab).1 hab with hab | rfl
      · exact hRrep ab hab
      · rcases pair_cases (s'.equalPart.rep u) (s'.equalPart.rep w) with e | e <;> rw [e] <;>
          exact ⟨rep_rep hwf _, rep_rep hwf _⟩
    · intro ab hab cd hcd hor
      rcases (hmem ab).1 hab with hab | rfl <;> rcases (hmem cd).1 hcd with hcd | rfl
      · exact h.unique _ (hR ab hab).1 _ (hR cd hcd).1 hor
      · have h1 := hclash ab hab _ hTp.1
        have h2 := hclash ab hab _ hTp.2
        rcases hor with e | e | e | e
        · exact absurd e h1.1
        · exact absurd e h2.1
        · exact absurd e h1.2
        · exact absurd e h2.2
      · have h1 := hclash cd hcd _ hTp.1
        have h2 := hclash cd hcd _ hTp.2
        rcases hor with e | e | e | e
        · exact absurd e.symm h1.1
        · exact absurd e.symm h1.2
        · exact absurd e.symm h2.1
        · exact absurd e.symm h2.2
      · rfl
    · rw [hP, List.nodup_append']
      refine ⟨hRn, by simp, ?_⟩
      intro ab hab hab'
      rw [List.mem_singleton] at hab'
      subst hab'
      exact (hR _ hab).2.1 hTp.1

/-- What a successful call has to achieve. -/
def Entered (s : SetPartComp) (f : Fact) (r : Except Err Unit × SetPartComp) : Prop :=
  ∃ s', r = (.ok (), s') ∧ Inv s' ∧ ∀ v, Sat s' v ↔ Sat s v ∧ f.Holds v

theorem addPair_new {s : SetPartComp} {ab : Int × Int} (h : ab ∉ s.compPairs) :
    s.addPair ab = (.ok (), { s with compPairs := s.compPairs ++ [ab] }) := by
  unfold SetPartComp.addPair
  rw [if_neg (by rw [List.contains_iff_mem]; exact h)]

theorem removePair_mem {s : SetPartComp} {ab : Int × Int} (h : ab ∈ s.compPairs) :
    s.removePair ab = (.ok (), { s with compPairs := s.compPairs.erase ab }) := by
  unfold SetPartComp.removePair
  rw [if_pos (by rw [List.contains_iff_mem]; exact h)]

/-- an element of a pair represents its class -/
theorem Inv.rep_right {s : SetPartComp} (h : Inv s) {a c : Int} (hc : pair a c ∈ s.compPairs) : s.equalPart.rep c = c := by
  have := h.reps _ hc
  rcases pair_cases a c with e | e <;> rw [e] at this
  · exact this.2
  · exact this.1

theorem Inv.not_eqv {s : SetPartComp} (h : Inv s) {a c : Int} (hc : pair (s.equalPart.rep a) c ∈ s.compPairs) :
    ¬ Eqv s.equalPart.blocks a c := by
  intro he
  have h1 := rep_congr h.wf he
  rw [h.rep_right hc] at h1
  exact h.ne hc h1

/-- A pair with an element equal to `z` is the pair of the representative of `z`. -/
theorem Inv.pair_of_class {s : SetPartComp} (h : Inv s) {ab : Int × Int} (hab : ab ∈ s.compPairs) {z : Int}
    (hz : Eqv s.equalPart.blocks ab.1 z ∨ Eqv s.equalPart.blocks ab.2 z) : ∃ c, ab = pair (s.equalPart.rep z) c := by
  obtain ⟨h1, h2⟩ := h.reps ab hab
  have hlt := h.lt ab hab
  obtain ⟨x, y⟩ := ab
  simp only at h1 h2 hlt
  rcases hz with hz | hz
  · refine ⟨y, ?_⟩
    rw [← rep_congr h.wf hz, h1, pair_of_lt hlt]
  · refine ⟨x, ?_⟩
    rw [← rep_congr h.wf hz, h2, pair_comm, pair_of_lt hlt]

/-- If `z` has no complement then no pair touches its class. -/
theorem Inv.untouched {s : SetPartComp} (h : Inv s) {z : Int} (hz : s.getComp z = none) {ab : Int × Int}
    (hab : ab ∈ s.compPairs) : ¬ Eqv s.equalPart.blocks ab.1 z ∧ ¬ Eqv s.equalPart.blocks ab.2 z := by
  have key : ¬ (Eqv s.equalPart.blocks ab.1 z ∨ Eqv s.equalPart.blocks ab.2 z) := by
    intro hor
    obtain ⟨c, rfl⟩ := h.pair_of_class hab hor
    rw [(getComp_iff h z c).2 hab] at hz
    cases hz
  exact ⟨fun e => key (Or.inl e), fun e => key (Or.inr e)⟩

/-- If `z` has the complement `c` then no other pair touches the classes of `z` and `c`. -/
theorem Inv.untouched_comp {s : SetPartComp} (h : Inv s) {z c : Int} (hz : pair (s.equalPart.rep z) c ∈ s.compPairs)
    {ab : Int × Int} (hab : ab ∈ s.compPairs) (hne : ab ≠ pair (s.equalPart.rep z) c) :
    ¬ Eqv s.equalPart.blocks ab.1 z ∧ ¬ Eqv s.equalPart.blocks ab.2 z ∧
    ¬ Eqv s.equalPart.blocks ab.1 c ∧ ¬ Eqv s.equalPart.blocks ab.2 c := by
  have key : ∀ w, (w = z ∨ w = c) → ¬ (Eqv s.equalPart.blocks ab.1 w ∨ Eqv s.equalPart.blocks ab.2 w) := by
    intro w hw hor
    obtain ⟨d, hd⟩ := h.pair_of_class hab hor
    apply hne
    rcases hw with rfl | rfl
    · rw [hd] at hab ⊢
      rw [h.partner hab hz]
    · rw [h.rep_right hz] at hd
      rw [hd] at hab ⊢
      rw [pair_comm] at hz
      rw [h.partner hab hz, pair_comm]
  exact ⟨fun e => key z (Or.inl rfl) (Or.inl e), fun e => key z (Or.inl rfl) (Or.inr e), fun e => key c (Or.inr rfl) (Or.inl e),
    fun e => key c (Or.inr rfl) (Or.inr e)⟩

theorem sat_rep {s : SetPartComp} (h : Inv s) {v : Int → Bool} (hv : ∀ x y, Eqv s.equalPart.blocks x y → v x = v y) (x : Int) :
    v (s.equalPart.rep x) = v x := (hv _ _ (rep_eqv h.wf x)).symm

end Verif.SPC
