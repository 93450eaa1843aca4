import Verif.Boolf.Props66

/-!
# C117: the collection of segments, continued
-/

namespace Verif.BF
open Verif.Py Verif.BV Verif.P Verif.W Verif.SP
open Verif.A hiding Mat

/-- the segment of a vector -/
def segmentOf (v : List Int) : Segment :=
  ⟨v, zeroKeys v, signKeys v, (zeroKeys v).length, (zeroKeys v).map fun k => (k, [v.set k (-1), v.set k 1]),
    (signKeys v).map fun k => (k, v.set k (v.getD k 0 * -1))⟩

theorem Segment.new_eq {n : Nat} {v : List Int} (h : Ternary n v) : Segment.new n v = .ok (segmentOf v) := by
  unfold Segment.new
  rw [if_pos h.1, if_pos h.2]
  rfl

/-- the collections that occur -/
structure Coll (n : Nat) (c : Collection) : Prop where
  valency : c.valency = n
  keys : c.segments.keys.Nodup
  inner : ∀ d D, c.segments.get? d = some D → D.keys.Nodup ∧ ∀ e ∈ D, Ternary n e.1 ∧ e.1.count 0 = d ∧ e.2 = segmentOf e.1
  length : c.numberByDimension.length = n + 1
  number : ∀ d ≤ n, c.numberByDimension[d]? = some ((c.segments.get? d).getD []).length

theorem inquire_iff {c : Collection} {v : List Int} : c.inquire v = true ↔ ∃ D, c.segments.get? (v.count 0) = some D ∧ v ∈ D.keys := by
  unfold Collection.inquire
  split
  · next d hd => simp [hd]
  · next hd => simp [hd]

theorem Coll.ternary {n : Nat} {c : Collection} (h : Coll n c) {v : List Int} (hv : c.inquire v = true) : Ternary n v := by
  obtain ⟨D, h1, h2⟩ := inquire_iff.1 hv
  obtain ⟨e, he, rfl⟩ := List.mem_map.1 h2
  exact ((h.inner _ D h1).2 e he).1

theorem Coll.store {n : Nat} {c : Collection} (h : Coll n c) {v : List Int} (hv : Ternary n v) (hn : c.inquire v = false) :
    ∃ c', c.store v (segmentOf v) = .ok c' ∧ Coll n c' ∧ ∀ w, c'.inquire w = true ↔ c.inquire w = true ∨ w = v := by
  have hd : (segmentOf v).dimension = v.count 0 := length_zeroKeys v
  have hle : v.count 0 ≤ n := by rw [← hv.1]; exact List.count_le_length
  have hnm : v ∉ ((c.segments.get? (v.count 0)).getD []).keys := by
    intro hm
    have : c.inquire v = true := by
      cases hg : c.segments.get? (v.count 0) with
      | none => rw [hg] at hm; simp [Dict.keys] at hm
      | some D => rw [hg] at hm; exact inquire_iff.2 ⟨D, hg, hm⟩
    rw [hn] at this
    cases this
  unfold Collection.store
  rw [hd, h.length, if_pos (by omega)]
  refine ⟨_, rfl, ⟨h.valency, Dict.nodup_keys_set h.keys _ _, ?_, ?_, ?_⟩, ?_⟩
  · intro d D hD
    simp only [Dict.get?_set] at hD
    rw [Dict.set_of_not_mem _ hnm] at hD
    split at hD
    · next hdd =>
      cases hD
      subst hdd
      constructor
      · rw [Dict.keys, List.map_append, List.nodup_append]
        refine ⟨?_, by simp, ?_⟩
        · cases hg : c.segments.get? (v.count 0) with
          | none => simp
          | some D => exact (h.inner _ D hg).1
        · intro x hx y hy hxy
          simp only [List.map_cons, List.map_nil, List.mem_singleton] at hy
          subst hy
          subst hxy
          exact hnm hx
      · intro e he
        rcases List.mem_append.1 he with he | he
        · cases hg : c.segments.get? (v.count 0) with
          | none => rw [hg] at he; simp at he
          | some D => rw [hg] at he; exact (h.inner _ D hg).2 e he
        · rw [List.mem_singleton] at he
          subst he
          exact ⟨hv, rfl, rfl⟩
    · exact h.inner d D hD
  · simp [h.length]
  · intro d hdn
    simp only [Dict.get?_set, List.getElem?_modify, h.number d hdn]
    by_cases hdd : v.count 0 = d
    · subst hdd
      rw [if_pos rfl, Dict.set_of_not_mem _ hnm]
      simp
    · rw [if_neg hdd]
      simp [hdd]
  · intro w
    rw [inquire_iff, inquire_iff]
    simp only [Dict.get?_set]
    rw [Dict.set_of_not_mem _ hnm]
    by_cases hw : v.count 0 = w.count 0
    · simp only [hw, if_true, Option.some.injEq, exists_eq_left']
      rw [Dict.keys, List.map_append, List.mem_append]
      apply or_congr
      · cases hg : c.segments.get? (w.count 0) with
        | none => simp
        | some D => simp [Dict.keys]
      · simp
    · rw [if_neg hw]
      constructor
      · exact .inl
      · rintro (h | rfl)
        · exact h
        · exact absurd rfl hw

/-- what is missing in a collection -/
def missing (n : Nat) (c : Collection) : Nat := ((ternaryVectors n).filter fun v => !c.inquire v).length

theorem missing_lt {n : Nat} {c c' : Collection} {v : List Int} (hv : Ternary n v) (hn : c.inquire v = false) (h : ∀ w, c'.inquire w = true ↔ c.inquire w = true ∨ w = v) :
    missing n c' < missing n c := by
  unfold missing
  have : (ternaryVectors n).filter (fun w => !c'.inquire w) = ((ternaryVectors n).filter fun w => !c.inquire w).filter fun w => decide (w ≠ v) := by
    rw [List.filter_filter]
    apply List.filter_congr
    intro w _
    have : c'.inquire w = (c.inquire w || decide (w = v)) := by rw [Bool.eq_iff_iff]; simp [h w]
    rw [this]
    cases c.inquire w <;> simp
  rw [this, List.length_filter_lt_length_iff_exists]
  exact ⟨v, List.mem_filter.2 ⟨mem_ternaryVectors.2 hv, by simp [hn]⟩, by simp⟩

theorem missing_le {n : Nat} {c c' : Collection} (h : ∀ w, c.inquire w = true → c'.inquire w = true) : missing n c' ≤ missing n c := by
  unfold missing
  apply List.Sublist.length_le
  apply List.monotone_filter_right
  intro w hw
  have := h w
  by_cases h1 : c.inquire w = true
  · rw [this h1] at hw
    simp at hw
  · simp [h1]

/-- The step from a collection to a later one.  The added segments belong to `S`, are closed under inferiors, and under common superiors of neighbors, of which at least one is new. -/
structure Grows (n : Nat) (S : Nat → Prop) (c c' : Collection) : Prop where
  coll : Coll n c'
  sub : ∀ w, c.inquire w = true → c'.inquire w = true
  full : ∀ w, c'.inquire w = true → FullFace n S w
  inferior : ∀ w, c'.inquire w = true → c.inquire w = false → ∀ k, w[k]? = some 0 → c'.inquire (w.set k (-1)) = true ∧ c'.inquire (w.set k 1) = true
  superior : ∀ w, c'.inquire w = true → c.inquire w = false → ∀ k x, w[k]? = some x → x ≠ 0 → c'.inquire (w.set k (x * -1)) = true → c'.inquire (w.set k 0) = true

theorem Grows.refl {n : Nat} {S : Nat → Prop} {c : Collection} (h : Coll n c) (hS : ∀ w, c.inquire w = true → FullFace n S w) : Grows n S c c :=
  ⟨h, fun _ h => h, hS, fun w h h' => (by rw [h] at h'; cases h'), fun w h h' => (by rw [h] at h'; cases h')⟩

theorem Grows.trans {n : Nat} {S : Nat → Prop} {c₁ c₂ c₃ : Collection} (h : Grows n S c₁ c₂) (h' : Grows n S c₂ c₃) : Grows n S c₁ c₃ := by
  refine ⟨h'.coll, fun w hw => h'.sub w (h.sub w hw), h'.full, ?_, ?_⟩
  · intro w hw hw' k hk
    by_cases h2 : c₂.inquire w = true
    · obtain ⟨q1, q2⟩ := h.inferior w h2 hw' k hk
      exact ⟨h'.sub _ q1, h'.sub _ q2⟩
    · exact h'.inferior w hw (by simpa using h2) k hk
  · intro w hw hw' k x hk hx hn
    by_cases h2 : c₂.inquire w = true
    · by_cases h3 : c₂.inquire (w.set k (x * -1)) = true
      · exact h'.sub _ (h.superior w h2 hw' k x hk hx h3)
      · have hlt := (List.getElem?_eq_some_iff.1 hk).1
        have := h'.superior (w.set k (x * -1)) hn (by simpa using h3) k (x * -1) (by rw [List.getElem?_set_self hlt]) (by omega)
        rw [List.set_set, List.set_set, Int.mul_neg_one, Int.mul_neg_one, Int.neg_neg] at this
        apply this
        have hself : w.set k x = w := by
          have := set_set_self (y := x) hk
          rwa [List.set_set] at this
        rw [hself]
        exact hw
    · exact h'.superior w hw (by simpa using h2) k x hk hx hn

/-- what `add` does, for collections in which at most `m` vectors are missing -/
def AddSpec (n : Nat) (S : Nat → Prop) (m : Nat) (add : List Int → Collection → Except Err Collection) : Prop :=
  ∀ v c, Coll n c → missing n c ≤ m → (∀ w, c.inquire w = true → FullFace n S w) → FullFace n S v → c.inquire v = false →
    ∃ c', add v c = .ok c' ∧ Grows n S c c' ∧ c'.inquire v = true

theorem demand_spec {n m : Nat} {S : Nat → Prop} {add : List Int → Collection → Except Err Collection} (ha : AddSpec n S m add) {c : Collection} (h : Coll n c)
    (hm : missing n c ≤ m) (hS : ∀ w, c.inquire w = true → FullFace n S w) {v : List Int} (hv : FullFace n S v) :
    ∃ c', c.demand add v = .ok c' ∧ Grows n S c c' ∧ c'.inquire v = true := by
  unfold Collection.demand
  by_cases hi : c.inquire v = true
  · rw [if_pos hi]
    exact ⟨c, rfl, Grows.refl h hS, hi⟩
  · rw [if_neg hi]
    exact ha v c h hm hS hv (by simpa using hi)

theorem demandInferiors_spec {n m : Nat} {S : Nat → Prop} {add : List Int → Collection → Except Err Collection} (ha : AddSpec n S m add) :
    ∀ (l : List (List Int)) (c : Collection), Coll n c → missing n c ≤ m → (∀ w, c.inquire w = true → FullFace n S w) → (∀ v ∈ l, FullFace n S v) →
      ∃ c', demandInferiors add l c = .ok c' ∧ Grows n S c c' ∧ ∀ v ∈ l, c'.inquire v = true
  | [], c, h, _, hS, _ => ⟨c, rfl, Grows.refl h hS, by simp⟩
  | v :: l, c, h, hm, hS, hl => by
    obtain ⟨c₁, h1, h2, h3⟩ := demand_spec ha h hm hS (hl v (by simp))
    obtain ⟨c₂, h4, h5, h6⟩ := demandInferiors_spec ha l c₁ h2.coll (le_trans (missing_le h2.sub) hm) h2.full (fun w hw => hl w (by simp [hw]))
    refine ⟨c₂, by simp only [demandInferiors, h1, bind, Except.bind, h4], h2.trans h5, ?_⟩
    intro w hw
    rcases List.mem_cons.1 hw with rfl | hw
    · exact h5.sub _ h3
    · exact h6 w hw

theorem demandSuperiors_spec {n m : Nat} {S : Nat → Prop} {add : List Int → Collection → Except Err Collection} (ha : AddSpec n S m add) {v : List Int} (hv : FullFace n S v) :
    ∀ (l : List Nat) (c : Collection), Coll n c → missing n c ≤ m → (∀ w, c.inquire w = true → FullFace n S w) → c.inquire v = true → (∀ k ∈ l, ∃ x, v[k]? = some x ∧ x ≠ 0) →
      ∃ c', demandSuperiors add v (l.map fun k => (k, v.set k (v.getD k 0 * -1))) c = .ok c' ∧ Grows n S c c' ∧
        ∀ k ∈ l, c'.inquire (v.set k (v.getD k 0 * -1)) = true → c'.inquire (v.set k 0) = true
  | [], c, h, _, hS, _, _ => ⟨c, rfl, Grows.refl h hS, by simp⟩
  | k :: l, c, h, hm, hS, hin, hl => by
    obtain ⟨x, hk, hx⟩ := hl k (by simp)
    have hlt := (List.getElem?_eq_some_iff.1 hk).1
    have hg : v.getD k 0 = x := by rw [List.getD_eq_getElem?_getD, hk]; rfl
    rw [List.map_cons, demandSuperiors, hg]
    by_cases hi : c.inquire (v.set k (x * -1)) = true
    · rw [if_pos hi]
      obtain ⟨c₁, h1, h2, h3⟩ := demand_spec ha h hm hS (hv.superior hk hx (hS _ hi))
      obtain ⟨c₂, h4, h5, h6⟩ := demandSuperiors_spec ha hv l c₁ h2.coll (le_trans (missing_le h2.sub) hm) h2.full (h2.sub _ hin) (fun w hw => hl w (by simp [hw]))
      refine ⟨c₂, by simp only [h1, bind, Except.bind, h4], h2.trans h5, ?_⟩
      intro j hj hj'
      rcases List.mem_cons.1 hj with rfl | hj
      · exact h5.sub _ h3
      · exact h6 j hj hj'
    · rw [if_neg hi]
      obtain ⟨c₂, h4, h5, h6⟩ := demandSuperiors_spec ha hv l c h hm hS hin (fun w hw => hl w (by simp [hw]))
      refine ⟨c₂, h4, h5, ?_⟩
      intro j hj hj'
      rcases List.mem_cons.1 hj with rfl | hj
      · rw [hg] at hj'
        have := h5.superior (v.set j (x * -1)) hj' (by simpa using hi) j (x * -1) (by rw [List.getElem?_set_self hlt]) (by omega)
        rw [List.set_set, List.set_set, Int.mul_neg_one, Int.mul_neg_one, Int.neg_neg] at this
        apply this
        have hself : v.set j x = v := by
          have := set_set_self (y := x) hk
          rwa [List.set_set] at this
        rw [hself]
        exact h5.sub _ hin
      · exact h6 j hj hj'

theorem add_spec (n : Nat) (S : Nat → Prop) : ∀ fuel, AddSpec n S fuel (Collection.add fuel)
  | 0 => by
    intro v c _ hm _ hv hn
    have : missing n c = 0 := by omega
    unfold missing at this
    rw [List.length_eq_zero_iff, List.filter_eq_nil_iff] at this
    exact absurd (by simp [hn]) (this v (mem_ternaryVectors.2 hv.1))
  | fuel + 1 => by
    intro v c h hm hS hv hn
    obtain ⟨c₁, h1, h2, h3⟩ := h.store hv.1 hn
    have hm₁ : missing n c₁ ≤ fuel := by
      have := missing_lt hv.1 hn h3
      omega
    have hS₁ : ∀ w, c₁.inquire w = true → FullFace n S w := by
      intro w hw
      rcases (h3 w).1 hw with hw | rfl
      · exact hS w hw
      · exact hv
    have hv₁ : c₁.inquire v = true := (h3 v).2 (.inr rfl)
    obtain ⟨c₂, h4, h5, h6⟩ := demandInferiors_spec (add_spec n S fuel) ((segmentOf v).inferiorVectors.flatMap Prod.snd) c₁ h2 hm₁ hS₁ (by
      intro w hw
      obtain ⟨e, he, hw⟩ := List.mem_flatMap.1 hw
      obtain ⟨k, hk, rfl⟩ := List.mem_map.1 he
      simp only [List.mem_cons, List.not_mem_nil, or_false] at hw
      rcases hw with rfl | rfl
      · exact hv.inferior (mem_zeroKeys.1 hk) (by simp)
      · exact hv.inferior (mem_zeroKeys.1 hk) (by simp))
    obtain ⟨c₃, h7, h8, h9⟩ := demandSuperiors_spec (add_spec n S fuel) hv (signKeys v) c₂ h5.coll (le_trans (missing_le h5.sub) hm₁) h5.full (h5.sub _ hv₁)
      (fun k hk => mem_signKeys.1 hk)
    refine ⟨c₃, ?_, ?_, h8.sub _ (h5.sub _ hv₁)⟩
    · rw [Collection.add, if_neg (by rw [hn]; decide), h.valency, Segment.new_eq hv.1]
      simp only [bind, Except.bind, h1, h4]
      exact h7
    · have hg := h5.trans h8
      refine ⟨h8.coll, fun w hw => hg.sub _ ((h3 w).2 (.inl hw)), h8.full, ?_, ?_⟩
      · intro w hw hw' k hk
        by_cases hwv : w = v
        · subst hwv
          have hm : ∀ x : Int, x = -1 ∨ x = 1 → w.set k x ∈ (segmentOf w).inferiorVectors.flatMap Prod.snd := by
            intro x hx
            refine List.mem_flatMap.2 ⟨_, List.mem_map.2 ⟨k, mem_zeroKeys.2 hk, rfl⟩, ?_⟩
            rcases hx with rfl | rfl <;> simp
          exact ⟨h8.sub _ (h6 _ (hm _ (by simp))), h8.sub _ (h6 _ (hm _ (by simp)))⟩
        · apply hg.inferior w hw _ k hk
          by_contra hc
          rcases (h3 w).1 (by simpa using hc) with h | h
          · rw [hw'] at h
            cases h
          · exact hwv h
      · intro w hw hw' k x hk hx hnb
        by_cases hwv : w = v
        · subst hwv
          have hg' : w.getD k 0 = x := by rw [List.getD_eq_getElem?_getD, hk]; rfl
          exact h9 k (mem_signKeys.2 ⟨x, hk, hx⟩) (by rw [hg']; exact hnb)
        · apply hg.superior w hw _ k x hk hx hnb
          by_contra hc
          rcases (h3 w).1 (by simpa using hc) with h | h
          · rw [hw'] at h
            cases h
          · exact hwv h

/-! ### the loop over the full spots -/

theorem addSpots_spec {n fuel : Nat} (hf : 3 ^ n ≤ fuel) : ∀ (l done : List Nat) (c : Collection), (done ++ l).Nodup → (∀ s ∈ l, s < 2 ^ n) → Coll n c →
    (∀ w, c.inquire w = true → FullFace n (· ∈ done) w) → ∃ c', addSpots fuel (l.map bitsOf) c = .ok c' ∧ Grows n (· ∈ done ++ l) c c' ∧
      ∀ s ∈ l, c'.inquire (spotVector n s) = true
  | [], done, c, _, _, h, hS => ⟨c, rfl, by rw [List.append_nil]; exact Grows.refl h hS, by simp⟩
  | s :: l, done, c, hn, hl, h, hS => by
    have hs := hl s (by simp)
    have hv : FullFace n (· ∈ done ++ [s]) (spotVector n s) := ⟨spotVector_ternary n s, fun t ht => by simp [(adjoins_spotVector hs).1 ht]⟩
    have hnot : c.inquire (spotVector n s) = false := by
      by_contra hc
      have := (hS _ (by simpa using hc)).2 s ((adjoins_spotVector hs).2 rfl)
      rw [List.nodup_append] at hn
      exact hn.2.2 s this s (by simp) rfl
    have hmiss : missing n c ≤ fuel := by
      refine le_trans (le_trans (List.length_filter_le _ _) ?_) hf
      rw [length_ternaryVectors]
    obtain ⟨c₁, h1, h2, h3⟩ := add_spec n (· ∈ done ++ [s]) fuel _ c h hmiss (fun w hw => (hS w hw).mono (by intro t ht; simp [ht])) hv hnot
    obtain ⟨c₂, h4, h5, h6⟩ := addSpots_spec hf l (done ++ [s]) c₁ (by simpa using hn) (fun t ht => hl t (by simp [ht])) h2.coll h2.full
    refine ⟨c₂, ?_, ?_, ?_⟩
    · rw [List.map_cons, addSpots, h.valency, setOnes_bits hs]
      simp only [bind, Except.bind, h1]
      exact h4
    · have h5' : Grows n (· ∈ done ++ s :: l) c₁ c₂ := by
        have e : done ++ [s] ++ l = done ++ s :: l := by simp
        rwa [e] at h5
      have h2' : Grows n (· ∈ done ++ s :: l) c c₁ :=
        ⟨h2.coll, h2.sub, fun w hw => (h2.full w hw).mono (by intro t ht; simp only [List.mem_append, List.mem_cons] at ht ⊢; tauto), h2.inferior, h2.superior⟩
      exact h2'.trans h5'
    · intro t ht
      rcases List.mem_cons.1 ht with rfl | ht
      · exact h5.sub _ h3
      · exact h6 t ht

theorem inquire_complete {n : Nat} {S : Nat → Prop} {c : Collection} (hs : ∀ s, S s → s < 2 ^ n → c.inquire (spotVector n s) = true)
    (hsup : ∀ w, c.inquire w = true → ∀ k x, w[k]? = some x → x ≠ 0 → c.inquire (w.set k (x * -1)) = true → c.inquire (w.set k 0) = true) :
    ∀ (m : Nat) (v : List Int), v.count 0 = m → FullFace n S v → c.inquire v = true
  | 0, v, h0, hv => by
    obtain ⟨s, h1, rfl⟩ := exists_spot hv.1 h0
    exact hs s (hv.2 s ((adjoins_spotVector h1).2 rfl)) h1
  | m + 1, v, h0, hv => by
    have hmem : (0 : Int) ∈ v := List.count_pos_iff.1 (by omega)
    obtain ⟨k, hk⟩ := List.mem_iff_getElem?.1 hmem
    have hlt := (List.getElem?_eq_some_iff.1 hk).1
    have hcount : ∀ x : Int, x ≠ 0 → (v.set k x).count 0 = m := by
      intro x hx
      rw [List.count_set hlt]
      have : v[k] = 0 := (List.getElem?_eq_some_iff.1 hk).2
      simp [this, hx, h0]
    have h1 := inquire_complete hs hsup m (v.set k 1) (hcount 1 (by simp)) (hv.inferior hk (by simp))
    have h2 := inquire_complete hs hsup m (v.set k (-1)) (hcount (-1) (by simp)) (hv.inferior hk (by simp))
    have := hsup (v.set k 1) h1 k 1 (by rw [List.getElem?_set_self hlt]) (by simp) (by rw [List.set_set]; exact h2)
    rwa [set_set_self hk] at this

end Verif.BF
