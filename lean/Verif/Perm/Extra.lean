import Verif.Perm.Cycles

/-! Helper lemmas: uniqueness of the cycle list, rebuilding a permutation, `apply_on_vector`. -/

namespace Verif.P
open Verif.Py

/-! ## Uniqueness of the cycle decomposition -/

theorem IsCycle.eq_of_head {f : Nat → Nat} {c d : List Nat} (hc : IsCycle f c) (hd : IsCycle f d) {a : Nat}
    (h1 : c.head? = some a) (h2 : d.head? = some a) : c = d := by
  have pc : 0 < c.length := by have := hc.two_le; omega
  have pd : 0 < d.length := by have := hd.two_le; omega
  have c0 : c[0] = a := by
    rw [List.head?_eq_getElem?, List.getElem?_eq_getElem pc] at h1; exact Option.some.inj h1
  have d0 : d[0] = a := by
    rw [List.head?_eq_getElem?, List.getElem?_eq_getElem pd] at h2; exact Option.some.inj h2
  have ac : a ∈ c := c0 ▸ List.getElem_mem pc
  have ad : a ∈ d := d0 ▸ List.getElem_mem pd
  have hlen : c.length = d.length := by
    apply Nat.dvd_antisymm
    · exact (hc.iterate_eq_iff ac _).1 ((hd.iterate_eq_iff ad _).2 (dvd_refl _))
    · exact (hd.iterate_eq_iff ad _).1 ((hc.iterate_eq_iff ac _).2 (dvd_refl _))
  apply List.ext_getElem hlen
  intro i hi hi'
  have e1 := hc.iterate pc i
  have e2 := hd.iterate pd i
  rw [c0] at e1
  rw [d0, e1] at e2
  simp only [Nat.zero_add, Nat.mod_eq_of_lt hi, Nat.mod_eq_of_lt hi'] at e2
  exact e2

theorem CycleSpec.tail {f : Nat → Nat} {K : List Nat} {c : List Nat} {cs : List (List Nat)}
    (h : CycleSpec f K (c :: cs)) : CycleSpec f (K.filter (· ∉ c)) cs where
  cycle := fun d hd => h.cycle d (List.mem_cons_of_mem _ hd)
  nodup := by have := h.nodup; rw [List.flatten_cons, List.nodup_append] at this; exact this.2.1
  mem := by
    intro x
    have h1 := h.mem x
    have h2 := h.nodup
    rw [List.flatten_cons, List.nodup_append] at h2
    rw [List.flatten_cons, List.mem_append] at h1
    rw [List.mem_filter, ← h1]
    constructor
    · intro hx
      exact ⟨Or.inr hx, by simpa using fun hc => h2.2.2 x hc x hx rfl⟩
    · rintro ⟨hx | hx, hn⟩
      · simp [hx] at hn
      · exact hx
  headMin := fun d hd => h.headMin d (List.mem_cons_of_mem _ hd)
  sorted := by have := h.sorted; rw [List.pairwise_cons] at this; exact this.2

theorem CycleSpec.head_le {f : Nat → Nat} {K : List Nat} {c : List Nat} {cs : List (List Nat)}
    (h : CycleSpec f K (c :: cs)) : ∃ a, c.head? = some a ∧ a ∈ K ∧ ∀ x ∈ K, a ≤ x := by
  have h2 := (h.cycle c (by simp)).two_le
  cases c with
  | nil => simp at h2
  | cons a r =>
    refine ⟨a, rfl, (h.mem a).1 (by simp), ?_⟩
    intro x hx
    rw [← h.mem, List.mem_flatten] at hx
    obtain ⟨d, hd, hxd⟩ := hx
    rcases List.mem_cons.1 hd with rfl | hd'
    · exact h.headMin _ hd a rfl x hxd
    · have hs := h.sorted
      rw [List.pairwise_cons] at hs
      cases d with
      | nil => simp at hxd
      | cons b t =>
        have := hs.1 _ hd' a b rfl rfl
        have := h.headMin _ hd b rfl x hxd
        omega

theorem CycleSpec.unique {f : Nat → Nat} {K K' : List Nat} {cs cs' : List (List Nat)} (h : CycleSpec f K cs)
    (h' : CycleSpec f K' cs') (hK : ∀ x, x ∈ K ↔ x ∈ K') : cs = cs' := by
  induction cs generalizing K K' cs' with
  | nil =>
    cases cs' with
    | nil => rfl
    | cons d ds =>
      exfalso
      obtain ⟨a, _, ha, _⟩ := h'.head_le
      rw [← hK, ← h.mem] at ha
      simp at ha
  | cons c cs ih =>
    cases cs' with
    | nil =>
      exfalso
      obtain ⟨a, _, ha, _⟩ := h.head_le
      rw [hK, ← h'.mem] at ha
      simp at ha
    | cons d ds =>
      obtain ⟨a, a1, a2, a3⟩ := h.head_le
      obtain ⟨b, b1, b2, b3⟩ := h'.head_le
      have hab : a = b := Nat.le_antisymm (a3 b ((hK b).2 b2)) (b3 a ((hK a).1 a2))
      subst hab
      have hcd := (h.cycle c (by simp)).eq_of_head (h'.cycle d (by simp)) a1 b1
      subst hcd
      rw [ih h.tail h'.tail (by intro x; simp [hK])]

theorem CycleSpec.fun_eq {f g : Nat → Nat} {K K' : List Nat} {cs : List (List Nat)} (h : CycleSpec f K cs)
    (h' : CycleSpec g K' cs) (hf : ∀ x, x ∉ K → f x = x) (hg : ∀ x, x ∉ K' → g x = x) : f = g := by
  funext x
  by_cases hx : x ∈ cs.flatten
  · obtain ⟨c, hc, hxc⟩ := List.mem_flatten.1 hx
    obtain ⟨i, hi, rfl⟩ := List.getElem_of_mem hxc
    rw [(h.cycle c hc).getElem hi, (h'.cycle c hc).getElem hi]
  · rw [hf x (by rwa [← h.mem]), hg x (by rwa [← h'.mem])]

/-! ## Rebuilding a permutation -/

theorem finish_same {m : Dict Nat Nat} (hg : Good m) {p : Perm}
    (hf : ∀ i, dictFun m i = p.get i) : ∃ q, finish m none = .ok q ∧ WF q ∧ q.get = p.get := by
  obtain ⟨q, h1, h2, h3, h4⟩ := finish_none hg
  exact ⟨q, h1, h2, by rw [h4]; funext i; exact hf i⟩

theorem finish_same_per {m : Dict Nat Nat} (hg : Good m) {p : Perm} (hw : WF p) {l L : Nat}
    (hp : p.perilen = some l) (hd : l ∣ L) (hL : 0 < L) (hk : ∀ k ∈ m.keys, k < L)
    (hf : ∀ i < L, dictFun m i = p.get i) : ∃ q, finish m (some L) = .ok q ∧ WF q ∧ q.get = p.get := by
  have h2 := hw.per_ge l hp
  have hlL := Nat.le_of_dvd hL hd
  have hfull : per (dictFun m) L = p.get := by
    funext i
    unfold per
    rw [hf _ (Nat.mod_lt _ hL)]
    have := (hw.shift_of_dvd hp hd).mul (i / L) (i % L)
    rw [Nat.mul_comm (i / L) L, Nat.mod_add_div] at this
    exact this.symm
  have hm : m ≠ [] := by
    rintro rfl
    have : p.neutral = true := by
      rw [hw.neutral_iff_get]
      intro i
      rw [← hfull]
      simp only [per, dictFun, Dict.get?_nil, Option.getD_none]
      exact Nat.mod_add_div i L
    have := (hw.neutral_perilen this).1
    rw [hp] at this; cases this
  obtain ⟨q, l', e1, e2, e3, e4, e5⟩ := finish_some hg hm (by omega : 2 ≤ L) hk
  exact ⟨q, e1, e2, e5.trans hfull⟩

/-! ## `apply_on_vector` -/

theorem surj_below {f : Nat → Nat} (hf : Function.Injective f) {n : Nat} (hn : ∀ i < n, f i < n) :
    ((List.range n).map f).Perm (List.range n) :=
  (perm_map_of_inj List.nodup_range (fun _ _ _ _ h => hf h)
    (fun i hi => by rw [List.mem_range] at hi ⊢; exact hn i hi)).symm

theorem mapM_ok {α β : Type} {f : α → Except Err β} {g : α → β} {l : List α} (h : ∀ x ∈ l, f x = .ok (g x)) :
    l.mapM f = .ok (l.map g) := by
  induction l with
  | nil => rfl
  | cons x xs ih =>
    rw [List.mapM_cons, h x (by simp), ih (fun y hy => h y (List.mem_cons_of_mem _ hy))]
    rfl

theorem mapM_error {α β : Type} {f : α → Except Err β} {e : Err} {l : List α}
    (h : ∀ x ∈ l, (∃ y, f x = .ok y) ∨ f x = .error e) (h2 : ∃ x ∈ l, f x = .error e) : l.mapM f = .error e := by
  induction l with
  | nil => simp at h2
  | cons x xs ih =>
    rw [List.mapM_cons]
    rcases h x (by simp) with ⟨y, hy⟩ | hy
    · rw [hy]
      have : xs.mapM f = .error e := by
        apply ih (fun z hz => h z (List.mem_cons_of_mem _ hz))
        obtain ⟨z, hz, hze⟩ := h2
        rcases List.mem_cons.1 hz with rfl | hz
        · rw [hy] at hze; cases hze
        · exact ⟨z, hz, hze⟩
      rw [this]; rfl
    · rw [hy]; rfl

theorem applyOnVector_spec {α : Type} {p : Perm} (hp : Constructed p) (v : List α)
    (hv : ∀ i < v.length, p.get i < v.length) :
    ∃ w, p.applyOnVector v = .ok w ∧ w.length = v.length ∧ (∀ i < v.length, w[p.get i]? = v[i]?) ∧ w.Perm v := by
  obtain ⟨q, q1, q2, _, _, q5, q6⟩ := inverse_spec hp
  have hq : ∀ i < v.length, q.get i < v.length := by
    intro i hi
    have hm : i ∈ (List.range v.length).map p.get :=
      (surj_below hp.wf.get_bijective.1 hv).mem_iff.2 (List.mem_range.2 hi)
    obtain ⟨j, hj, rfl⟩ := List.mem_map.1 hm
    rw [q5]; exact List.mem_range.1 hj
  cases v with
  | nil =>
    refine ⟨[], ?_, rfl, by simp, List.Perm.refl _⟩
    unfold Perm.applyOnVector; rw [q1]; rfl
  | cons d v' =>
    generalize hv0 : d :: v' = v at hv hq ⊢
    let w := (List.range v.length).map (fun i => (v[q.get i]?).getD d)
    have hlen : w.length = v.length := by simp [w]
    refine ⟨w, ?_, hlen, ?_, ?_⟩
    · unfold Perm.applyOnVector
      rw [q1]
      apply mapM_ok
      intro i hi
      have := hq i (List.mem_range.1 hi)
      rw [List.getElem?_eq_getElem this]
      rfl
    · intro i hi
      have h1 := hv i hi
      have h2 : w[p.get i]? = some ((v[q.get (p.get i)]?).getD d) := by
        simp [w, h1]
      rw [h2, q5, List.getElem?_eq_getElem hi]
      rfl
    · have h1 : v = (List.range v.length).map (fun i => (v[i]?).getD d) := by
        apply List.ext_getElem?
        intro i
        by_cases hi : i < v.length
        · simp [hi]
        · simp [hi]
      have h2 := (surj_below q2.wf.get_bijective.1 hq).map (fun i => (v[i]?).getD d)
      rw [List.map_map, ← h1] at h2
      exact h2

theorem applyOnVector_error {α : Type} {p : Perm} (hp : Constructed p) (v : List α)
    (hv : ¬ ∀ i < v.length, p.get i < v.length) : p.applyOnVector v = .error .indexError := by
  obtain ⟨q, q1, q2, _, _, q5, q6⟩ := inverse_spec hp
  have hq : ¬ ∀ i < v.length, q.get i < v.length := by
    intro hq
    apply hv
    intro i hi
    have hm : i ∈ (List.range v.length).map q.get :=
      (surj_below q2.wf.get_bijective.1 hq).mem_iff.2 (List.mem_range.2 hi)
    obtain ⟨j, hj, rfl⟩ := List.mem_map.1 hm
    rw [q6]; exact List.mem_range.1 hj
  unfold Perm.applyOnVector
  rw [q1]
  push Not at hq
  obtain ⟨i, hi, hi2⟩ := hq
  apply mapM_error
  · intro j _
    cases h : v[q.get j]? with
    | none => right; rfl
    | some x => left; exact ⟨x, rfl⟩
  · exact ⟨i, List.mem_range.2 hi, by rw [List.getElem?_eq_none hi2]⟩

end Verif.P
