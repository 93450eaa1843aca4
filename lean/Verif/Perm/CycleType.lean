import Verif.Boolf.Props35
import Verif.Perm.Props4
import Mathlib.GroupTheory.Perm.Cycle.Concrete
import Mathlib.GroupTheory.Perm.Cycle.Type

/-! # C170: the lengths of the cycles, parity and conjugation -/

namespace Verif.P
open Verif.Py

/-- a list of numbers below `N` -/
def finList {N : Nat} (c : List Nat) (h : ∀ x ∈ c, x < N) : List (Fin N) := c.pmap (fun x hx => ⟨x, hx⟩) h

theorem length_finList {N : Nat} (c : List Nat) (h : ∀ x ∈ c, x < N) : (finList c h).length = c.length := List.length_pmap

theorem nodup_finList {N : Nat} {c : List Nat} (h : ∀ x ∈ c, x < N) (hn : c.Nodup) : (finList c h).Nodup :=
  hn.pmap fun _ _ _ _ e => by simpa using e

theorem mem_finList {N : Nat} {c : List Nat} (h : ∀ x ∈ c, x < N) (x : Fin N) : x ∈ finList c h ↔ x.1 ∈ c := by
  unfold finList
  rw [List.mem_pmap]
  constructor
  · rintro ⟨a, ha, rfl⟩; exact ha
  · intro hx; exact ⟨x.1, hx, rfl⟩

/-- The cycle type in the sense of Mathlib is given by the lengths of the cycles. -/
theorem cycleType_cycles {p : Perm} (hp : Constructed p) {N : Nat} (hi hb) (hm : ∀ x, p.get x ≠ x → (∀ l, p.perilen = some l → x < l) → x < N)
    (hl : ∀ l, p.perilen = some l → N ≤ l) : ∃ cs, p.cycles = .ok cs ∧ (finPerm p.get N hi hb).cycleType = ((cs.map List.length : List Nat) : Multiset Nat) := by
  obtain ⟨cs, c1, c2, c3, c4, _, _⟩ := C10_cycles p hp
  refine ⟨cs, c1, ?_⟩
  have hlt : ∀ c ∈ cs, ∀ x ∈ c, x < N := by
    intro c hc x hx
    have := (c3 x).1 (List.mem_flatten.2 ⟨c, hc, hx⟩)
    exact hm x this.1 this.2
  obtain ⟨n1, n2⟩ := List.nodup_flatten.1 c2
  let perms : List (Equiv.Perm (Fin N)) := cs.pmap (fun c hc => (finList c hc).formPerm) hlt
  have hcyc : ∀ σ ∈ perms, σ.IsCycle := by
    intro σ hσ
    obtain ⟨c, hc, rfl⟩ := List.mem_pmap.1 hσ
    exact List.isCycle_formPerm (nodup_finList _ (n1 c hc)) (by rw [length_finList]; exact (c4 c hc).1)
  have hdis : perms.Pairwise Equiv.Perm.Disjoint := by
    refine List.Pairwise.pmap (n2.imp_of_mem fun {c d} hc hd h => ?_) hlt (S := Equiv.Perm.Disjoint) (R := fun c d => c ∈ cs ∧ d ∈ cs ∧ c.Disjoint d) ?_
    · exact ⟨hc, hd, h⟩
    · rintro c hc d hd ⟨m1, m2, h⟩
      rw [List.formPerm_disjoint_iff (nodup_finList _ (n1 c m1)) (nodup_finList _ (n1 d m2)) (by rw [length_finList]; exact (c4 c m1).1)
        (by rw [length_finList]; exact (c4 d m2).1)]
      intro x hx hx'
      exact h ((mem_finList _ _).1 hx) ((mem_finList _ _).1 hx')
  have hsup : ∀ c (hc : c ∈ cs), (finList c (hlt c hc)).formPerm.support = (finList c (hlt c hc)).toFinset := by
    intro c hc
    apply List.support_formPerm_of_nodup _ (nodup_finList _ (n1 c hc))
    intro x e
    have := congrArg List.length e
    rw [length_finList] at this
    have := (c4 c hc).1
    simp at *
    omega
  have hprod : perms.prod = finPerm p.get N hi hb := by
    ext x
    by_cases hx : x.1 ∈ cs.flatten
    · obtain ⟨c, hc, hxc⟩ := List.mem_flatten.1 hx
      have hmem : (finList c (hlt c hc)).formPerm ∈ perms := List.mem_pmap.2 ⟨c, hc, rfl⟩
      have hxs : x ∈ (finList c (hlt c hc)).formPerm.support := by rw [hsup c hc, List.mem_toFinset, mem_finList]; exact hxc
      rw [← Equiv.Perm.eq_on_support_mem_disjoint hmem hdis x hxs]
      obtain ⟨i, hi', e⟩ := List.getElem_of_mem ((mem_finList (hlt c hc) x).2 hxc)
      have hic : i < c.length := by rwa [length_finList] at hi'
      have e' : (c)[i] = x.1 := by rw [← e]; simp [finList]
      rw [← e, List.formPerm_apply_getElem _ (nodup_finList _ (n1 c hc))]
      rw [finPerm_apply, e, ← e', (c4 c hc).2 i hic]
      simp [finList]
    · have h1 : perms.prod x = x := by
        by_contra h
        obtain ⟨σ, hσ, hxσ⟩ := Equiv.Perm.exists_mem_support_of_mem_support_prod (Equiv.Perm.mem_support.2 h)
        obtain ⟨c, hc, rfl⟩ := List.mem_pmap.1 hσ
        rw [hsup c hc, List.mem_toFinset, mem_finList] at hxσ
        exact hx (List.mem_flatten.2 ⟨c, hc, hxσ⟩)
      rw [h1, finPerm_apply]
      by_contra h
      exact hx ((c3 x.1).2 ⟨fun e => h e.symm, fun l e => lt_of_lt_of_le x.2 (hl l e)⟩)
  rw [Equiv.Perm.cycleType_eq perms hprod hcyc hdis]
  congr 1
  simp only [perms]
  rw [List.map_pmap]
  rw [← List.pmap_eq_map (p := fun c => ∀ x ∈ c, x < N) (H := hlt)]
  apply List.pmap_congr_left
  intro c hc _ _
  simp only [Function.comp]
  rw [hsup c hc, List.toFinset_card_of_nodup (nodup_finList _ (n1 c hc)), length_finList]

/-- the case of a finite permutation -/
theorem cycleType_finite {p : Perm} (hp : Constructed p) (hf : p.perilen = none) {N : Nat} (hN : p.length ≤ N) (hi hb) :
    ∃ cs, p.cycles = .ok cs ∧ (finPerm p.get N hi hb).cycleType = ((cs.map List.length : List Nat) : Multiset Nat) := by
  refine cycleType_cycles hp hi hb (fun x hx _ => ?_) (fun l h => by rw [hf] at h; cases h)
  by_contra hc
  exact hx (hp.wf.finite_bounded hf (by omega))

theorem order_cycles {p : Perm} (hp : Constructed p) {cs : List (List Nat)} (h : p.cycles = .ok cs) : p.order = .ok ((cs.map List.length).foldl Nat.lcm 1) := by
  unfold Perm.order
  split
  · rename_i hn
    obtain ⟨cs', c1, _, c3, c4, _⟩ := C10_cycles p hp
    rw [h] at c1
    cases c1
    cases cs with
    | nil => rfl
    | cons c cs =>
      have := (c4 c (by simp)).1
      obtain ⟨x, hx⟩ := List.exists_mem_of_length_pos (show 0 < c.length by omega)
      exact absurd (hp.wf.neutral_iff_get.1 hn x) ((c3 x).1 (List.mem_flatten.2 ⟨c, by simp, hx⟩)).1
  · rw [h]

theorem order_perm {p q : Perm} (hp : Constructed p) (hq : Constructed q) {cs ds : List (List Nat)} (h : p.cycles = .ok cs) (h' : q.cycles = .ok ds)
    (hl : (ds.map List.length).Perm (cs.map List.length)) : q.order = p.order := by
  rw [order_cycles hp h, order_cycles hq h']
  congr 1
  exact hl.foldl_eq' (fun a _ b _ z => by rw [Nat.lcm_assoc, Nat.lcm_comm a b, ← Nat.lcm_assoc]) 1

/-- **C170.** The parity of a finite permutation is that of the sum of the lengths of its cycles, each reduced by one. -/
theorem C170_parity (p : Perm) (hp : Constructed p) (hf : p.perilen = none) :
    ∃ cs, p.cycles = .ok cs ∧ p.parity = (cs.map fun c => c.length - 1).sum % 2 := by
  have hb := hp.wf.maps_below p.length (Or.inl ⟨hf, Nat.le_refl _⟩)
  obtain ⟨cs, c1, c2⟩ := cycleType_finite hp hf (Nat.le_refl _) hp.wf.get_bijective.1 hb
  refine ⟨cs, c1, ?_⟩
  have h := (C16_parity_sign p hp hf p.length (Nat.le_refl _) hp.wf.get_bijective.1 hb).2
  have h0 := (C16_parity_sign p hp hf p.length (Nat.le_refl _) hp.wf.get_bijective.1 hb).1
  rw [Equiv.Perm.sign_of_cycleType, c2, neg_one_pow_inj] at h
  simp only [Multiset.sum_coe, Multiset.coe_card, List.length_map] at h
  obtain ⟨cs', d1, _, _, d4, _⟩ := C10_cycles p hp
  rw [c1] at d1
  cases d1
  have hs : ∀ l : List (List Nat), (∀ c ∈ l, 2 ≤ c.length) → (l.map List.length).sum = (l.map fun c => c.length - 1).sum + l.length := by
    intro l
    induction l with
    | nil => intro _; rfl
    | cons c l ih =>
      intro hl
      have h1 := hl c (by simp)
      have h2 := ih fun d hd => hl d (by simp [hd])
      simp only [List.map_cons, List.sum_cons, List.length_cons]
      omega
  rw [hs cs fun c hc => (d4 c hc).1] at h
  omega

/-- **C170.** The conjugate `q * p * q.inverse` of a finite permutation has cycles of the same lengths, the same order and the same parity. -/
theorem C170_conjugate (p q : Perm) (hp : Constructed p) (hq : Constructed q) (hpf : p.perilen = none) (hqf : q.perilen = none) :
    ∃ i x r cs ds, q.inverse = .ok i ∧ q.mul p = .ok x ∧ x.mul i = .ok r ∧ p.cycles = .ok cs ∧ r.cycles = .ok ds ∧
      (ds.map List.length).Perm (cs.map List.length) ∧ r.order = p.order ∧ r.parity = p.parity := by
  obtain ⟨i, i1, i2, i3, _, i5, i6⟩ := inverse_spec hq
  obtain ⟨x, x1, x2, x3, x4, _⟩ := mul_spec hq hp (Or.inr (Or.inr (by rw [hpf, hqf])))
  have hxf := x4 hqf hpf
  have hif : i.perilen = none := by rw [i3, hqf]
  obtain ⟨r, r1, r2, r3, r4, _⟩ := mul_spec x2 i2 (Or.inr (Or.inr (by rw [hxf, hif])))
  have hrf := r4 hxf hif
  obtain ⟨N, hN1, hN2, hN3⟩ : ∃ N, p.length ≤ N ∧ q.length ≤ N ∧ r.length ≤ N :=
    ⟨max p.length (max q.length r.length), by omega, by omega, by omega⟩
  have bp := hp.wf.maps_below N (Or.inl ⟨hpf, hN1⟩)
  have bq := hq.wf.maps_below N (Or.inl ⟨hqf, hN2⟩)
  have br := r2.wf.maps_below N (Or.inl ⟨hrf, hN3⟩)
  obtain ⟨cs, c1, c2⟩ := cycleType_finite hp hpf hN1 hp.wf.get_bijective.1 bp
  obtain ⟨ds, d1, d2⟩ := cycleType_finite r2 hrf hN3 r2.wf.get_bijective.1 br
  have e : finPerm r.get N r2.wf.get_bijective.1 br =
      finPerm q.get N hq.wf.get_bijective.1 bq * finPerm p.get N hp.wf.get_bijective.1 bp * (finPerm q.get N hq.wf.get_bijective.1 bq)⁻¹ := by
    rw [eq_mul_inv_iff_mul_eq]
    ext y
    simp only [Equiv.Perm.mul_apply, finPerm_apply, r3, x3, Function.comp, i5]
  rw [e, Equiv.Perm.cycleType_conj, c2] at d2
  have hl : (ds.map List.length).Perm (cs.map List.length) := (Multiset.coe_eq_coe.1 d2).symm
  refine ⟨i, x, r, cs, ds, i1, x1, r1, c1, d1, hl, order_perm hp r2 c1 d1 hl, ?_⟩
  obtain ⟨cs', e1, e2⟩ := C170_parity p hp hpf
  obtain ⟨ds', f1, f2⟩ := C170_parity r r2 hrf
  rw [c1] at e1
  cases e1
  rw [d1] at f1
  cases f1
  rw [e2, f2]
  have := (hl.map fun n => n - 1).sum_eq
  rw [List.map_map, List.map_map] at this
  simp only [Function.comp_def] at this
  rw [this]

/-- **C170.** Finite permutations with cycles of the same lengths are conjugate. -/
theorem C170_conjugate_exists (p r : Perm) (hp : Constructed p) (hr : Constructed r) (hpf : p.perilen = none) (hrf : r.perilen = none) (cs ds : List (List Nat))
    (hc : p.cycles = .ok cs) (hd : r.cycles = .ok ds) (hl : (ds.map List.length).Perm (cs.map List.length)) :
    ∃ q i x, Constructed q ∧ q.perilen = none ∧ q.inverse = .ok i ∧ q.mul p = .ok x ∧ OkEq (x.mul i) (.ok r) := by
  obtain ⟨N, hN1, hN2⟩ : ∃ N, p.length ≤ N ∧ r.length ≤ N := ⟨max p.length r.length, by omega, by omega⟩
  have bp := hp.wf.maps_below N (Or.inl ⟨hpf, hN1⟩)
  have br := hr.wf.maps_below N (Or.inl ⟨hrf, hN2⟩)
  obtain ⟨cs', c1, c2⟩ := cycleType_finite hp hpf hN1 hp.wf.get_bijective.1 bp
  obtain ⟨ds', d1, d2⟩ := cycleType_finite hr hrf hN2 hr.wf.get_bijective.1 br
  rw [hc] at c1
  cases c1
  rw [hd] at d1
  cases d1
  have hconj : IsConj (finPerm p.get N hp.wf.get_bijective.1 bp) (finPerm r.get N hr.wf.get_bijective.1 br) := by
    rw [Equiv.Perm.isConj_iff_cycleType_eq, c2, d2]
    exact Multiset.coe_eq_coe.2 hl.symm
  obtain ⟨π, hπ⟩ := isConj_iff.1 hconj
  rw [mul_inv_eq_iff_eq_mul] at hπ
  have hs : (List.ofFn fun i => (π i).val).Perm (List.range N) := by
    have hn : (List.ofFn fun i => (π i).val).Nodup := List.nodup_ofFn.2 (fun a b h => π.injective (Fin.ext h))
    exact (List.subperm_of_subset hn (by
      intro x hx
      rw [List.mem_ofFn] at hx
      obtain ⟨i, rfl⟩ := hx
      exact List.mem_range.2 (π i).isLt)).perm_of_length_le (by simp)
  obtain ⟨q, _, q2, q3, q4, _, q6⟩ := Verif.BF.perm_of_seq hs
  have hqπ : ∀ y (hy : y < N), q.get y = (π ⟨y, hy⟩).val := by
    intro y hy
    have := q6 y hy
    rw [List.getElem?_ofFn, dif_pos hy] at this
    exact (Option.some.inj this).symm
  obtain ⟨i, i1, i2, i3, _, i5, i6⟩ := inverse_spec q2
  obtain ⟨x, x1, x2, x3, x4, _⟩ := mul_spec q2 hp (Or.inr (Or.inr (by rw [hpf, q3])))
  have hxf := x4 q3 hpf
  have hif : i.perilen = none := by rw [i3, q3]
  obtain ⟨t, t1, t2, t3, t4, _⟩ := mul_spec x2 i2 (Or.inr (Or.inr (by rw [hxf, hif])))
  refine ⟨q, i, x, q2, q3, i1, x1, okEq_of t1 rfl t2 hr ?_⟩
  funext z
  obtain ⟨y, rfl⟩ : ∃ y, q.get y = z := ⟨i.get z, i6 z⟩
  rw [t3, x3]
  simp only [Function.comp, i5]
  by_cases hy : y < N
  · have h := congrArg Fin.val (Equiv.congr_fun hπ ⟨y, hy⟩)
    simp only [Equiv.Perm.mul_apply, finPerm_apply] at h
    rw [hqπ y hy, ← h, hqπ _ (bp y hy)]
    rfl
  · have e1 : q.get y = y := q2.wf.finite_bounded q3 (by omega)
    rw [hp.wf.finite_bounded hpf (by omega), e1, hr.wf.finite_bounded hrf (by omega)]

/-- **C170.** The inverse has cycles of the same lengths and the same order. -/
theorem C170_inverse (p : Perm) (hp : Constructed p) :
    ∃ i cs ds, p.inverse = .ok i ∧ p.cycles = .ok cs ∧ i.cycles = .ok ds ∧ (ds.map List.length).Perm (cs.map List.length) ∧ i.order = p.order := by
  obtain ⟨i, i1, i2, i3, _, i5, i6⟩ := inverse_spec hp
  have main : ∃ N, (∀ x, p.get x ≠ x → (∀ l, p.perilen = some l → x < l) → x < N) ∧ (∀ x, i.get x ≠ x → (∀ l, p.perilen = some l → x < l) → x < N) ∧
      (∀ l, p.perilen = some l → N ≤ l) ∧ (∀ x < N, p.get x < N) ∧ ∀ x < N, i.get x < N := by
    cases h : p.perilen with
    | none =>
      have hif : i.perilen = none := by rw [i3, h]
      refine ⟨max p.length i.length, fun x hx _ => ?_, fun x hx _ => ?_, fun l e => (by cases e), hp.wf.maps_below _ (Or.inl ⟨h, by omega⟩),
        i2.wf.maps_below _ (Or.inl ⟨hif, by omega⟩)⟩
      · by_contra hc; exact hx (hp.wf.finite_bounded h (by omega))
      · by_contra hc; exact hx (i2.wf.finite_bounded hif (by omega))
    | some l =>
      have hil : i.perilen = some l := by rw [i3, h]
      exact ⟨l, fun x _ hx => hx l rfl, fun x _ hx => hx l rfl, fun l' e => (by cases e; exact Nat.le_refl _), hp.wf.maps_below _ (Or.inr ⟨l, h, dvd_rfl⟩),
        i2.wf.maps_below _ (Or.inr ⟨l, hil, dvd_rfl⟩)⟩
  obtain ⟨N, n1, n2, n3, n4, n5⟩ := main
  obtain ⟨cs, c1, c2⟩ := cycleType_cycles hp hp.wf.get_bijective.1 n4 n1 n3
  obtain ⟨ds, d1, d2⟩ := cycleType_cycles i2 i2.wf.get_bijective.1 n5 (by rw [i3]; exact n2) (by rw [i3]; exact n3)
  have e : finPerm i.get N i2.wf.get_bijective.1 n5 = (finPerm p.get N hp.wf.get_bijective.1 n4)⁻¹ := by
    rw [eq_inv_iff_mul_eq_one]
    ext y
    simp only [Equiv.Perm.mul_apply, finPerm_apply, i5, Equiv.Perm.one_apply]
  rw [e, Equiv.Perm.cycleType_inv, c2] at d2
  have hl : (ds.map List.length).Perm (cs.map List.length) := (Multiset.coe_eq_coe.1 d2).symm
  exact ⟨i, cs, ds, i1, c1, d1, hl, order_perm hp i2 c1 d1 hl⟩

/-- A permutation with cycles of lengths 2 and 3 is odd. -/
example : ∃ p, mkPerm (.seq [1, 0, 3, 4, 2]) = .ok p ∧ Constructed p ∧ p.perilen = none ∧ p.cycles = .ok [[0, 1], [2, 3, 4]] ∧ p.parity = 1 ∧ p.order = .ok 6 :=
  ⟨_, rfl, ⟨.seq [1, 0, 3, 4, 2], none, trivial, rfl⟩, rfl, by decide +kernel, by decide +kernel, by decide +kernel⟩

/-- The cycles of a conjugate are in another order and contain other numbers. -/
example : ∃ p q i x r, mkPerm (.seq [1, 0, 3, 4, 2]) = .ok p ∧ mkPerm (.seq [4, 2, 0, 3, 1]) = .ok q ∧ Constructed p ∧ Constructed q ∧ q.inverse = .ok i ∧
    q.mul p = .ok x ∧ x.mul i = .ok r ∧ r.cycles = .ok [[0, 3, 1], [2, 4]] ∧ r.parity = 1 ∧ r.order = .ok 6 :=
  ⟨_, _, _, _, _, rfl, rfl, ⟨.seq [1, 0, 3, 4, 2], none, trivial, rfl⟩, ⟨.seq [4, 2, 0, 3, 1], none, trivial, rfl⟩, rfl, rfl, rfl, by decide +kernel, by decide +kernel,
    by decide +kernel⟩

/-- the inverse of a periodic permutation -/
example : ∃ p i, mkPerm (.seq [1, 2, 0, 3]) (some 4) = .ok p ∧ p.inverse = .ok i ∧ p.cycles = .ok [[0, 1, 2]] ∧ i.cycles = .ok [[0, 2, 1]] :=
  ⟨_, _, rfl, rfl, by decide +kernel, by decide +kernel⟩

end Verif.P
