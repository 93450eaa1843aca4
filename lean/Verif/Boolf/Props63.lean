import Verif.Boolf.Props62

/-!
# C113, C114: members of the clan, signed permutations and their indices
-/

namespace Verif.BF
open Verif.Py Verif.BV Verif.P Verif.W Verif.SP
open Verif.A hiding Mat

/-! ## classes -/

theorem Classes.nodup {member : Boolf → Prop} {rel : Boolf → Boolf → Prop} {reps : List Nat} {D : Dict Nat (List Nat)} (h : Classes member rel reps D) : D.keys.Nodup := by
  rw [h.keys]
  exact h.ascReps.imp ne_of_lt

theorem Classes.mem_head {member : Boolf → Prop} {rel : Boolf → Boolf → Prop} {reps : List Nat} {D : Dict Nat (List Nat)} (h : Classes member rel reps D)
    {e : Nat × List Nat} (he : e ∈ D) : e.1 ∈ e.2 := by
  have := h.least e he
  exact List.mem_of_mem_head? this

theorem Classes.head_le {member : Boolf → Prop} {rel : Boolf → Boolf → Prop} {reps : List Nat} {D : Dict Nat (List Nat)} (h : Classes member rel reps D)
    {e : Nat × List Nat} (he : e ∈ D) {z : Nat} (hz : z ∈ e.2) : e.1 ≤ z := by
  have h1 := h.least e he
  have h2 := h.asc e he
  cases hl : e.2 with
  | nil => rw [hl] at hz; cases hz
  | cons x l =>
    rw [hl] at h1 h2 hz
    obtain rfl : x = e.1 := Option.some.inj h1
    rcases List.mem_cons.1 hz with rfl | hz
    · exact le_refl _
    · exact le_of_lt ((List.pairwise_cons.1 h2).1 z hz)

theorem Classes.disjoint {member : Boolf → Prop} {rel : Boolf → Boolf → Prop} {reps : List Nat} {D : Dict Nat (List Nat)} (h : Classes member rel reps D)
    {e e' : Nat × List Nat} (he : e ∈ D) (he' : e' ∈ D) {z : Nat} (hz : z ∈ e.2) (hz' : z ∈ e'.2) : e = e' := by
  have key : ∀ {e e' : Nat × List Nat}, e ∈ D → e' ∈ D → z ∈ e.2 → z ∈ e'.2 → e.1 ≤ e'.1 := by
    intro e e' he he' hz hz'
    obtain ⟨g, g1, g2⟩ := h.index e he z hz
    obtain ⟨k, k1, k2⟩ := h.index e' he' e'.1 (h.mem_head he')
    have hk := (h.all k e'.1 k1 k2).1 ⟨e', he', h.mem_head he'⟩
    have := (h.same e' he' g k z e'.1 g1 k1 hk g2 k2 hz').1 (h.mem_head he')
    exact h.head_le he ((h.same e he g k z e'.1 g1 k1 hk g2 k2 hz).2 this)
  have h1 : e.1 = e'.1 := le_antisymm (key he he' hz hz') (key he' he hz' hz)
  obtain ⟨a, A⟩ := e
  obtain ⟨a', A'⟩ := e'
  simp only at h1
  subst h1
  have := (Dict.get?_iff_mem h.nodup).2 he
  rw [(Dict.get?_iff_mem h.nodup).2 he'] at this
  cases this
  rfl

/-! ## the members and their signed permutations -/

variable {f : Boolf} {E : EcPart} {lab : Nat → Boolf} {κ : Nat → Nat} {r : Nat → Nat → Nat}

theorem pair_index {n c v p : Nat} (hv : v < 2 ^ n) (hp : p < c) : v * c + p < 2 ^ n * c ∧ (v * c + p) / c = v ∧ (v * c + p) % c = p := by
  refine ⟨?_, ?_, ?_⟩
  · calc v * c + p < v * c + c := by omega
      _ = (v + 1) * c := by rw [Nat.add_mul, Nat.one_mul]
      _ ≤ 2 ^ n * c := Nat.mul_le_mul_right _ hv
  · rw [Nat.mul_comm, Nat.mul_add_div (by omega), Nat.div_eq_of_lt hp, Nat.add_zero]
  · rw [Nat.mul_comm, Nat.mul_add_mod, Nat.mod_eq_of_lt hp]

/-- a signed permutation is given by any permutation and any `keyneg_index` -/
theorem ClanData.pair (h : ClanData f E lab κ r) {k p : Nat} (hk : k < 2 ^ f.adicity) (hp : p < Nat.factorial f.adicity) :
    ∃ i < 2 ^ f.adicity * Nat.factorial f.adicity, κ i = k ∧ i % Nat.factorial f.adicity = p := by
  obtain ⟨v, v1, v2⟩ := digits_at (n := f.adicity) (A := List.range f.adicity) (r := r p) (fun x hx => h.lt p hp x (List.mem_range.1 hx))
    (fun x hx y hy => h.inj p hp x (List.mem_range.1 hx) y (List.mem_range.1 hy)) k.testBit
  obtain ⟨i1, i2, i3⟩ := pair_index v1 hp
  refine ⟨v * Nat.factorial f.adicity + p, i1, ?_, i3⟩
  apply Nat.eq_of_testBit_eq
  intro x
  by_cases hx : x < f.adicity
  · rw [h.bits _ i1 x hx, i2, i3, v2 x (List.mem_range.2 hx)]
  · rw [testBit_of_lt (h.keyneg _ i1) (by omega), testBit_of_lt hk (by omega)]

theorem ClanData.member (h : ClanData f E lab κ r) (hf : Reach f) (hA : f.atomvals = List.range f.adicity) {g : Boolf} (hg : Reach g) :
    SignedRenamed f.adicity f g ↔ ∃ i < 2 ^ f.adicity * Nat.factorial f.adicity, lab i = g := by
  constructor
  · intro hm
    obtain ⟨t, s, t1, t2⟩ := hm.replaced hf hg
    rw [hA] at t1
    have hinj : ∀ x < f.adicity, ∀ y < f.adicity, t x = t y → x = y := fun x hx y hy => t2.inj x (by rw [hA]; simpa using hx) y (by rw [hA]; simpa using hy)
    obtain ⟨p, p1, p2⟩ := h.all t (fun x hx => t1 x (by simpa using hx)) hinj
    obtain ⟨k, k1, k2⟩ := digits_at (n := f.adicity) (A := List.range f.adicity) (r := id) (fun x hx => List.mem_range.1 hx) (fun _ _ _ _ h => h) s
    obtain ⟨i, i1, i2, i3⟩ := h.pair k1 p1
    refine ⟨i, i1, ?_⟩
    apply (h.reach i i1).canon.ext hg.canon
    intro a
    rw [h.eval i i1, t2.eval]
    refine Boolf.eval_congr fun x hx => ?_
    have hx' : x < f.adicity := by rw [hA] at hx; exact List.mem_range.1 hx
    have := k2 x (List.mem_range.2 hx')
    simp only [id] at this
    rw [i2, i3, p2 x hx', this]
  · rintro ⟨i, hi, rfl⟩
    have hp : i % Nat.factorial f.adicity < Nat.factorial f.adicity := Nat.mod_lt _ (Nat.factorial_pos _)
    have hR : Replaced f (lab i) (r (i % Nat.factorial f.adicity)) (κ i).testBit :=
      ⟨fun x hx y hy => h.inj _ hp x (by rw [hA] at hx; simpa using hx) y (by rw [hA] at hy; simpa using hy), h.eval i hi⟩
    exact hR.signed hf (h.reach i hi) fun x hx => h.lt _ hp x (by rw [hA] at hx; simpa using hx)

/-- members with the same `keyneg_index` are in the same faction -/
theorem ClanData.renamed (h : ClanData f E lab κ r) (hA : f.atomvals = List.range f.adicity) {i j : Nat} (hi : i < 2 ^ f.adicity * Nat.factorial f.adicity)
    (hj : j < 2 ^ f.adicity * Nat.factorial f.adicity) (hk : κ i = κ j) (hai : (lab i).adicity = f.adicity) : Renamed f.adicity (lab i) (lab j) := by
  have hpi : i % Nat.factorial f.adicity < Nat.factorial f.adicity := Nat.mod_lt _ (Nat.factorial_pos _)
  have hpj : j % Nat.factorial f.adicity < Nat.factorial f.adicity := Nat.mod_lt _ (Nat.factorial_pos _)
  obtain ⟨q, q1, q2, q3⟩ := inv_below (h.lt _ hpi) (h.inj _ hpi)
  have hat : ∀ x ∈ (lab i).atomvals, x < f.adicity := fun x hx => by rw [← hai]; exact (h.reach i hi).canon.toSound.adic_lt hx
  have hR : Replaced (lab i) (lab j) (fun y => r (j % Nat.factorial f.adicity) (q y)) fun _ => false := by
    refine ⟨fun x hx y hy hxy => ?_, fun a => ?_⟩
    · have := h.inj _ hpj _ (q1 x (hat x hx)) _ (q1 y (hat y hy)) hxy
      rw [← q2 x (hat x hx), ← q2 y (hat y hy), this]
    · rw [h.eval j hj, h.eval i hi]
      refine Boolf.eval_congr fun x hx => ?_
      have hx' : x < f.adicity := by rw [hA] at hx; exact List.mem_range.1 hx
      rw [q3 x hx', hk, Bool.xor_false]
  exact hR.renamed (h.reach i hi) (h.reach j hj) fun x hx => h.lt _ hpj _ (q1 x (hat x hx))

/-- members with the same `perm_index` are in the same family -/
theorem ClanData.negated (h : ClanData f E lab κ r) (hA : f.atomvals = List.range f.adicity) {i j : Nat} (hi : i < 2 ^ f.adicity * Nat.factorial f.adicity)
    (hj : j < 2 ^ f.adicity * Nat.factorial f.adicity) (hp : i % Nat.factorial f.adicity = j % Nat.factorial f.adicity) : Negated (lab i) (lab j) := by
  refine ⟨(i / Nat.factorial f.adicity) ^^^ (j / Nat.factorial f.adicity), fun key => ?_⟩
  rw [getItem_eq (h.reach i hi).canon.toSound, getItem_eq (h.reach j hj).canon.toSound, h.eval i hi, h.eval j hj]
  congr 1
  refine Boolf.eval_congr fun x hx => ?_
  have hx' : x < f.adicity := by rw [hA] at hx; exact List.mem_range.1 hx
  rw [h.bits i hi x hx', h.bits j hj x hx', hp, Nat.testBit_xor, Nat.testBit_xor]
  cases key.testBit (r (j % Nat.factorial f.adicity) x) <;> cases (i / Nat.factorial f.adicity).testBit (r (j % Nat.factorial f.adicity) x) <;>
    cases (j / Nat.factorial f.adicity).testBit (r (j % Nat.factorial f.adicity) x) <;> rfl

theorem ClanData.turns_index (h : ClanData f E lab κ r) {g : Boolf} (hg : Reach g) {k p v : Nat} (ht : Turns f g k p v) :
    ∃ i < 2 ^ f.adicity * Nat.factorial f.adicity, lab i = g ∧ κ i = k ∧ i % Nat.factorial f.adicity = p ∧ i / Nat.factorial f.adicity = v := by
  have ht' := ht
  obtain ⟨hv, hp, σ, s1, s2, _⟩ := ht
  obtain ⟨i1, i2, i3⟩ := pair_index hv hp
  obtain ⟨σ', t1, t2⟩ := h.sigperm _ i1
  rw [i2, i3, s1] at t1
  cases t1
  rw [s2] at t2
  cases t2
  refine ⟨_, i1, ?_, rfl, i3, i2⟩
  rw [h.turns _ i1 g hg, i2, i3]
  exact ht'

end Verif.BF
