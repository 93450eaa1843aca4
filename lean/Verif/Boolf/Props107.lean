import Verif.Boolf.Props14
import Verif.Boolf.Props95
import Mathlib.Algebra.Order.Field.Basic

/-! # C186: the share of true places is a measure, and the bitwise comparison is the order of a Boolean algebra -/

namespace Verif.BF
open Verif.Py Verif.BV Verif.P Verif.W
open Verif.A hiding Mat

theorem bitwiseLe_iff {f g : Boolf} (hf : Reach f) (hg : Reach g) : f.bitwiseLe g = .ok true ↔ ∀ a, f.eval a = true → g.eval a = true := by
  obtain ⟨_, le, _, _, _, h, _, _, h2, _⟩ := C53_order f g hf hg
  rw [h, ← implies_iff hf.canon.toSound hg.canon.toSound, ← h2]
  exact ⟨fun e => Except.ok.inj e, fun e => by rw [e]⟩

theorem share_spec {f : Boolf} (hf : Obj f) : ∃ r, f.weightFract = .ok r ∧
    ∀ n : Nat, f.adicity ≤ n → r = (∑ i ∈ Finset.range (2 ^ n), ((f.eval i.testBit).toNat : Rat)) / 2 ^ n := by
  obtain ⟨r, r1, r2⟩ := C80_weight_fract f hf
  refine ⟨r, r1, fun n hn => ?_⟩
  rw [r2 n hn, truePlaces_eq hf.good.toSound, countF_card, Finset.card_filter]
  push_cast
  congr 1
  refine Finset.sum_congr rfl fun i _ => ?_
  cases f.eval i.testBit <;> simp

/-- **C186.** The share of true places is a measure: the shares of `f | g` and `f & g` have the same sum as those of f and g,
and `f ^ g` has their difference. -/
theorem C186_measure (f g : Boolf) (hf : Obj f) (hg : Obj g) :
    ∃ a o x r s u v w, f.and g = .ok a ∧ f.or g = .ok o ∧ f.xor g = .ok x ∧ f.weightFract = .ok r ∧ g.weightFract = .ok s ∧
      a.weightFract = .ok u ∧ o.weightFract = .ok v ∧ x.weightFract = .ok w ∧ v + u = r + s ∧ w = v - u ∧ 0 ≤ r ∧ r ≤ 1 := by
  obtain ⟨a, a1, a2, a3⟩ := and_spec hf.good.toSound hg.good.toSound
  obtain ⟨o, o1, o2, o3⟩ := or_spec hf.good.toSound hg.good.toSound
  obtain ⟨x, x1, x2, x3⟩ := xor_spec hf.good.toSound hg.good.toSound
  obtain ⟨r, r1, r2⟩ := share_spec hf
  obtain ⟨s, s1, s2⟩ := share_spec hg
  obtain ⟨u, u1, u2⟩ := share_spec a2.reach.obj
  obtain ⟨v, v1, v2⟩ := share_spec o2.reach.obj
  obtain ⟨w, w1, w2⟩ := share_spec x2.reach.obj
  refine ⟨a, o, x, r, s, u, v, w, a1, o1, x1, r1, s1, u1, v1, w1, ?_⟩
  obtain ⟨n, n1, n2, n3, n4, n5⟩ : ∃ n, f.adicity ≤ n ∧ g.adicity ≤ n ∧ a.adicity ≤ n ∧ o.adicity ≤ n ∧ x.adicity ≤ n :=
    ⟨f.adicity + g.adicity + a.adicity + o.adicity + x.adicity, by omega, by omega, by omega, by omega, by omega⟩
  rw [r2 n n1, s2 n n2, u2 n n3, v2 n n4, w2 n n5, ← add_div, ← add_div, ← sub_div, ← Finset.sum_add_distrib, ← Finset.sum_add_distrib,
    ← Finset.sum_sub_distrib]
  refine ⟨?_, ?_, div_nonneg (Finset.sum_nonneg fun i _ => Nat.cast_nonneg _) (by positivity), ?_⟩
  · congr 1
    refine Finset.sum_congr rfl fun i _ => ?_
    rw [a3, o3]
    cases f.eval i.testBit <;> cases g.eval i.testBit <;> simp
  · congr 1
    refine Finset.sum_congr rfl fun i _ => ?_
    rw [a3, o3, x3]
    cases f.eval i.testBit <;> cases g.eval i.testBit <;> simp
  · rw [div_le_one (by positivity)]
    calc _ ≤ ∑ _i ∈ Finset.range (2 ^ n), (1 : Rat) := Finset.sum_le_sum fun i _ => by cases f.eval i.testBit <;> simp
      _ = 2 ^ n := by simp

/-- **C186.** A function below another one has the smaller share of true places, unless they are equal. -/
theorem C186_monotone (f g : Boolf) (hf : Reach f) (hg : Reach g) (h : f.bitwiseLe g = .ok true) :
    ∃ r s, f.weightFract = .ok r ∧ g.weightFract = .ok s ∧ r ≤ s ∧ (r = s ↔ f = g) := by
  rw [bitwiseLe_iff hf hg] at h
  obtain ⟨r, r1, r2⟩ := share_spec hf.obj
  obtain ⟨s, s1, s2⟩ := share_spec hg.obj
  have n1 := le_max_left f.adicity g.adicity
  have n2 := le_max_right f.adicity g.adicity
  have hle : ∀ i ∈ Finset.range (2 ^ max f.adicity g.adicity), ((f.eval i.testBit).toNat : Rat) ≤ ((g.eval i.testBit).toNat : Rat) := fun i _ => by
    have := h i.testBit
    cases h1 : f.eval i.testBit
    · simp
    · rw [this h1]
  refine ⟨r, s, r1, s1, ?_, fun e => ?_, fun e => ?_⟩
  · rw [r2 _ n1, s2 _ n2]
    gcongr with i hi
    exact_mod_cast hle i hi
  · rw [r2 _ n1, s2 _ n2, div_left_inj' (by positivity), Finset.sum_eq_sum_iff_of_le hle] at e
    refine hf.canon.ext hg.canon fun a => ?_
    obtain ⟨key, k1, k2⟩ := eval_key f g hf.canon.toSound hg.canon.toSound a
    have := e (key % 2 ^ max f.adicity g.adicity) (Finset.mem_range.2 (Nat.mod_lt _ (by positivity)))
    rw [eval_mod hf.canon.toSound n1, eval_mod hg.canon.toSound n2] at this
    rw [k1, k2]
    cases h1 : f.eval key.testBit <;> cases h2 : g.eval key.testBit <;> simp [h1, h2] at this ⊢
  · subst e
    rw [r1] at s1
    exact Except.ok.inj s1

/-- **C186.** The share of the places with different values is a distance. -/
theorem C186_metric (f g h : Boolf) (hf : Reach f) (hg : Reach g) (hh : Reach h) :
    ∃ x y z r s t, f.xor g = .ok x ∧ g.xor h = .ok y ∧ f.xor h = .ok z ∧ x.weightFract = .ok r ∧ y.weightFract = .ok s ∧ z.weightFract = .ok t ∧
      t ≤ r + s ∧ (r = 0 ↔ f = g) := by
  obtain ⟨x, x1, x2, x3⟩ := xor_spec hf.canon.toSound hg.canon.toSound
  obtain ⟨y, y1, y2, y3⟩ := xor_spec hg.canon.toSound hh.canon.toSound
  obtain ⟨z, z1, z2, z3⟩ := xor_spec hf.canon.toSound hh.canon.toSound
  obtain ⟨r, r1, r2⟩ := share_spec x2.reach.obj
  obtain ⟨s, s1, s2⟩ := share_spec y2.reach.obj
  obtain ⟨t, t1, t2⟩ := share_spec z2.reach.obj
  refine ⟨x, y, z, r, s, t, x1, y1, z1, r1, s1, t1, ?_, fun e => ?_, fun e => ?_⟩
  · obtain ⟨n, n1, n2, n3⟩ : ∃ n, x.adicity ≤ n ∧ y.adicity ≤ n ∧ z.adicity ≤ n :=
      ⟨x.adicity + y.adicity + z.adicity, by omega, by omega, by omega⟩
    rw [r2 n n1, s2 n n2, t2 n n3, ← add_div, ← Finset.sum_add_distrib]
    gcongr with i _
    rw [x3, y3, z3]
    cases f.eval i.testBit <;> cases g.eval i.testBit <;> cases h.eval i.testBit <;> simp
  · have r0 : Reach (setConstant false) := reach_newTT newTT_str0
    have hle : (setConstant false).bitwiseLe x = .ok true := (C53_partial_order x x x x2.reach x2.reach x2.reach).2.2.2.1
    obtain ⟨r', s', h1, h2, _, h4⟩ := C186_monotone _ x r0 x2.reach hle
    obtain ⟨q, q1, q2⟩ := share_spec r0.obj
    rw [h1] at q1
    cases q1
    rw [h2] at r1
    cases r1
    have hx := h4.1 (by
      rw [q2 _ le_rfl, e]
      rw [div_eq_zero_iff]
      left
      exact Finset.sum_eq_zero fun i _ => by rw [eval_const]; rfl)
    refine hf.canon.ext hg.canon fun a => ?_
    have := x3 a
    rw [← hx, eval_const] at this
    cases h5 : f.eval a <;> cases h6 : g.eval a <;> simp [h5, h6] at this ⊢
  · subst e
    rw [r2 _ le_rfl, div_eq_zero_iff]
    left
    exact Finset.sum_eq_zero fun i _ => by rw [x3]; simp

/-- **C186.** With the bitwise comparison as order `f & g` is the greatest lower bound and `f | g` the least upper bound;
the complement reverses the order. -/
theorem C186_lattice (f g h : Boolf) (hf : Reach f) (hg : Reach g) (hh : Reach h) :
    ∃ a o c d i, f.and g = .ok a ∧ f.or g = .ok o ∧ f.complement = .ok c ∧ g.complement = .ok d ∧ d.or h = .ok i ∧
      (h.bitwiseLe a = .ok true ↔ h.bitwiseLe f = .ok true ∧ h.bitwiseLe g = .ok true) ∧
      (o.bitwiseLe h = .ok true ↔ f.bitwiseLe h = .ok true ∧ g.bitwiseLe h = .ok true) ∧
      (f.bitwiseLe g = .ok true ↔ a = f) ∧ (f.bitwiseLe g = .ok true ↔ o = g) ∧
      (f.bitwiseLe g = .ok true ↔ d.bitwiseLe c = .ok true) ∧
      (a.bitwiseLe h = .ok true ↔ f.bitwiseLe i = .ok true) := by
  obtain ⟨a, a1, a2, a3⟩ := and_spec hf.canon.toSound hg.canon.toSound
  obtain ⟨o, o1, o2, o3⟩ := or_spec hf.canon.toSound hg.canon.toSound
  obtain ⟨c, c1, c2, c3⟩ := complement_spec hf.canon.toSound
  obtain ⟨d, d1, d2, d3⟩ := complement_spec hg.canon.toSound
  obtain ⟨i, i1, i2, i3⟩ := or_spec d2.toSound hh.canon.toSound
  refine ⟨a, o, c, d, i, a1, o1, c1, d1, i1, ?_, ?_, ?_, ?_, ?_, ?_⟩
  · rw [bitwiseLe_iff hh a2.reach, bitwiseLe_iff hh hf, bitwiseLe_iff hh hg]
    simp only [a3, Bool.and_eq_true]
    exact ⟨fun h => ⟨fun a ha => (h a ha).1, fun a ha => (h a ha).2⟩, fun h a ha => ⟨h.1 a ha, h.2 a ha⟩⟩
  · rw [bitwiseLe_iff o2.reach hh, bitwiseLe_iff hf hh, bitwiseLe_iff hg hh]
    simp only [o3, Bool.or_eq_true]
    exact ⟨fun h => ⟨fun a ha => h a (.inl ha), fun a ha => h a (.inr ha)⟩, fun h a ha => ha.elim (h.1 a) (h.2 a)⟩
  · rw [bitwiseLe_iff hf hg]
    constructor
    · intro h
      refine a2.ext hf.canon fun b => ?_
      have := h b
      rw [a3]
      cases h1 : f.eval b <;> simp_all
    · intro e b hb
      have := a3 b
      rw [e, hb] at this
      simpa using this.symm
  · rw [bitwiseLe_iff hf hg]
    constructor
    · intro h
      refine o2.ext hg.canon fun b => ?_
      have := h b
      rw [o3]
      cases h1 : f.eval b <;> simp_all
    · intro e b hb
      have := o3 b
      rw [e, hb] at this
      simpa using this
  · rw [bitwiseLe_iff hf hg, bitwiseLe_iff d2.reach c2.reach]
    refine forall_congr' fun b => ?_
    rw [c3, d3]
    cases f.eval b <;> cases g.eval b <;> simp
  · rw [bitwiseLe_iff a2.reach hh, bitwiseLe_iff hf i2.reach]
    refine forall_congr' fun b => ?_
    rw [a3, i3, d3]
    cases f.eval b <;> cases g.eval b <;> cases h.eval b <;> simp

/-- Two functions with overlapping atoms: `f` is the majority of three arguments, `g` is the first of them. -/
example : (do
    let f ← newTT (.list [0, 0, 0, 1, 0, 1, 1, 1])
    let g ← newTT (.list [0, 1])
    return (← f.weightFract, ← g.weightFract, ← (← f.and g).weightFract, ← (← f.or g).weightFract, ← (← f.xor g).weightFract)) =
      .ok (1 / 2, 1 / 2, 3 / 8, 5 / 8, 1 / 4) := by
  decide +kernel

example : (do
    let f ← newTT (.list [0, 0, 0, 1])
    let g ← newTT (.list [0, 0, 0, 1, 0, 1, 1, 1])
    return (← f.bitwiseLe g, ← g.bitwiseLe f, ← f.weightFract, ← g.weightFract)) = .ok (true, false, 1 / 4, 1 / 2) := by
  decide +kernel

end Verif.BF
