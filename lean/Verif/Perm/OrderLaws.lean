import Verif.Perm.Props4
import Mathlib.GroupTheory.OrderOfElement

/-! # C184: orders of powers and products -/

namespace Verif.P
open Verif.Py

theorem order_orderOf {p : Perm} (hp : Constructed p) {e : Equiv.Perm Nat} (he : ∀ i, e i = p.get i) : p.order = .ok (orderOf e) ∧ 0 < orderOf e := by
  obtain ⟨o, h1, h2, h3⟩ := hp.wf.order_spec
  have he' : ⇑e = p.get := funext he
  have key : ∀ n : Nat, e ^ n = 1 ↔ o ∣ n := by
    intro n
    rw [← h3]
    constructor
    · intro h i; rw [← he', Equiv.Perm.iterate_eq_pow, h]; rfl
    · intro h; ext i; rw [← Equiv.Perm.iterate_eq_pow, he', h]; rfl
  have : orderOf e = o := Nat.dvd_antisymm (orderOf_dvd_of_pow_eq_one ((key o).2 dvd_rfl)) ((key _).1 (pow_orderOf_eq_one e))
  rw [this]
  exact ⟨h1, h2⟩

/-- **C184.** The order of a power. -/
theorem C184_power (p : Perm) (hp : Constructed p) (n : Int) :
    ∃ q o, p.pow n = .ok q ∧ p.order = .ok o ∧ q.order = .ok (o / Nat.gcd o n.natAbs) := by
  obtain ⟨e, he⟩ := C08_bijection p hp
  obtain ⟨q, q1, q2, q3⟩ := C08_pow p hp e he n
  obtain ⟨h1, h2⟩ := order_orderOf hp he
  refine ⟨q, _, q1, h1, ?_⟩
  rw [(order_orderOf q2 (e := e ^ n) fun i => (q3 i).symm).1]
  congr 1
  have hfin : IsOfFinOrder e := orderOf_pos_iff.1 h2
  rcases Int.natAbs_eq n with h | h
  · conv_lhs => rw [h]
    rw [zpow_natCast, hfin.orderOf_pow]
  · conv_lhs => rw [h]
    rw [zpow_neg, orderOf_inv, zpow_natCast, hfin.orderOf_pow]

/-- **C184.** The order of a product does not depend on the order of the factors. -/
theorem C184_swap (p q : Perm) (hp : Constructed p) (hq : Constructed q) (hk : SameKind p q) :
    ∃ x y, p.mul q = .ok x ∧ q.mul p = .ok y ∧ x.order = y.order := by
  have hk' : SameKind q p := by
    rcases hk with h | h | h
    · exact Or.inr (Or.inl h)
    · exact Or.inl h
    · exact Or.inr (Or.inr h.symm)
  obtain ⟨e, he⟩ := C08_bijection p hp
  obtain ⟨g, hg⟩ := C08_bijection q hq
  obtain ⟨x, x1, x2, x3⟩ := (C06_mul p q hp hq).1 hk
  obtain ⟨y, y1, y2, y3⟩ := (C06_mul q p hq hp).1 hk'
  refine ⟨x, y, x1, y1, ?_⟩
  rw [(order_orderOf x2 (e := e * g) fun i => by rw [x3, Equiv.Perm.mul_apply, he, hg]).1,
    (order_orderOf y2 (e := g * e) fun i => by rw [y3, Equiv.Perm.mul_apply, he, hg]).1]
  congr 1
  have : MulAut.conj e (g * e) = e * g := by rw [MulAut.conj_apply]; group
  rw [← this, MulEquiv.orderOf_eq]

/-- **C184.** The order of a product of commuting permutations divides the least common multiple of the orders, and is their product if they are coprime. -/
theorem C184_commute (p q : Perm) (hp : Constructed p) (hq : Constructed q) (hk : SameKind p q) (hc : OkEq (p.mul q) (q.mul p)) :
    ∃ x a b c, p.mul q = .ok x ∧ p.order = .ok a ∧ q.order = .ok b ∧ x.order = .ok c ∧ c ∣ Nat.lcm a b ∧ (Nat.Coprime a b → c = a * b) := by
  obtain ⟨e, he⟩ := C08_bijection p hp
  obtain ⟨g, hg⟩ := C08_bijection q hq
  obtain ⟨x, x1, x2, x3⟩ := (C06_mul p q hp hq).1 hk
  obtain ⟨x', y, h1, h2, h3⟩ := hc
  rw [x1] at h1
  cases h1
  have hk' : SameKind q p := by
    by_contra hn
    rw [(C06_mul q p hq hp).2 hn] at h2
    cases h2
  obtain ⟨y', y1, y2, y3⟩ := (C06_mul q p hq hp).1 hk'
  rw [h2] at y1
  cases y1
  have hcom : Commute e g := by
    ext i
    have := (C05_eq_extensional x y x2 y2).1 h3 i
    rw [x3, y3] at this
    rw [Equiv.Perm.mul_apply, Equiv.Perm.mul_apply, he, hg, he, hg]
    exact this
  refine ⟨x, _, _, _, x1, (order_orderOf hp he).1, (order_orderOf hq hg).1,
    (order_orderOf x2 (e := e * g) fun i => by rw [x3, Equiv.Perm.mul_apply, he, hg]).1, hcom.orderOf_mul_dvd_lcm, hcom.orderOf_mul_eq_mul_orderOf_of_coprime⟩

theorem parity_of_get {p q : Perm} (hp : Constructed p) (hq : Constructed q) (hpf : p.perilen = none) (hqf : q.perilen = none) (h : p.get = q.get) :
    p.parity = q.parity := by
  obtain ⟨N, h1, h2⟩ : ∃ N, p.length ≤ N ∧ q.length ≤ N := ⟨max p.length q.length, by omega, by omega⟩
  have bp := hp.wf.maps_below N (Or.inl ⟨hpf, h1⟩)
  have bq := hq.wf.maps_below N (Or.inl ⟨hqf, h2⟩)
  have ip := hp.wf.get_bijective.1
  have iq := hq.wf.get_bijective.1
  have e : finPerm p.get N ip bp = finPerm q.get N iq bq := by
    ext i
    rw [finPerm_apply, finPerm_apply, h]
  have h := congrArg Equiv.Perm.sign e
  rw [sign_inversionSet hp hpf h1, sign_inversionSet hq hqf h2, neg_one_pow_inj] at h
  exact h

/-- **C184.** The parity of a power, and the order of an odd permutation. -/
theorem C184_parity (p : Perm) (hp : Constructed p) (hf : p.perilen = none) :
    (∀ n : Int, ∃ q, p.pow n = .ok q ∧ q.parity = n.natAbs * p.parity % 2) ∧ (p.parity = 1 → ∃ o, p.order = .ok o ∧ Even o) := by
  obtain ⟨e, he⟩ := C08_bijection p hp
  have step : ∀ n : Int, ∃ q r, p.pow n = .ok q ∧ p.pow (n + 1) = .ok r ∧ r.parity = (q.parity + p.parity) % 2 := by
    intro n
    obtain ⟨q, q1, q2, q3⟩ := C08_pow p hp e he n
    obtain ⟨r, r1, r2, r3⟩ := C08_pow p hp e he (n + 1)
    have qf := (pow_kind hp n q1).1 hf
    obtain ⟨x, x1, x2⟩ := C16_parity_mul q p q2 hp qf hf
    obtain ⟨y, y1, y2, y3, y4, _⟩ := mul_spec q2 hp (sameKind_of_fin qf hf)
    rw [x1] at y1
    cases y1
    refine ⟨q, r, q1, r1, ?_⟩
    rw [← x2]
    refine parity_of_get r2 y2 ((pow_kind hp (n + 1) r1).1 hf) (y4 qf hf) ?_
    funext i
    rw [r3, y3, Function.comp_apply, q3, ← he, zpow_add_one, Equiv.Perm.mul_apply]
  have zero : ∃ q, p.pow 0 = .ok q ∧ q.parity = 0 := by
    obtain ⟨q, q1, q2, q3⟩ := C08_pow p hp e he 0
    refine ⟨q, q1, ?_⟩
    rw [parity_of_get q2 constructed_neutral ((pow_kind hp 0 q1).1 hf) rfl (by funext i; rw [q3]; rfl)]
    rfl
  have main : ∀ n : Int, ∃ q, p.pow n = .ok q ∧ q.parity = n.natAbs * p.parity % 2 := by
    have h2 : p.parity < 2 := Nat.mod_lt _ (by omega)
    intro n
    induction n using Int.induction_on with
    | zero =>
      obtain ⟨q, q1, q2⟩ := zero
      exact ⟨q, q1, by simp [q2]⟩
    | succ n ih =>
      obtain ⟨q, q1, q2⟩ := ih
      obtain ⟨q', r, r1, r2, r3⟩ := step n
      rw [q1] at r1
      cases r1
      refine ⟨r, r2, ?_⟩
      rw [r3, q2, show ((n : Int) + 1).natAbs = n + 1 by omega, Int.natAbs_natCast, Nat.add_mul, Nat.one_mul]
      omega
    | pred n ih =>
      obtain ⟨q, q1, q2⟩ := ih
      obtain ⟨r, q', r1, r2, r3⟩ := step (-n - 1)
      rw [show -(n : Int) - 1 + 1 = -n by omega, q1] at r2
      cases r2
      refine ⟨r, r1, ?_⟩
      have h3 : r.parity < 2 := Nat.mod_lt _ (by omega)
      rw [q2, show (-(n : Int)).natAbs = n by omega] at r3
      rw [show (-(n : Int) - 1).natAbs = n + 1 by omega, Nat.add_mul, Nat.one_mul]
      omega
  refine ⟨main, fun hodd => ?_⟩
  obtain ⟨h1, _⟩ := order_orderOf hp he
  refine ⟨_, h1, ?_⟩
  obtain ⟨q, q1, q2⟩ := main (orderOf e : Int)
  obtain ⟨q', k1, k2, k3⟩ := C08_pow p hp e he (orderOf e : Int)
  rw [q1] at k1
  cases k1
  have : q.parity = 0 := by
    rw [parity_of_get k2 constructed_neutral ((pow_kind hp _ q1).1 hf) rfl (by funext i; rw [k3, zpow_natCast, pow_orderOf_eq_one]; rfl)]
    rfl
  rw [q2, hodd, Nat.mul_one, Int.natAbs_natCast] at this
  exact Nat.even_iff.2 this

/-! ## Examples -/

example : ∃ p q, mkPerm (.seq [1, 2, 3, 4, 5, 0]) = .ok p ∧ Constructed p ∧ p.perilen = none ∧ p.order = .ok 6 ∧ p.parity = 1 ∧ p.pow 4 = .ok q ∧ q.order = .ok 3 ∧ q.parity = 0 :=
  ⟨_, _, rfl, ⟨.seq [1, 2, 3, 4, 5, 0], none, trivial, rfl⟩, rfl, by decide +kernel, by decide +kernel, rfl, by decide +kernel, by decide +kernel⟩

/-- Two commuting permutations with coprime orders. -/
example : ∃ p q x, mkPerm (.seq [1, 0]) = .ok p ∧ mkPerm (.seq [0, 1, 3, 4, 2]) = .ok q ∧ SameKind p q ∧ p.mul q = .ok x ∧ OkEq (p.mul q) (q.mul p) ∧
    p.order = .ok 2 ∧ q.order = .ok 3 ∧ x.order = .ok 6 :=
  ⟨_, _, _, rfl, rfl, Or.inr (Or.inr rfl), rfl, ⟨_, _, rfl, rfl, by decide +kernel⟩, by decide +kernel, by decide +kernel, by decide +kernel⟩

end Verif.P
