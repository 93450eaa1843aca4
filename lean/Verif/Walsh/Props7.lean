import Verif.Walsh.Props3
import Mathlib.Combinatorics.Pigeonhole

/-! # C188: powers, inverses and transposes of Walsh permutations -/

namespace Verif.W
open Verif.Py Verif.P

theorem equiv_of {w : Walsh} (hw : Constructed w) : ∃ e : Equiv.Perm Nat, (∀ x, w.get x = .ok (e x)) ∧ ∀ x, e x / 2 ^ w.degree = x / 2 ^ w.degree := by
  obtain ⟨f, h1, h2, _, h4, _⟩ := C34_linear w hw
  exact ⟨Equiv.ofBijective f h2, h1, h4⟩

theorem inverse_get {w v : Walsh} (hw : Constructed w) (hv : w.inverse = .ok v) {e : Equiv.Perm Nat} (he : ∀ x, w.get x = .ok (e x)) (x : Nat) :
    v.get x = .ok (e⁻¹ x) := by
  obtain ⟨v', v1, _, v3, _⟩ := C35_inverse w hw
  rw [hv] at v1
  cases v1
  rw [v3, he]
  exact congrArg Except.ok (e.apply_symm_apply x)

theorem mul_get {a b c : Walsh} (ha : Constructed a) (hb : Constructed b) (hc : a.mul b = .ok c) {e d : Equiv.Perm Nat} (he : ∀ x, a.get x = .ok (e x))
    (hd : ∀ x, b.get x = .ok (d x)) (x : Nat) : c.get x = .ok ((e * d) x) := by
  obtain ⟨c', c1, _, c3⟩ := C35_mul a b ha hb
  rw [hc] at c1
  cases c1
  rw [c3, hd]
  exact he _

theorem neutral_transpose {t : Walsh} (ht : neutralWalsh.transpose = .ok t) (x : Nat) : t.get x = .ok x := by
  obtain ⟨v, _, v1, v2, v3, _⟩ := C35_transpose neutralWalsh ⟨{}, rfl, rfl⟩
  rw [ht] at v1
  cases v1
  obtain ⟨e, e1, _⟩ := equiv_of v2
  obtain ⟨_, _, h3, h4, _⟩ := C36_degree t v2 e e1
  rw [e1, h3.1 (h4.2 v3)]

/-- **C188.** The transpose of the inverse is the inverse of the transpose. -/
theorem C188_transpose_inverse (w : Walsh) (hw : Constructed w) :
    ∃ i t a b, w.inverse = .ok i ∧ w.transpose = .ok t ∧ i.transpose = .ok a ∧ t.inverse = .ok b ∧ a.eq b = true := by
  obtain ⟨i, i1, i2, _, i4, _⟩ := C35_inverse w hw
  obtain ⟨c, ct, t, a, d, h1, h2, h3, h4, h5, h6⟩ := C35_transpose_mul w i hw i2
  rw [i4] at h1
  cases h1
  obtain ⟨_, _, t1, t2, _⟩ := C35_transpose w hw
  rw [h3] at t1
  cases t1
  obtain ⟨_, _, a1, a2, _⟩ := C35_transpose i i2
  rw [h4] at a1
  cases a1
  obtain ⟨b, b1, b2, _⟩ := C35_inverse t t2
  refine ⟨i, t, a, b, i1, h3, h4, b1, ?_⟩
  obtain ⟨_, d1, d2, _⟩ := C35_mul a t a2 t2
  rw [h5] at d1
  cases d1
  obtain ⟨_, _, n1, n2, _⟩ := C35_transpose neutralWalsh ⟨{}, rfl, rfl⟩
  rw [h2] at n1
  cases n1
  rw [C36_eq_extensional ct d n2 d2] at h6
  obtain ⟨e, e1, _⟩ := equiv_of t2
  obtain ⟨g, g1, _⟩ := equiv_of a2
  have hg : g * e = 1 := by
    ext x
    have := h6 x
    rw [neutral_transpose h2, mul_get a2 t2 h5 g1 e1] at this
    exact (Except.ok.inj this).symm
  rw [C36_eq_extensional a b a2 b2]
  intro x
  rw [g1, inverse_get t2 b1 e1, eq_inv_of_mul_eq_one_left hg]

/-- **C188.** Powers of a Walsh permutation fulfil the laws of powers, also for negative exponents. -/
theorem C188_powers (w : Walsh) (hw : Constructed w) (m n : Int) :
    ∃ a b c d p q, w.pow m = .ok a ∧ w.pow n = .ok b ∧ a.mul b = .ok c ∧ w.pow (m + n) = .ok d ∧ a.pow n = .ok p ∧ w.pow (m * n) = .ok q ∧
      c.eq d = true ∧ p.eq q = true := by
  obtain ⟨e, e1, _⟩ := equiv_of hw
  obtain ⟨a, a1, a2, a3⟩ := C35_pow w hw e e1 m
  obtain ⟨b, b1, b2, b3⟩ := C35_pow w hw e e1 n
  obtain ⟨c, c1, c2, _⟩ := C35_mul a b a2 b2
  obtain ⟨d, d1, d2, d3⟩ := C35_pow w hw e e1 (m + n)
  obtain ⟨p, p1, p2, p3⟩ := C35_pow a a2 _ a3 n
  obtain ⟨q, q1, q2, q3⟩ := C35_pow w hw e e1 (m * n)
  refine ⟨a, b, c, d, p, q, a1, b1, c1, d1, p1, q1, ?_, ?_⟩
  · rw [C36_eq_extensional c d c2 d2]
    intro x
    rw [mul_get a2 b2 c1 a3 b3, d3, zpow_add]
  · rw [C36_eq_extensional p q p2 q2]
    intro x
    rw [p3, q3, zpow_mul]

theorem pow_fixes {e : Equiv.Perm Nat} {N : Nat} (x : Nat) (s : Finset Nat) (hs : s.card ≤ N) (h : ∀ k : Nat, (e ^ k) x ∈ s) : (e ^ N.factorial) x = x := by
  obtain ⟨i, hi, j, hj, hne, he⟩ := Finset.exists_ne_map_eq_of_card_lt_of_maps_to (s := Finset.range (N + 1)) (t := s) (f := fun k => (e ^ k) x)
    (by rw [Finset.card_range]; omega) (fun k _ => h k)
  have key : ∀ i j : Nat, i < j → j ≤ N → (e ^ i) x = (e ^ j) x → (e ^ N.factorial) x = x := by
    intro i j hij hj he
    have h1 : (e ^ (j - i)) x = x := by
      have : (e ^ i) ((e ^ (j - i)) x) = (e ^ i) x := by
        rw [← Equiv.Perm.mul_apply, ← pow_add, Nat.add_sub_cancel' (by omega), he]
      exact (e ^ i).injective this
    obtain ⟨k, hk⟩ := Nat.dvd_factorial (show 0 < j - i by omega) (show j - i ≤ N by omega)
    rw [hk, pow_mul]
    have : ∀ k : Nat, ((e ^ (j - i)) ^ k) x = x := by
      intro k
      induction k with
      | zero => rfl
      | succ k ih => rw [pow_succ, Equiv.Perm.mul_apply, h1, ih]
    exact this k
  have hi := Finset.mem_range.1 hi
  have hj := Finset.mem_range.1 hj
  rcases Nat.lt_or_gt_of_ne hne with h1 | h1
  · exact key i j h1 (by omega) he
  · exact key j i h1 (by omega) he.symm

/-- **C188.** Some positive power of a Walsh permutation is neutral, and the powers of a Walsh permutation repeat with this number. -/
theorem C188_finite_order (w : Walsh) (hw : Constructed w) : ∃ k : Nat, 0 < k ∧ ∃ v, w.pow k = .ok v ∧ v.neutral = true ∧
    ∀ n : Int, ∃ a b, w.pow n = .ok a ∧ w.pow (n + k) = .ok b ∧ a.eq b = true := by
  obtain ⟨e, e1, e2⟩ := equiv_of hw
  have hk : e ^ (2 ^ w.degree).factorial = 1 := by
    ext x
    refine pow_fixes x (Finset.Ico (x / 2 ^ w.degree * 2 ^ w.degree) ((x / 2 ^ w.degree + 1) * 2 ^ w.degree)) ?_ fun k => ?_
    · rw [Nat.card_Ico, Nat.add_mul, Nat.one_mul, Nat.add_sub_cancel_left]
    · have : (e ^ k) x / 2 ^ w.degree = x / 2 ^ w.degree := by
        induction k with
        | zero => rfl
        | succ k ih => rw [pow_succ', Equiv.Perm.mul_apply, e2, ih]
      rw [Finset.mem_Ico, ← Nat.le_div_iff_mul_le (Nat.two_pow_pos _), ← Nat.div_lt_iff_lt_mul (Nat.two_pow_pos _), this]
      omega
  refine ⟨(2 ^ w.degree).factorial, Nat.factorial_pos _, ?_⟩
  obtain ⟨v, v1, v2, v3⟩ := C35_pow w hw e e1 (2 ^ w.degree).factorial
  refine ⟨v, v1, ?_, fun n => ?_⟩
  · obtain ⟨_, _, h, _⟩ := C36_degree v v2 _ v3
    rw [h, zpow_natCast, hk]
    exact fun x => rfl
  · obtain ⟨a, a1, a2, a3⟩ := C35_pow w hw e e1 n
    obtain ⟨b, b1, b2, b3⟩ := C35_pow w hw e e1 (n + (2 ^ w.degree).factorial)
    refine ⟨a, b, a1, b1, ?_⟩
    rw [C36_eq_extensional a b a2 b2]
    intro x
    rw [a3, b3, zpow_add, zpow_natCast, hk, mul_one]

/-- The vector [2, 3] gives a Walsh permutation with 1 → 2 → 3 → 1; its square and its inverse map 1 to 3, and its third power maps 1 to itself. -/
example : ∃ w a b i, new { vector := some [2, 3] } = .ok w ∧ Constructed w ∧ w.pow 2 = .ok a ∧ w.pow 3 = .ok b ∧ w.inverse = .ok i ∧
    a.get 1 = .ok 3 ∧ i.get 1 = .ok 3 ∧ w.get 1 = .ok 2 ∧ b.get 1 = .ok 1 := by
  obtain ⟨w, w1, _, w2⟩ := C34_vector [2, 3] (by decide) (by
    have key : ∀ s ∈ [2, 3].sublists, s ≠ [] → s.foldl (· ^^^ ·) 0 ≠ 0 := by decide
    exact fun s hs => key s (List.mem_sublists.2 hs))
  have hw : Constructed w := ⟨_, rfl, w1⟩
  obtain ⟨f, hf, hbij, hx, _⟩ := C34_linear w hw
  have he : ∀ x, w.get x = .ok (Equiv.ofBijective f hbij x) := hf
  have f1 : f 1 = 2 := Except.ok.inj ((hf 1).symm.trans (w2 0))
  have f2 : f 2 = 3 := Except.ok.inj ((hf 2).symm.trans (w2 1))
  have f3 : f 3 = 1 := by have := hx 1 2; rw [f1, f2] at this; exact this
  obtain ⟨a, a1, _, a3⟩ := C35_pow w hw _ he 2
  obtain ⟨b, b1, _, b3⟩ := C35_pow w hw _ he 3
  obtain ⟨i, i1, _, i3, _⟩ := C35_inverse w hw
  refine ⟨w, a, b, i, w1, hw, a1, b1, i1, ?_, ?_, ?_, ?_⟩
  · rw [a3]
    show Except.ok (f (f 1)) = _
    rw [f1, f2]
  · rw [i3, hf, f3]
  · rw [hf, f1]
  · rw [b3]
    show Except.ok (f (f (f 1))) = _
    rw [f1, f2, f3]

end Verif.W
