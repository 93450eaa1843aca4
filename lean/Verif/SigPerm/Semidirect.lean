import Verif.SigPerm.Props2

/-! # C191: negators and permutations of products and inverses of signed permutations -/

namespace Verif.SG
open Verif.Py Verif.P Verif.BV Verif.A

theorem valneg_bit (s : SigPerm) (i : Nat) : s.valnegIndex.testBit (s.perm.get i) = true ↔ s.val i < 0 := by
  rw [val_neg, ← List.contains_iff_mem]
  exact ((C26_attributes s.binv).2.2.2.1 _).symm

theorem keyneg_bit {s : SigPerm} (hs : Finite s) : ∃ k, s.keynegIndex = .ok k ∧ ∀ i, k.testBit i = true ↔ s.val i < 0 := by
  obtain ⟨k, _, _, h, _, hk, _⟩ := C31_keyneg_index s hs
  exact ⟨k, h, fun i => by rw [hk, value_eq hs.wf]⟩

theorem inverse_bits {s u : SigPerm} (h : ∀ i : Nat, ext u.val (s.val i) = i) (i : Nat) :
    u.perm.get (s.perm.get i) = i ∧ (u.val (s.perm.get i) < 0 ↔ s.val i < 0) := by
  have h1 := congrArg nabs (h i)
  rw [nabs_ext, nabs_val, nabs_val, nabs_nat] at h1
  have h2 := ext_neg u.val (s.val i)
  rw [h i, nabs_val] at h2
  refine ⟨h1, ?_⟩
  have : ¬ ((i : Int) < 0) := by omega
  tauto

/-- **C191.** The inverse exchanges the two negators: `s.keyneg_index == s.inverse.valneg_index` and `s.valneg_index == s.inverse.keyneg_index`;
its permutation is the inverse of the permutation. -/
theorem C191_inverse (s : SigPerm) (hs : Finite s) :
    ∃ u p k k', s.inverse = .ok u ∧ s.perm.inverse = .ok p ∧ u.perm.eq p = true ∧ s.keynegIndex = .ok k ∧ u.keynegIndex = .ok k' ∧
      u.valnegIndex = k ∧ s.valnegIndex = k' := by
  obtain ⟨u, u1, u2, _, u4, u5, u6⟩ := inverse_spec hs.wf
  obtain ⟨p, p1, p2, _, p4, p5, p6⟩ := P.inverse_spec hs.wf.constructed
  obtain ⟨k, k1, k2⟩ := keyneg_bit hs
  obtain ⟨k', k3, k4⟩ := keyneg_bit u4
  refine ⟨u, p, k, k', u1, p1, (C05_eq_extensional _ _ u2.constructed p2).2 fun i => ?_, k1, k3, Nat.eq_of_testBit_eq fun i => ?_, Nat.eq_of_testBit_eq fun j => ?_⟩
  · obtain ⟨j, rfl⟩ := hs.wf.constructed.wf.get_bijective.2 i
    rw [(inverse_bits u5 j).1, p5]
  · have := inverse_bits u5 i
    rw [Bool.eq_iff_iff, k2, ← this.2, ← valneg_bit, this.1]
  · have := inverse_bits u6 j
    rw [Bool.eq_iff_iff, k4, ← this.2, ← valneg_bit, this.1]

example : (do
    let s ← new { sequence := some [-3, 0, -2] }
    let u ← s.inverse
    return (← s.keynegIndex, s.valnegIndex, ← u.keynegIndex, u.valnegIndex)) = .ok (5, 6, 6, 5) := by decide +kernel

/-- **C191.** The permutation of a product is the product of the permutations.  An entry of the product is negated, iff exactly one of the two
entries on its way is negated; this determines both negators. -/
theorem C191_product (s t : SigPerm) (hs : Finite s) (ht : Finite t) :
    ∃ u p a b c, s.mul t = .ok u ∧ s.perm.mul t.perm = .ok p ∧ u.perm.eq p = true ∧
      s.keynegIndex = .ok a ∧ t.keynegIndex = .ok b ∧ u.keynegIndex = .ok c ∧
      (∀ i, c.testBit i = (b.testBit i != a.testBit (t.perm.get i))) ∧
      ∀ i, u.valnegIndex.testBit (s.perm.get i) = (s.valnegIndex.testBit (s.perm.get i) != t.valnegIndex.testBit i) := by
  obtain ⟨u, u1, u2, _, u4, u5⟩ := mul_spec hs.wf ht.wf
  obtain ⟨p, p1, p2, p3⟩ := (C06_mul s.perm t.perm hs.wf.constructed ht.wf.constructed).1 (by
    unfold SameKind
    simp [hs.wf.finite, ht.wf.finite])
  obtain ⟨a, a1, a2⟩ := keyneg_bit hs
  obtain ⟨b, b1, b2⟩ := keyneg_bit ht
  obtain ⟨c, c1, c2⟩ := keyneg_bit u4
  have hg : ∀ i, u.perm.get i = s.perm.get (t.perm.get i) := fun i => by
    rw [← nabs_val, u5, nabs_ext, nabs_val, nabs_val]
  have hn : ∀ i, u.val i < 0 ↔ (t.val i < 0 ↔ ¬ s.val (t.perm.get i) < 0) := fun i => by
    rw [u5, ext_neg, nabs_val]
  refine ⟨u, p, a, b, c, u1, p1, (C05_eq_extensional _ _ u2.constructed p2).2 fun i => by rw [hg, p3], a1, b1, c1, fun i => ?_, fun i => ?_⟩
  · have h1 := c2 i
    have h2 := b2 i
    have h3 := a2 (t.perm.get i)
    rw [hn, ← h2, ← h3] at h1
    revert h1
    cases c.testBit i <;> cases b.testBit i <;> cases a.testBit (t.perm.get i) <;> decide
  · obtain ⟨j, rfl⟩ := ht.wf.constructed.wf.get_bijective.2 i
    have h1 := valneg_bit u j
    rw [hg, hn, ← valneg_bit t, ← valneg_bit s] at h1
    revert h1
    cases u.valnegIndex.testBit (s.perm.get (t.perm.get j)) <;> cases s.valnegIndex.testBit (s.perm.get (t.perm.get j)) <;>
      cases t.valnegIndex.testBit (t.perm.get j) <;> decide

example : (do
    let s ← new { sequence := some [-3, 0, 1] }
    let t ← new { sequence := some [1, -1, 2] }
    let u ← s.mul t
    return (← s.sequence none, ← t.sequence none, ← u.sequence none, ← u.keynegIndex, u.valnegIndex)) =
    .ok ([-3, 0, 1], [1, -1], [0, 2, 1], 0, 0) := by decide +kernel

/-- **C191.** Every signed permutation is a product of negations and a permutation: `SigPerm(valneg=b, perm=p)` negates after permuting, and
`SigPerm(keyneg=b, perm=p)` before. -/
theorem C191_factors (b : Binv) (p : Perm) (hp : Constructed p) (hf : p.perilen = none) (z : Binv) (hz : z.intval = 0) :
    ∃ n q v k x y, new { valneg := some (.binv b), perm := some (.perm neutralPerm) } = .ok n ∧
      new { valneg := some (.binv z), perm := some (.perm p) } = .ok q ∧
      new { valneg := some (.binv b), perm := some (.perm p) } = .ok v ∧
      new { keyneg := some (.binv b), perm := some (.perm p) } = .ok k ∧
      n.mul q = .ok x ∧ q.mul n = .ok y ∧ (∀ i, x.value i = v.value i) ∧ ∀ i, y.value i = k.value i := by
  obtain ⟨n, n1, n2, n3, _⟩ := C31_valneg b neutralPerm constructed_neutral rfl
  obtain ⟨q, q1, q2, q3, _⟩ := C31_valneg z p hp hf
  obtain ⟨v, v1, v2, v3, _⟩ := C31_valneg b p hp hf
  obtain ⟨k, k1, k2, k3, _⟩ := C31_keyneg b p hp hf
  obtain ⟨x, x1, _, _, x2, _⟩ := C32_product n q n2 q2
  obtain ⟨y, y1, _, _, y2, _⟩ := C32_product q n q2 n2
  have hq : ∀ i, q.value i = p.get i := fun i => by rw [q3, hz, Nat.zero_testBit]; rfl
  have hn : ∀ i, neutralPerm.get i = i := fun i => rfl
  refine ⟨n, q, v, k, x, y, n1, q1, v1, k1, x1, y1, fun i => ?_, fun i => ?_⟩
  · rw [x2, v3, hq]
    unfold SigPerm.apply
    rw [if_neg (by omega), Int.toNat_natCast, n3, hn]
  · rw [y2, k3, n3, hn]
    by_cases h : b.intval.testBit i = true
    · rw [if_pos h, if_pos h]
      unfold SigPerm.apply
      rw [if_pos (by unfold inv; omega), inv_inv, Int.toNat_natCast, hq]
    · rw [if_neg h, if_neg h]
      unfold SigPerm.apply
      rw [if_neg (by omega), Int.toNat_natCast, hq]

example : (do
    let n ← new { valneg := some (.list [1, 0, 1]), perm := some (.perm neutralPerm) }
    let q ← new { valneg := some (.list []), perm := some (.arg (.seq [2, 0, 1])) }
    let x ← n.mul q
    let y ← q.mul n
    return (← x.sequence none, ← y.sequence none)) = .ok ([-3, -1, 1], [-3, 0, -2]) := by decide +kernel

end Verif.SG
