import Verif.Boolf.Props110
import Verif.Boolf.Props52

/-! # C197: the signed permutations that do not change a Boolean function -/

namespace Verif.BF
open Verif.Py Verif.BV Verif.A Verif.P

/-- **C197.** `f.apply_sigperm(s)` is `f` iff the truth table has equal entries at each place and its image under the Schoute permutation. -/
theorem C197_table (f : Boolf) (hf : Reach f) (s : SG.SigPerm) (hs : SG.Finite s) :
    ∃ g q, f.applySigperm (.sigperm s) = .ok g ∧ s.schoutePerm = .ok q ∧ (g = f ↔ ∀ key, f.getItem (q.get key) = f.getItem key) := by
  obtain ⟨g, q, g1, q1, h⟩ := C196_table f hf.obj s hs
  obtain ⟨q', q1', q2, _⟩ := SG.C135_signed s hs
  rw [q1] at q1'
  cases q1'
  obtain ⟨g', g1', _, g3, _⟩ := action hf.obj hs
  rw [g1] at g1'
  cases g1'
  refine ⟨g, q, g1, q1, fun e key => by rw [← h key, e], fun e => (g3 hf.canon).ext_key hf.canon fun key => ?_⟩
  obtain ⟨k, rfl⟩ := q2.wf.get_bijective.2 key
  rw [h, e]

/-- **C197.** For unsigned permutations, the same holds for the digits of the Zhegalkin index. -/
theorem C197_zhe (f : Boolf) (hf : Reach f) (s : SG.SigPerm) (hs : SG.Finite s) (hu : s.unsigned = true) :
    ∃ g q z, f.applySigperm (.sigperm s) = .ok g ∧ s.schoutePerm = .ok q ∧ f.zhe = .ok z ∧ (g = f ↔ ∀ k, z.testBit (q.get k) = z.testBit k) := by
  obtain ⟨g, q, z, y, g1, q1, z1, y1, h⟩ := C196_zhe f hf.obj s hs hu
  obtain ⟨q', q1', q2, _⟩ := SG.C135_signed s hs
  rw [q1] at q1'
  cases q1'
  obtain ⟨g', g1', _, hr, _⟩ := C70_action f hf.obj s hs
  rw [g1] at g1'
  cases g1'
  refine ⟨g, q, z, g1, q1, z1, fun e k => ?_, fun e => ?_⟩
  · rw [e, z1] at y1
    cases y1
    exact h k
  · have : y = z := Nat.eq_of_testBit_eq fun i => by
      obtain ⟨k, rfl⟩ := q2.wf.get_bijective.2 i
      rw [h, e]
    exact zhe_inj (hr hf) hf (this ▸ y1) z1

/-- **C197.** The signed permutations that do not change a function are closed under products and inverses. -/
theorem C197_group (f : Boolf) (hf : Reach f) (s t : SG.SigPerm) (hs : SG.Finite s) (ht : SG.Finite t)
    (h : f.applySigperm (.sigperm s) = .ok f) (h' : f.applySigperm (.sigperm t) = .ok f) :
    ∃ u v, t.mul s = .ok u ∧ s.inverse = .ok v ∧ f.applySigperm (.sigperm u) = .ok f ∧ f.applySigperm (.sigperm v) = .ok f := by
  obtain ⟨g, k, u, g1, k1, u1, u2⟩ := C70_composition f hf s t hs ht
  obtain ⟨v, g', _, v1, g1', v2, _⟩ := C70_inverse f hf s hs
  rw [h] at g1 g1'
  cases g1
  cases g1'
  rw [h'] at k1
  cases k1
  exact ⟨u, v, u1, v1, u2, v2⟩

/-- Exchanging and negating both arguments does not change x0 xor x1; negating only one of them does. -/
example : (do
    let f ← new { zhe := some 6 }
    let s ← SG.new { sequence := some [-2, -1] }
    let t ← SG.new { sequence := some [-1, 1] }
    let g ← f.applySigperm (.sigperm s)
    let h ← f.applySigperm (.sigperm t)
    return (g.eq f, h.eq f)) = .ok (true, false) := by decide +kernel

end Verif.BF
