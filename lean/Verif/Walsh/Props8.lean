import Verif.Walsh.Props7
import Verif.SigPerm.Schoute

/-! # C192: which Schoute permutations are Walsh permutations -/

namespace Verif.W
open Verif.Py Verif.P Verif.SG

theorem schoute_sequence {s : SigPerm} (hs : SG.Finite s) (hn : s.neutral = false) {q : Perm} (hq : s.schoutePerm = .ok q) (hc : P.Constructed q) :
    ∃ l, l = (List.range (2 ^ s.length)).map q.get ∧ l.Perm (List.range l.length) ∧ new { perm := some (.perm q) } = new { perm := some (.list l) } := by
  obtain ⟨l, l1, l2, l3⟩ := C34_perm_object q hc
  obtain ⟨h1, _⟩ := (C135_period s hs q hq).2 hn
  have e := C11_sequence_default q
  rw [h1] at e
  simp only at e
  rw [l1, ((C11_sequence q _).2 _ h1).1 (dvd_refl _)] at e
  exact ⟨l, Except.ok.inj e, l2, l3⟩

/-- **C192.** The Schoute permutation of a signed permutation that is not neutral is accepted as a Walsh permutation, iff nothing is negated.
Then both are the same function, and the degree is the length of the signed permutation. -/
theorem C192_accepted (s : SigPerm) (hs : SG.Finite s) :
    ∃ q, s.schoutePerm = .ok q ∧
      (s.neutral = true → new { perm := some (.perm q) } = .error .valueError) ∧
      (s.unsigned = false → new { perm := some (.perm q) } = .error .invalidPerm) ∧
      (s.unsigned = true → s.neutral = false → ∃ w, new { perm := some (.perm q) } = .ok w ∧ w.degree = s.length ∧ ∀ x, w.get x = .ok (q.get x)) := by
  obtain ⟨q, q1, q2, _, q4, q5⟩ := schoute_spec hs.wf
  obtain ⟨_, hu, _⟩ := C62_flags s hs
  rw [value_eq_val hs] at hu
  refine ⟨q, q1, fun h => ?_, fun h => ?_, fun h hn => ?_⟩
  · have hqn := (C135_period s hs q q1).1.2 h
    obtain ⟨l, l1, l2, l3⟩ := C34_perm_object q q2
    rw [l3]
    refine (C34_perm_list l).2.1 ?_
    obtain ⟨h1, h2⟩ := q2.wf.neutral_perilen hqn
    have e := C11_sequence_default q
    rw [h1] at e
    simp only at e
    rw [l1, ((C11_sequence q _).1 h1).1 (Nat.le_refl _), h2] at e
    exact Except.ok.inj e
  · have hn : s.neutral = false := by
      rw [hs.wf.neutral, h]; rfl
    obtain ⟨l, l1, l2, l3⟩ := schoute_sequence hs hn q1 q2
    have hlen : l.length = 2 ^ s.length := by rw [l1]; simp
    rw [l3]
    refine ((C34_perm_list l).2.2.2 s.length hlen l2).2 fun hc => ?_
    have hneg : ∃ i, s.val i < 0 := by
      by_contra hc
      rw [hu.2 fun i => by by_contra h; exact hc ⟨i, by omega⟩] at h
      cases h
    obtain ⟨i, hi⟩ := hneg
    have h0 : l[0]? = some (q.get 0) := by
      rw [l1, List.getElem?_map, List.getElem?_range (Nat.two_pow_pos _)]; rfl
    have h1 := hc 0 (Nat.two_pow_pos _) 0 (Nat.two_pow_pos _) _ _ h0 h0
    rw [Nat.xor_self, Nat.xor_self, h0] at h1
    have h2 := q5 0 i
    rw [Option.some.inj h1] at h2
    simp [hi] at h2
  · obtain ⟨l, l1, l2, l3⟩ := schoute_sequence hs hn q1 q2
    have hlen : l.length = 2 ^ s.length := by rw [l1]; simp
    have hpos : ∀ i, ¬ s.val i < 0 := fun i => by have := hu.1 h i; omega
    have hlin : ∀ a b, q.get (a ^^^ b) = q.get a ^^^ q.get b := fun a b => by
      refine Nat.eq_of_testBit_eq fun j => ?_
      obtain ⟨i, rfl⟩ := hs.wf.signed.surj j
      rw [Nat.testBit_xor, q5, q5, q5, Nat.testBit_xor]
      simp [hpos i]
    have hl : ∀ i < 2 ^ s.length, l[i]? = some (q.get i) := fun i hi => by
      rw [l1, List.getElem?_map, List.getElem?_range hi]; rfl
    obtain ⟨w, w1, w2, w3⟩ := ((C34_perm_list l).2.2.2 s.length hlen l2).1 (fun i hi j hj a b ha hb => by
      rw [hl i hi] at ha
      rw [hl j hj] at hb
      rw [hl _ (Nat.xor_lt_two_pow hi hj), hlin, Option.some.inj ha, Option.some.inj hb])
    rw [l3]
    have hw : Constructed w := ⟨_, rfl, w1⟩
    obtain ⟨f, f1, _⟩ := C34_linear w hw
    have hdeg := (C36_degree w hw f f1).1
    have hper := (hdeg s.length).1 w2
    have hqp : ∀ x, q.get (x + 2 ^ s.length) = q.get x + 2 ^ s.length := fun x => by
      have := q4 x 1
      rwa [Nat.mul_one] at this
    have heq : ∀ x, f x = q.get x := by
      intro x
      induction x using Nat.strong_induction_on with
      | _ x ih =>
        by_cases hx : x < 2 ^ s.length
        · have h1 := w3 x (by omega)
          rw [f1] at h1
          have h2 := hl x hx
          rw [List.getElem?_eq_getElem (by omega)] at h2
          rw [Except.ok.inj h1, Option.some.inj h2]
        · have hp := Nat.two_pow_pos s.length
          have h1 := hper (x - 2 ^ s.length)
          have h2 := hqp (x - 2 ^ s.length)
          rw [Nat.sub_add_cancel (by omega)] at h1 h2
          rw [h1, h2, ih _ (by omega)]
    refine ⟨w, w1, Nat.le_antisymm w2 ?_, fun x => by rw [f1, heq]⟩
    obtain ⟨hl1, _⟩ := (C135_period s hs q q1).2 hn
    have := (C05_period_minimal q q2 _ hl1).2 (2 ^ w.degree) (Nat.two_pow_pos _) fun i => by
      rw [← heq, ← heq, (hdeg w.degree).1 (Nat.le_refl _)]
    exact (Nat.pow_le_pow_iff_right (by omega)).1 this

/-- Swapping two binary digits is a Walsh permutation; swapping and negating them is not. -/
example : ((do
    let s ← SG.new { sequence := some [1, 0] }
    let q ← s.schoutePerm
    let w ← new { perm := some (.perm q) }
    return (s.unsigned, s.neutral, w.degree, ← q.sequence) : Except Err _)) = .ok (true, false, 2, [0, 2, 1, 3]) := by decide +kernel

example : ((do
    let s ← SG.new { sequence := some [-2, 0] }
    let q ← s.schoutePerm
    let w ← new { perm := some (.perm q) }
    return w.degree : Except Err _)) = .error .invalidPerm := by decide +kernel

theorem countP_single {n c : Nat} (hc : c < n) (P : Nat → Bool) : (List.range n).countP (fun k => (2 ^ c).testBit k && P k) = if P c then 1 else 0 := by
  have : ∀ m, (List.range m).countP (fun k => (2 ^ c).testBit k && P k) = if c < m ∧ P c then 1 else 0 := by
    intro m
    induction m with
    | zero => rfl
    | succ m ih =>
      rw [List.range_succ, List.countP_append, ih, List.countP_singleton, Nat.testBit_two_pow]
      by_cases h1 : c = m
      · subst h1
        cases P c <;> simp
      · by_cases h2 : c < m
        · cases P c <;> simp [h1, h2]; omega
        · simp [h1, h2]; omega
  rw [this]
  simp [hc]

/-- **C192.** The Walsh permutation of an unsigned signed permutation is orthogonal: its transpose is its inverse. -/
theorem C192_orthogonal (s : SigPerm) (hs : SG.Finite s) (hu : s.unsigned = true) (hn : s.neutral = false) :
    ∃ q w v u, s.schoutePerm = .ok q ∧ new { perm := some (.perm q) } = .ok w ∧ w.transpose = .ok v ∧ w.inverse = .ok u ∧ v.eq u = true := by
  obtain ⟨q, q1, q2, _, _, q5⟩ := schoute_spec hs.wf
  obtain ⟨q', q1', _, _, hw⟩ := C192_accepted s hs
  rw [q1] at q1'
  cases q1'
  obtain ⟨w, w1, w2, w3⟩ := hw hu hn
  have hw : Constructed w := ⟨_, rfl, w1⟩
  obtain ⟨v, _, v1, v2, _, _, _, _, v3⟩ := C35_transpose w hw
  obtain ⟨u, u1, u2, u3, _⟩ := C35_inverse w hw
  refine ⟨q, w, v, u, q1, w1, v1, u1, (C36_eq_extensional v u v2 u2).2 fun x => ?_⟩
  obtain ⟨f, f1, _⟩ := C34_linear v v2
  rw [f1, eq_comm, u3, w3]
  congr 1
  obtain ⟨z, rfl⟩ := q2.wf.get_bijective.2 x
  congr 1
  have hpos : ∀ i, ¬ s.val i < 0 := fun i => by
    have := (C62_flags s hs).2.1
    rw [value_eq_val hs] at this
    have := this.1 hu i
    omega
  refine Nat.eq_of_testBit_eq fun m => ?_
  have hqm : q.get (2 ^ m) = 2 ^ nabs (s.val m) := by
    refine Nat.eq_of_testBit_eq fun j => ?_
    obtain ⟨i, rfl⟩ := hs.wf.signed.surj j
    rw [q5, Nat.testBit_two_pow, Nat.testBit_two_pow]
    simp only [hpos i, decide_false, Bool.xor_false]
    refine decide_eq_decide.2 ⟨fun h => by rw [h], fun h => hs.wf.signed.injective _ _ h⟩
  have h1 := v3 (max w.degree (max m (nabs (s.val m)) + 1)) (by omega) (2 ^ m) (q.get z) _ _ (w3 _) (f1 _)
  rw [hqm, countP_single (by omega), countP_single (by omega), q5] at h1
  simp only [hpos m, decide_false, Bool.xor_false] at h1
  revert h1
  cases z.testBit m <;> cases (f (q.get z)).testBit m <;> simp

/-- A cycle of three digits meets the conditions. -/
example : ∃ s, SG.new { sequence := some [1, 2, 0] } = .ok s ∧ SG.Finite s ∧ s.unsigned = true ∧ s.neutral = false :=
  ⟨_, rfl, ⟨⟨{ sequence := some [1, 2, 0] }, by simp, rfl⟩, by decide⟩, by decide, by decide⟩

end Verif.W
