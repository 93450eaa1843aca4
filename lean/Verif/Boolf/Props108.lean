import Verif.Boolf.Props100
import Verif.Boolf.Props58

/-! # C187: twin and reverse generate six transformations -/

namespace Verif.BF
open Verif.Py Verif.BV Verif.P Verif.W
open Verif.A hiding Mat

/-- the exclusive or of the values at the places containing the digits of j -/
def supXor (n : Nat) (v : Nat → Bool) (j : Nat) : Bool := xorSum ((List.range (2 ^ n)).map fun i => v i && sub j i)

theorem xorSum_swap {α β : Type} (l : List α) (m : List β) (p : α → β → Bool) :
    xorSum (l.map fun a => xorSum (m.map fun b => p a b)) = xorSum (m.map fun b => xorSum (l.map fun a => p a b)) := by
  induction l with
  | nil => exact (xorSum_false m fun _ _ => rfl).symm
  | cons a l ih =>
    have : ∀ b, xorSum ((a :: l).map fun a => p a b) = (p a b ^^ xorSum (l.map fun a => p a b)) := fun b => rfl
    simp only [this]
    rw [xorSum_map_xor, ← ih]
    rfl

theorem sub_flip {n i j : Nat} (hi : i < 2 ^ n) (hj : j < 2 ^ n) : sub (i ^^^ (2 ^ n - 1)) (j ^^^ (2 ^ n - 1)) = sub j i := by
  rw [Bool.eq_iff_iff, sub_iff, sub_iff]
  refine forall_congr' fun k => ?_
  rw [Nat.testBit_xor, Nat.testBit_xor, Nat.testBit_two_pow_sub_one]
  by_cases hk : k < n
  · cases i.testBit k <;> cases j.testBit k <;> simp [hk]
  · rw [testBit_of_lt hi (by omega), testBit_of_lt hj (by omega)]
    simp

theorem subXor_sup (n : Nat) (v : Nat → Bool) (j : Nat) : subXor n (supXor n v) j = subXor n v (j ^^^ (2 ^ n - 1)) := by
  have e : ∀ i, (supXor n v i && sub i j) = xorSum ((List.range (2 ^ n)).map fun k => v k && (sub i k && sub i j)) := fun i => by
    unfold supXor
    rw [Bool.and_comm, ← xorSum_and_left]
    refine xorSum_congr fun k _ => ?_
    cases v k <;> cases sub i k <;> cases sub i j <;> rfl
  show xorSum _ = xorSum _
  simp only [e]
  rw [xorSum_swap]
  refine xorSum_congr fun k hk => ?_
  have hk := List.mem_range.1 hk
  rw [xorSum_and_left]
  congr 1
  have hm : k &&& j < 2 ^ n := lt_of_le_of_lt Nat.and_le_left hk
  have e2 : xorSum ((List.range (2 ^ n)).map fun i => sub i k && sub i j) = subXor n (fun _ => true) (k &&& j) := by
    refine xorSum_congr fun i _ => ?_
    rw [Bool.true_and, Bool.eq_iff_iff, Bool.and_eq_true, sub_iff, sub_iff, sub_iff, ← forall_and]
    refine forall_congr' fun t => ?_
    rw [Nat.testBit_and]
    cases i.testBit t <;> simp
  rw [e2, subXor_true hm, Bool.eq_iff_iff, decide_eq_true_eq, sub_iff]
  constructor
  · intro h t ht
    have h1 : t < n := by
      by_contra hc
      rw [testBit_of_lt hk (by omega)] at ht
      cases ht
    have h2 := congrArg (fun x => x.testBit t) h
    simp only [Nat.testBit_and, ht, Bool.true_and, Nat.zero_testBit] at h2
    rw [Nat.testBit_xor, h2, Nat.testBit_two_pow_sub_one]
    simp [h1]
  · intro h
    refine Nat.eq_of_testBit_eq fun t => ?_
    rw [Nat.zero_testBit, Nat.testBit_and]
    cases ht : k.testBit t
    · rfl
    · have := h t ht
      have h1 : t < n := by
        by_contra hc
        rw [testBit_of_lt hk (by omega)] at ht
        cases ht
      rw [Nat.testBit_xor, Nat.testBit_two_pow_sub_one] at this
      simpa [h1] using this

theorem flip_subXor_flip (n : Nat) (v : Nat → Bool) {j : Nat} (hj : j < 2 ^ n) :
    subXor n (fun i => v (i ^^^ (2 ^ n - 1))) (j ^^^ (2 ^ n - 1)) = supXor n v j := by
  have hc : 2 ^ n - 1 < 2 ^ n := by have := Nat.two_pow_pos n; omega
  unfold subXor supXor
  rw [← xorSum_xor hc fun i => v i && sub j i]
  refine xorSum_congr fun i hi => ?_
  have hi := List.mem_range.1 hi
  congr 1
  have := sub_flip (n := n) (i := i ^^^ (2 ^ n - 1)) (j := j) (Nat.xor_lt_two_pow hi hc) hj
  rwa [Nat.xor_assoc, Nat.xor_self, Nat.xor_zero] at this

theorem twin_flip_twin (n : Nat) (v : Nat → Bool) {j : Nat} (hj : j < 2 ^ n) :
    subXor n (fun i => subXor n v (i ^^^ (2 ^ n - 1))) j = supXor n v j := by
  rw [← subXor_subXor n (supXor n v) hj]
  exact subXor_congr (fun i _ => (subXor_sup n v i).symm) j

theorem reverse_key {f : Boolf} (hf : Sound f) {n : Nat} (hn : f.adicity ≤ n) : ∃ g, f.reverse = .ok g ∧ Canon g ∧ g.adicity ≤ n ∧
    ∀ j < 2 ^ n, g.eval j.testBit = f.eval (j ^^^ (2 ^ n - 1)).testBit := by
  obtain ⟨g, g1, g2, g3⟩ := reverse_spec hf
  refine ⟨g, g1, g2, adicity_le g2 fun a b hab => ?_, fun j _ => ?_⟩
  · rw [g3, g3]
    exact Boolf.eval_congr fun x hx => by rw [hab x ((hf.adic n).1 hn x hx)]
  · rw [g3]
    refine Boolf.eval_congr fun x hx => ?_
    rw [Nat.testBit_xor, Nat.testBit_two_pow_sub_one]
    simp [(hf.adic n).1 hn x hx]

/-- **C187.** The twin of the reverse of the twin is the reverse of the twin of the reverse: both paths lead to the function, whose value at j
is the parity of the number of true places, that have the digits of j among their digits. -/
theorem C187_braid (f : Boolf) (hf : Obj f) (n : Nat) (hn : f.adicity ≤ n) :
    ∃ t s r b p, f.twin (some (n : Int)) = .ok t ∧ t.reverse = .ok s ∧ s.twin (some (n : Int)) = .ok p ∧
      f.reverse = .ok r ∧ r.twin (some (n : Int)) = .ok b ∧ b.reverse = .ok p ∧ Reach p ∧ p.adicity ≤ n ∧
      ∀ j < 2 ^ n, p.getItem j = .ok (decide (OddMany (2 ^ n) fun i => f.getItem i = .ok true ∧ j &&& i = j)) := by
  have hc : 2 ^ n - 1 < 2 ^ n := by have := Nat.two_pow_pos n; omega
  obtain ⟨t, t1, t2, _, t4, t5⟩ := twin_spec hf.good.toSound hn
  obtain ⟨s, s1, s2, s3, s4⟩ := reverse_key t2.toSound t4
  obtain ⟨p, p1, p2, p3, p4, p5⟩ := twin_spec s2.toSound s3
  obtain ⟨r, r1, r2, r3, r4⟩ := reverse_key hf.good.toSound hn
  obtain ⟨b, b1, b2, _, b4, b5⟩ := twin_spec r2.toSound r3
  obtain ⟨q, q1, q2, q3, q4⟩ := reverse_key b2.toSound b4
  have hp : ∀ j < 2 ^ n, p.eval j.testBit = supXor n (fun i => f.eval i.testBit) j := fun j hj => by
    rw [p5 j hj, ← twin_flip_twin n _ hj]
    exact subXor_congr (fun i hi => by rw [s4 i hi, t5 _ (Nat.xor_lt_two_pow hi hc)]) j
  have hq : ∀ j < 2 ^ n, q.eval j.testBit = supXor n (fun i => f.eval i.testBit) j := fun j hj => by
    rw [q4 j hj, b5 _ (Nat.xor_lt_two_pow hj hc), ← flip_subXor_flip n _ hj]
    exact subXor_congr r4 _
  have e : q = p := ext_below q2 p2 q3 p4 fun j hj => by rw [hp j hj, hq j hj]
  subst e
  refine ⟨t, s, r, b, q, t1, s1, p1, r1, b1, q1, p3, p4, fun j hj => ?_⟩
  rw [getItem_eq p2.toSound, hp j hj]
  unfold supXor
  rw [xorSum_range]
  congr 1
  apply decide_eq_decide.2
  apply oddMany_congr
  intro i _
  rw [Bool.and_eq_true, sub_iff_and, getItem_eq hf.good.toSound]
  exact ⟨fun h => ⟨congrArg Except.ok h.1, h.2⟩, fun h => ⟨Except.ok.inj h.1, h.2⟩⟩

/-- **C187.** Taking three times the twin and its reverse leads back to the function. -/
theorem C187_order (f : Boolf) (hf : Reach f) (n : Nat) (hn : f.adicity ≤ n) : (do
    let a ← (← f.twin (some (n : Int))).reverse
    let b ← (← a.twin (some (n : Int))).reverse
    (← b.twin (some (n : Int))).reverse) = .ok f := by
  obtain ⟨t, s, r, b, p, h1, h2, h3, h4, h5, h6, _⟩ := C187_braid f hf.obj n hn
  obtain ⟨r', k1, k2, k3, _⟩ := reverse_key hf.canon.toSound hn
  rw [h4] at k1
  cases k1
  obtain ⟨b', m1, m2, _, _, m5⟩ := (C50_twin r k2.reach).1 n k3
  rw [h5] at m1
  cases m1
  obtain ⟨_, p', _, _, q1, _, q3, _⟩ := C52_involutions b m2
  rw [h6] at q1
  cases q1
  obtain ⟨_, r', _, _, w1, _, w3, _⟩ := C52_involutions f hf
  rw [h4] at w1
  cases w1
  simp only [h1, h2, h3, q3, m5, w3, bind, Except.bind]

/-- The function is true, if exactly two of three arguments are true; both paths lead to the function that is true for an even number of true arguments. -/
example : (do
    let f ← newTT (.list [0, 0, 0, 1, 0, 1, 1, 0])
    let p ← (← (← f.twin (some 3)).reverse).twin (some 3)
    let q ← (← (← f.reverse).twin (some 3)).reverse
    return ((← p.tt (.arity 3)).vector, p == q)) = .ok ([true, false, false, true, false, true, true, false], true) := by
  decide +kernel

/-- Three steps for the conjunction of two arguments: it goes through their joint denial and the constant true. -/
example : (do
    let f ← newTT (.list [0, 0, 0, 1])
    let a ← (← f.twin (some 2)).reverse
    let b ← (← a.twin (some 2)).reverse
    let c ← (← b.twin (some 2)).reverse
    return ((← a.tt (.arity 2)).vector, (← b.tt (.arity 2)).vector, c == f)) =
      .ok ([true, false, false, false], [true, true, true, true], true) := by
  decide +kernel

end Verif.BF
