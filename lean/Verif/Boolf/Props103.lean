import Verif.Boolf.Props8

/-! # C181: which functions have a given patron -/

namespace Verif.BF
open Verif.Py Verif.BV Verif.P Verif.W

theorem patronInt_upper {f : Boolf} (h : Sound f) {m : Nat} (hm : f.adicity ≤ m) :
    ∃ p, f.patronInt ((m + 1 : Nat) : Int) = .ok p ∧ Noble (m + 1) p ∧ p / 2 ^ 2 ^ m = valB ((List.range (2 ^ m)).map fun i => f.eval i.testBit) := by
  obtain ⟨p, p1, p2, p3⟩ := patronInt_spec h (n := m + 1) (by omega)
  refine ⟨p, p1, p2, ?_⟩
  apply Nat.eq_of_testBit_eq
  intro j
  rw [testBit_upper, testBit_valB_range]
  have hp := two_pow_succ m
  by_cases hj : j < 2 ^ m
  · have hper : ∀ i < 2 ^ m, f.eval (2 ^ m + i).testBit = f.eval i.testBit := by
      intro i hi
      rw [← eval_mod h hm, Nat.add_mod_left, Nat.mod_eq_of_lt hi]
    rw [p3 _ (by omega), subXor_high _ hj, subXor_congr (u := fun i => f.eval (2 ^ m + i).testBit) hper, Bool.xor_self, Bool.xor_false, hper j hj]
    simp [hj]
  · rw [testBit_of_lt p2.1 (by omega)]
    simp [hj]

/-- **C181.** For functions of the first m atoms, the patron index for m+1 is the integer value of the truth table. -/
theorem C181_index (f : Boolf) (hf : Obj f) (m : Nat) (hm : f.adicity ≤ m) :
    ∃ t, f.tt (.arity m) = .ok t ∧ f.patronIndex (m + 1) = .ok t.intval := by
  have hs := hf.good.toSound
  obtain ⟨p, p1, p2, p3⟩ := patronInt_upper hs hm
  refine ⟨_, tt_arity_eq hs hm, ?_⟩
  unfold Boolf.patronIndex
  rw [p1]
  simp only [bind, Except.bind]
  rw [nobleToIndex_spec p2, p3, intval_eq]

/-- **C181.** Every noble is the patron of exactly one function of fewer atoms: the one whose truth table is the upper half of the noble. -/
theorem C181_unique (m z : Nat) (hz : Noble (m + 1) z) :
    ∃ f, newTT (.int (z / 2 ^ 2 ^ m)) none (some (m : Int)) = .ok f ∧ f.adicity ≤ m ∧ f.patronInt ((m + 1 : Nat) : Int) = .ok z ∧
      ∀ g, Reach g → g.adicity ≤ m → g.patronInt ((m + 1 : Nat) : Int) = .ok z → g = f := by
  obtain ⟨f, f1, f2, f3, f4⟩ := newTT_int_table (upper_lt hz.1)
  obtain ⟨p, p1, p2, p3⟩ := patronInt_upper f2.canon.toSound f3
  have e : p = z := by
    apply noble_ext p2 hz
    rw [p3]
    apply Nat.eq_of_testBit_eq
    intro j
    rw [testBit_valB_range]
    by_cases hj : j < 2 ^ m
    · rw [f4, Nat.mod_eq_of_lt hj]
      simp [hj]
    · rw [testBit_of_lt (upper_lt hz.1) (by omega)]
      simp [hj]
  subst e
  refine ⟨f, f1, f3, p1, fun g hg hgm hgp => ?_⟩
  obtain ⟨q, q1, q2, q3⟩ := patronInt_upper hg.canon.toSound hgm
  rw [hgp] at q1
  cases q1
  refine ext_below hg.canon f2.canon hgm f3 fun j hj => ?_
  have h1 := congrArg (·.testBit j) (q3.symm.trans p3)
  simpa [testBit_valB_range, hj] using h1

/-- **C181.** Two functions have the same patron iff they differ by a noble. -/
theorem C181_same (f g : Boolf) (hf : Reach f) (hg : Reach g) (n : Nat) (hfn : f.adicity ≤ n) (hgn : g.adicity ≤ n) :
    ∃ p q x b, f.patronInt n = .ok p ∧ g.patronInt n = .ok q ∧ f.xor g = .ok x ∧ x.isNoble (some (n : Int)) = .ok b ∧ (p = q ↔ b = true) := by
  obtain ⟨p, p1, p2, p3⟩ := patronInt_spec hf.canon.toSound hfn
  obtain ⟨q, q1, q2, q3⟩ := patronInt_spec hg.canon.toSound hgn
  obtain ⟨x, x1, x2, x3⟩ := xor_spec hf.canon.toSound hg.canon.toSound
  have hA : x.adicity ≤ n := by
    apply adicity_le x2
    intro a b hab
    rw [x3, x3, Boolf.eval_congr fun y hy => hab y ((hf.canon.toSound.adic n).1 hfn y hy),
      Boolf.eval_congr fun y hy => hab y ((hg.canon.toSound.adic n).1 hgn y hy)]
  refine ⟨p, q, x, _, p1, q1, x1, isNoble_spec x2.reach hA, ?_⟩
  rw [decide_eq_true_eq]
  have hx : ∀ j, subXor n (fun i : Nat => x.eval i.testBit) j =
      (subXor n (fun i : Nat => f.eval i.testBit) j ^^ subXor n (fun i : Nat => g.eval i.testBit) j) := by
    intro j
    rw [← subXor_xor]
    exact subXor_congr (fun i _ => x3 _) j
  constructor
  · rintro rfl j hj
    have h := (p3 j hj).symm.trans (q3 j hj)
    rw [hx, x3]
    revert h
    cases f.eval j.testBit <;> cases g.eval j.testBit <;> cases subXor n (fun i : Nat => f.eval i.testBit) j <;>
      cases subXor n (fun i : Nat => g.eval i.testBit) j <;> simp
  · intro h
    apply Nat.eq_of_testBit_eq
    intro j
    by_cases hj : j < 2 ^ n
    · have h := h j hj
      rw [hx, x3] at h
      rw [p3 j hj, q3 j hj]
      revert h
      cases f.eval j.testBit <;> cases g.eval j.testBit <;> cases subXor n (fun i : Nat => f.eval i.testBit) j <;>
        cases subXor n (fun i : Nat => g.eval i.testBit) j <;> simp
    · rw [testBit_of_lt p2.1 (by omega), testBit_of_lt q2.1 (by omega)]

/-- The nor of two atoms: its truth table for 2 atoms is 1, and its patron for 3 atoms is the noble 30 with the index 1. -/
example : (do
    let f ← newTT (.list [1, 0, 0, 0])
    return ((← f.tt (.arity 2)).intval, ← f.patronInt 3, ← f.patronIndex 3, 30 / 2 ^ 2 ^ 2)) = .ok (1, 30, 1, 1) := by decide +kernel

end Verif.BF
