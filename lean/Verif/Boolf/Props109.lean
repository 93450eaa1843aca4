import Verif.Boolf.Props2

/-! # C195: the atoms of a function are those in its algebraic normal form -/

namespace Verif.BF
open Verif.Py Verif.BV Verif.A

/-- The number without the binary digit at `a`. -/
def clearBit (a j : Nat) : Nat := if j.testBit a then j ^^^ 2 ^ a else j

theorem testBit_clearBit (a j k : Nat) : (clearBit a j).testBit k = (j.testBit k && decide (k ≠ a)) := by
  unfold clearBit
  by_cases h : k = a
  · subst h
    by_cases hj : j.testBit k = true
    · rw [if_pos hj, Nat.testBit_xor, Nat.testBit_two_pow_self, hj]; simp
    · rw [if_neg hj]; simp [hj]
  · split
    · rw [Nat.testBit_xor, Nat.testBit_two_pow]; simp [h, Ne.symm h]
    · simp [h]

theorem sub_clearBit {a k : Nat} (hk : k.testBit a = false) (j : Nat) : sub k (clearBit a j) = sub k j := by
  rw [Bool.eq_iff_iff, sub_iff, sub_iff]
  refine forall_congr' fun i => ⟨fun h hi => ?_, fun h hi => ?_⟩
  · have := h hi
    rw [testBit_clearBit, Bool.and_eq_true] at this
    exact this.1
  · rw [testBit_clearBit, h hi, Bool.true_and, decide_eq_true_eq]
    rintro rfl
    rw [hk] at hi
    cases hi

theorem sub_clearBit' {a k : Nat} (hk : k.testBit a = true) (j : Nat) : sub k (clearBit a j) = false := by
  rw [Bool.eq_false_iff]
  intro h
  have := sub_iff.1 h a hk
  rw [testBit_clearBit] at this
  simp at this

theorem subXor_clearBit (n a : Nat) (z : Nat → Bool) (j : Nat) : subXor n z (clearBit a j) = subXor n (fun k => z k && !k.testBit a) j := by
  unfold subXor
  congr 1
  refine List.map_congr_left fun k _ => ?_
  cases hk : k.testBit a
  · rw [sub_clearBit hk]; simp [hk]
  · rw [sub_clearBit' hk]; simp [hk]

theorem anf_eval {f : Boolf} (h : Sound f) {z : Nat} (hz : f.zhe = .ok z) (key : Nat) : f.eval key.testBit = subXor f.adicity z.testBit key := by
  obtain ⟨z', z1, _, z3⟩ := zhe_spec h
  rw [hz] at z1
  cases z1
  rw [← subXor_mod, ← eval_mod h le_rfl]
  have hlt := Nat.mod_lt key (Nat.two_pow_pos f.adicity)
  rw [subXor_congr z3, subXor_subXor _ _ hlt]

/-- **C195.** The atoms of a function are exactly the binary digits of the exponents of its Zhegalkin index. -/
theorem C195_atoms (f : Boolf) (hf : Reach f) (z : Nat) (hz : f.zhe = .ok z) (a : Nat) :
    a ∈ f.atomvals ↔ ∃ k, z.testBit k = true ∧ k.testBit a = true := by
  have h := hf.canon.toSound
  have anf := anf_eval h hz
  obtain ⟨z', z1, z2, z3⟩ := zhe_spec h
  rw [hz] at z1
  cases z1
  rw [(C48_atoms f hf).2.1]
  constructor
  · rintro ⟨key, hk⟩
    by_contra hc
    apply hk
    have hy : ∀ k, (z.testBit k && !k.testBit a) = z.testBit k := fun k => by
      cases h1 : z.testBit k <;> cases h2 : k.testBit a
      · rfl
      · rfl
      · rfl
      · exact absurd ⟨k, h1, h2⟩ hc
    have hcl : ∀ j, f.eval (clearBit a j).testBit = f.eval j.testBit := fun j => by
      rw [anf, anf, subXor_clearBit]
      simp only [hy]
    rw [getItem_eq h, getItem_eq h, ← hcl key, ← hcl (key ^^^ 2 ^ a)]
    congr 3
    refine Nat.eq_of_testBit_eq fun i => ?_
    rw [testBit_clearBit, testBit_clearBit, Nat.testBit_xor, Nat.testBit_two_pow]
    by_cases hi : i = a
    · simp [hi]
    · simp [hi, Ne.symm hi]
  · rintro ⟨k, k1, k2⟩
    by_contra hc
    have hcl : ∀ j, f.eval (clearBit a j).testBit = f.eval j.testBit := fun j => by
      unfold clearBit
      split
      · by_contra hne
        refine hc ⟨j, fun e => hne ?_⟩
        rw [getItem_eq h, getItem_eq h] at e
        exact (Except.ok.inj e).symm
      · rfl
    have hk : k < 2 ^ f.adicity := by
      by_contra hge
      rw [testBit_of_lt z2 (by omega)] at k1
      cases k1
    have hz' : ∀ j < 2 ^ f.adicity, f.eval j.testBit = subXor f.adicity (fun k => z.testBit k && !k.testBit a) j := fun j _ => by
      rw [← subXor_clearBit, ← anf, hcl]
    have := z3 k hk
    rw [subXor_congr hz', subXor_subXor _ _ hk, k1, k2] at this
    cases this

/-- **C195.** So the Zhegalkin index is below 2 to the power of 2^n, iff the adicity is at most n. -/
theorem C195_bound (f : Boolf) (hf : Reach f) (n : Nat) : ∃ z, f.zhe = .ok z ∧ (z < 2 ^ 2 ^ n ↔ f.adicity ≤ n) := by
  have h := hf.canon.toSound
  obtain ⟨z, z1, z2, _⟩ := zhe_spec h
  refine ⟨z, z1, fun hlt => ?_, fun hn => lt_of_lt_of_le z2 (Nat.pow_le_pow_right (by omega) (Nat.pow_le_pow_right (by omega) hn))⟩
  rw [h.adic]
  intro a ha
  obtain ⟨k, k1, k2⟩ := (C195_atoms f hf z z1 a).1 ha
  by_contra hc
  have h1 := Nat.ge_two_pow_of_testBit k2
  have h2 := Nat.ge_two_pow_of_testBit k1
  have h3 : 2 ^ n ≤ k := le_trans (Nat.pow_le_pow_right (by omega) (by omega)) h1
  have h4 : 2 ^ 2 ^ n ≤ z := le_trans (Nat.pow_le_pow_right (by omega) h3) h2
  omega

/-- The function x0 xor (x1 and x3), made from its Zhegalkin index 2^1 + 2^10, has the atoms 0, 1 and 3. -/
example : (do
    let f ← new { zhe := some 1026 }
    return (f.atomvals, f.adicity, ← f.zhe)) = .ok ([0, 1, 3], 4, 1026) := by decide +kernel

end Verif.BF
