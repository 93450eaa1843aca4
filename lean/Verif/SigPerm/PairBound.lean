import Verif.SigPerm.Semidirect
import Verif.Perm.RankBound

/-! # C194: the sizes of the indices of signed permutations -/

namespace Verif.SG
open Verif.Py Verif.P Verif.BV Verif.A

/-- **C194.** The length of a signed permutation is at most n, iff the first number of its pair is below 2^n and the second one below n!.
The same is true with `keyneg_index` as first number. -/
theorem C194_length (s : SigPerm) (hs : Finite s) (n : Nat) :
    ∃ v r k, s.pair = .ok (v, r) ∧ s.keynegIndex = .ok k ∧
      (s.length ≤ n ↔ v < 2 ^ n ∧ r < n.factorial) ∧ (s.length ≤ n ↔ k < 2 ^ n ∧ r < n.factorial) := by
  have h := hs.wf
  obtain ⟨r, r1, r2⟩ := C193_bound s.perm h.constructed h.finite n
  obtain ⟨k, k1, k2⟩ := keyneg_bit hs
  have hv := (C26_attributes s.binv).2.2.2.2.2.2 n
  have first : s.length ≤ n ↔ s.valnegIndex < 2 ^ n ∧ r < n.factorial := by
    rw [r2, h.length]
    unfold SigPerm.valnegIndex
    rw [← hv, max_le_iff]
  refine ⟨s.valnegIndex, r, k, ?_, k1, first, ?_⟩
  · unfold SigPerm.pair SigPerm.permIndex
    rw [r1]; rfl
  · constructor
    · intro hl
      refine ⟨Nat.lt_pow_two_of_testBit _ fun i hi => ?_, (first.1 hl).2⟩
      by_contra hc
      have := (k2 i).1 (Bool.eq_true_of_not_eq_false hc)
      rw [(h.length_le n).1 hl i hi] at this
      omega
    · rintro ⟨h1, h2⟩
      rw [h.length_le]
      intro i hi
      have hfix : s.perm.get i = i := (C05_length_minimal s.perm h.constructed h.finite n).2 (r2.1 h2) i hi
      have hpos : ¬ s.val i < 0 := fun hc => by
        have h3 := (k2 i).2 hc
        rw [Nat.testBit_lt_two_pow (Nat.lt_of_lt_of_le h1 (Nat.pow_le_pow_right (by omega) hi))] at h3
        cases h3
      have h4 := nabs_val s i
      rw [hfix] at h4
      rcases nabs_cases (s.val i) with ⟨_, h5⟩ | ⟨h5, _⟩
      · rw [h5, h4]
      · exact absurd h5 hpos

/-- **C194.** So the pairs with a first number below 2^n and a second one below n! belong exactly to the signed permutations of length at most n. -/
theorem C194_enumerates (n : Nat) :
    (∀ v r : Nat, v < 2 ^ n → r < n.factorial → ∃ s, new { pair := some (v, r) } = .ok s ∧ Finite s ∧ s.length ≤ n) ∧
    ∀ s, Finite s → s.length ≤ n → ∃ (v r : Nat) (t : SigPerm), v < 2 ^ n ∧ r < n.factorial ∧ new { pair := some (v, r) } = .ok t ∧
      ∀ i, t.value i = s.value i := by
  constructor
  · intro v r hv hr
    obtain ⟨s, s1, s2, s3⟩ := C31_pair.2 v r
    obtain ⟨v', r', _, h1, _, h2, _⟩ := C194_length s s2 n
    rw [s3] at h1
    cases h1
    exact ⟨s, s1, s2, h2.2 ⟨hv, hr⟩⟩
  · intro s hs hn
    obtain ⟨v, r, t, h1, _, _, _, h2, _, _, h3, _⟩ := C31_pair.1 s hs
    obtain ⟨v', r', _, h1', _, h4, _⟩ := C194_length s hs n
    rw [h1] at h1'
    cases h1'
    exact ⟨v, r, t, (h4.1 hn).1, (h4.1 hn).2, h2, h3⟩

/-- A negation alone can determine the length: 0 and 1 are fixed, and 2 is sent to ~2. -/
example : (do
    let s ← new { sequence := some [0, 1, -3] }
    return (s.length, ← s.pair, ← s.keynegIndex)) = .ok (3, (4, 0), 4) := by decide +kernel

example : (do
    let s ← new { sequence := some [-3, 0, 1] }
    return (s.length, ← s.pair, ← s.keynegIndex)) = .ok (3, (4, 3), 1) := by decide +kernel

end Verif.SG
