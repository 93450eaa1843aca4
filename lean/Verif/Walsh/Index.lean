import Verif.Walsh.Ctor

/-! # `walsh_function_to_index` -/

namespace Verif.W
open Verif.Py Verif.BV Verif.P
open Verif.A hiding Mat
open Verif.SG (Mat)

/-- the linear function with Walsh index `w` -/
def linF (d w i : Nat) : Bool := bsum d fun k => w.testBit k && i.testBit k

/-- number of changes in the values of a function at 0, …, n -/
def chg (f : Nat → Bool) (n : Nat) : Nat := (List.range n).countP fun i => f i ≠ f (i + 1)

theorem chg_add (f : Nat → Bool) (m n : Nat) : chg f (m + n) = chg f m + chg (fun i => f (m + i)) n := by
  unfold chg
  rw [List.range_add, List.countP_append, List.countP_map]
  rfl

theorem chg_congr {f g : Nat → Bool} {n : Nat} (c : Bool) (h : ∀ i ≤ n, f i = (g i ^^ c)) : chg f n = chg g n := by
  unfold chg
  apply List.countP_congr
  intro i hi
  have hi := List.mem_range.1 hi
  rw [h i (by omega), h (i + 1) (by omega)]
  cases g i <;> cases g (i + 1) <;> cases c <;> simp

theorem linF_low {d w i : Nat} (hi : i < 2 ^ d) : linF (d + 1) w i = linF d w i := by
  unfold linF
  rw [bsum, Nat.testBit_lt_two_pow hi]
  simp

theorem linF_high {d w i : Nat} (hi : i < 2 ^ d) : linF (d + 1) w (2 ^ d + i) = (linF d w i ^^ w.testBit d) := by
  unfold linF
  rw [bsum]
  have e := fun j => Nat.testBit_two_pow_mul_add 1 hi j
  rw [Nat.mul_one] at e
  congr 1
  · apply bsum_congr
    intro k hk
    rw [e, if_pos hk]
  · rw [e, if_neg (by omega), Nat.sub_self]
    simp

theorem linF_top (d w : Nat) : linF d w (2 ^ d - 1) = bsum d w.testBit := by
  unfold linF
  apply bsum_congr
  intro k hk
  rw [Nat.testBit_two_pow_sub_one]
  simp [hk]

theorem linF_zero (d w : Nat) : linF d w 0 = false := by
  unfold linF
  apply bsum_false
  intro i _
  simp

/-- The number of changes doubles with the arity, plus one in the middle. -/
theorem chg_linF (d w : Nat) :
    chg (linF (d + 1) w) (2 ^ (d + 1) - 1) = 2 * chg (linF d w) (2 ^ d - 1) + (bsum (d + 1) w.testBit).toNat := by
  have hp := Nat.two_pow_pos d
  have e : 2 ^ (d + 1) - 1 = (2 ^ d - 1) + (1 + (2 ^ d - 1)) := by rw [Nat.pow_succ]; omega
  rw [e, chg_add, chg_add]
  rw [chg_congr (f := linF (d + 1) w) (g := linF d w) false (fun i hi => by rw [linF_low (by omega)]; simp)]
  rw [chg_congr (f := fun i => linF (d + 1) w (2 ^ d - 1 + (1 + i))) (g := linF d w) (w.testBit d) (fun i hi => by
    rw [← linF_high (by omega : i < 2 ^ d)]
    congr 1
    omega)]
  have hmid : chg (fun i => linF (d + 1) w (2 ^ d - 1 + i)) 1 = (bsum (d + 1) w.testBit).toNat := by
    unfold chg
    have h1 : linF (d + 1) w (2 ^ d - 1 + 0) = bsum d w.testBit := by
      show linF (d + 1) w (2 ^ d - 1) = _
      rw [linF_low (by omega), linF_top]
    have h2 : linF (d + 1) w (2 ^ d - 1 + (0 + 1)) = w.testBit d := by
      have : 2 ^ d - 1 + (0 + 1) = 2 ^ d + 0 := by omega
      rw [this, linF_high hp, linF_zero]
      simp
    simp only [List.range_one, List.countP_singleton, h1, h2, bsum]
    cases bsum d w.testBit <;> cases w.testBit d <;> rfl
  rw [hmid]
  omega

theorem testBit_chg (d w t : Nat) (ht : t < d) : (chg (linF d w) (2 ^ d - 1)).testBit (d - 1 - t) = bsum (t + 1) w.testBit := by
  induction d with
  | zero => omega
  | succ d ih =>
    rw [chg_linF]
    by_cases h : t = d
    · subst h
      rw [show t + 1 - 1 - t = 0 by omega, Nat.testBit_zero]
      cases bsum (t + 1) w.testBit <;> simp
    · rw [show d + 1 - 1 - t = (d - 1 - t) + 1 by omega, Nat.testBit_succ, ← ih (by omega)]
      congr 1
      cases bsum (d + 1) w.testBit <;> simp; omega

theorem chg_lt (f : Nat → Bool) (d : Nat) : chg f (2 ^ d - 1) < 2 ^ d := by
  unfold chg
  have := List.countP_le_length (p := fun i => decide (f i ≠ f (i + 1))) (l := List.range (2 ^ d - 1))
  rw [List.length_range] at this
  have := Nat.two_pow_pos d
  omega

/-- the permutation returns the Walsh index -/
theorem act_wp_chg {d w : Nat} (hw : w < 2 ^ d) : act d (colB (wpVec d)) (chg (linF d w) (2 ^ d - 1)) = w := by
  apply Nat.eq_of_testBit_eq
  intro j
  by_cases hj : j < d
  · rw [testBit_act_wp (chg_lt _ _) hj, testBit_chg d w j hj, bsum]
    cases j with
    | zero =>
      rw [Nat.testBit_lt_two_pow (lt_of_lt_of_le (chg_lt _ d) (Nat.pow_le_pow_right (by omega) (by omega)))]
      simp [bsum]
    | succ j =>
      have := testBit_chg d w j (by omega)
      rw [show d - (j + 1) = d - 1 - j by omega, this]
      cases bsum (j + 1) w.testBit <;> simp
  · rw [Nat.testBit_lt_two_pow (lt_of_lt_of_le (act_lt _ le_rfl (chg_lt _ _)) (Nat.pow_le_pow_right (by omega) (by omega))),
      Nat.testBit_lt_two_pow (lt_of_lt_of_le hw (Nat.pow_le_pow_right (by omega) (by omega)))]

theorem linB_eq (d w : Nat) : linB d (w : Int) false = ⟨(List.range (2 ^ d)).map (linF d w)⟩ := by
  unfold linB linF
  congr 1
  apply List.map_congr_left
  intro i _
  rw [Bool.xor_false]
  apply bsum_congr
  intro k _
  rw [wbit_nat]

theorem changes_map (d : Nat) (f : Nat → Bool) : (⟨(List.range (2 ^ d)).map f⟩ : Binv).changes = chg f (2 ^ d - 1) := by
  rw [changes_eq]
  unfold chg Binv.length
  simp only [List.length_map, List.length_range]
  apply List.countP_congr
  intro i hi
  have hi := List.mem_range.1 hi
  rw [List.getElem?_map, List.getElem?_map, List.getElem?_range (by omega), List.getElem?_range (by omega)]
  simp

theorem isPowerOfTwo_pow (d : Nat) : isPowerOfTwo (2 ^ d) = true := by
  unfold isPowerOfTwo
  rw [Nat.log2_two_pow]
  simp

theorem isPowerOfTwo_iff {n : Nat} : isPowerOfTwo n = true ↔ ∃ d, n = 2 ^ d := by
  constructor
  · intro h
    unfold isPowerOfTwo at h
    simp only [decide_eq_true_eq] at h
    exact ⟨_, h.2.symm⟩
  · rintro ⟨d, rfl⟩; exact isPowerOfTwo_pow d

theorem makeLinearBinv_walsh {d w : Nat} (hd : 0 < d) (hw : w < 2 ^ d) :
    makeLinearBinv { walsh := some (w : Int), arity := some (d : Int) } = .ok ⟨(List.range (2 ^ d)).map (linF d w)⟩ := by
  rw [makeLinearBinv_eq _ d hd rfl (Or.inl rfl), linCoords_walsh]
  simp only [Option.getD_none, true_or, if_true]
  have hw' : (w : Int) < 2 ^ d := by exact_mod_cast hw
  rw [if_pos hw', ← linB_eq]
  rfl

/-- the untrusted branch -/
theorem wfi_eq {d : Nat} (hd : 0 < d) (b : Binv) (hb : b.length = 2 ^ d) :
    walshFunctionToIndex b = if b = ⟨(List.range (2 ^ d)).map (linF d (act d (colB (wpVec d)) b.changes))⟩ then
      .ok (act d (colB (wpVec d)) b.changes) else .error .notWalshRow := by
  have h2 : 2 ≤ 2 ^ d := by
    calc 2 = 2 ^ 1 := rfl
      _ ≤ 2 ^ d := Nat.pow_le_pow_right (by omega) (by omega)
  have hne : b.eq ⟨[false]⟩ = false := by
    unfold Binv.eq
    simp only [beq_eq_false_iff_ne, ne_eq]
    intro h
    unfold Binv.length at hb
    rw [h] at hb
    simp at hb
    omega
  unfold walshFunctionToIndex
  rw [hne]
  simp only [Bool.false_eq_true, if_false, hb, isPowerOfTwo_pow, Nat.log2_two_pow, if_true, if_neg (by omega : ¬ d = 0)]
  obtain ⟨w, h1, h3⟩ := wp_get hd
  have h1' : newVector (((2 ^ (d - 1) :: (List.range' 1 (d - 1)).map fun i => 2 ^ (d - i - 1) * 3)).map Int.ofNat) = .ok w := h1
  simp only [bind, Except.bind]
  rw [h1']
  simp only
  rw [h3]
  simp only
  have hlt : b.changes < 2 ^ d := by
    rw [changes_eq, hb]
    have := List.countP_le_length (p := fun i => decide (b.vector[i]? ≠ b.vector[i + 1]?)) (l := List.range (2 ^ d - 1))
    rw [List.length_range] at this
    omega
  rw [makeLinearBinv_walsh hd (act_lt _ le_rfl hlt)]
  simp only
  unfold Binv.eq
  by_cases h : b = ⟨(List.range (2 ^ d)).map (linF d (act d (colB (wpVec d)) b.changes))⟩
  · rw [if_pos h, if_pos]
    rw [beq_iff_eq]
    exact congrArg Binv.vector h
  · rw [if_neg h, if_neg]
    rw [beq_iff_eq]
    intro hc
    apply h
    obtain ⟨v⟩ := b
    exact congrArg Binv.mk hc

theorem wfi_linear {d w : Nat} (hd : 0 < d) (hw : w < 2 ^ d) :
    walshFunctionToIndex ⟨(List.range (2 ^ d)).map (linF d w)⟩ = .ok w := by
  rw [wfi_eq hd _ (by simp [Binv.length]), changes_map, act_wp_chg hw, if_pos rfl]

theorem linF_two_pow {d w k : Nat} (hk : k < d) : linF d w (2 ^ k) = w.testBit k := by
  unfold linF
  rw [bsum_single hk (fun i _ h => by rw [Nat.testBit_two_pow_of_ne (Ne.symm h)]; simp)]
  simp

theorem wfi_trust {d w : Nat} (hw : w < 2 ^ d) :
    walshFunctionToIndex ⟨(List.range (2 ^ d)).map (linF d w)⟩ true = .ok w := by
  unfold walshFunctionToIndex
  by_cases h0 : (⟨(List.range (2 ^ d)).map (linF d w)⟩ : Binv).eq ⟨[false]⟩ = true
  · rw [if_pos h0]
    unfold Binv.eq at h0
    rw [beq_iff_eq] at h0
    have := congrArg List.length h0
    simp only [List.length_map, List.length_range, List.length_singleton] at this
    rw [this] at hw
    congr 1
    omega
  · rw [if_neg h0]
    have hlen : (⟨(List.range (2 ^ d)).map (linF d w)⟩ : Binv).length = 2 ^ d := by simp [Binv.length]
    simp only [hlen, isPowerOfTwo_pow, Nat.log2_two_pow, if_true]
    simp only [bind, Except.bind, pure, Except.pure]
    rw [mapM_except_map _ _ w.testBit]
    · simp only [ofBools_eq, intval_eq]
      congr 1
      apply Nat.eq_of_testBit_eq
      intro j
      rw [testBit_valB_range]
      by_cases hj : j < d
      · simp [hj]
      · simp only [hj, decide_false, Bool.false_and]
        exact (Nat.testBit_lt_two_pow (lt_of_lt_of_le hw (Nat.pow_le_pow_right (by omega) (by omega)))).symm
    · intro k hk
      have hk := List.mem_range.1 hk
      unfold Binv.getItem
      rw [List.getElem?_map, List.getElem?_range (Nat.pow_lt_pow_right (by omega) hk)]
      simp only [Option.map_some, linF_two_pow hk]

/-- `linF` is the linear function in terms of the number of common digits -/
theorem linF_count (d w i : Nat) : linF d w i = decide ((List.range d).countP (fun k => w.testBit k && i.testBit k) % 2 = 1) :=
  bsum_count _ _

end Verif.W
