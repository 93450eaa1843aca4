import Mathlib.Analysis.SpecialFunctions.Log.Base
import Mathlib.Analysis.SpecialFunctions.Log.Deriv
import Mathlib.Algebra.Order.Round

/-!
# Floating point numbers

The numbers of python's `float` (IEEE 754 binary64) as real numbers, and rounding to nearest.  Exponents are not bounded: no overflow, no subnormal numbers.
Ties can be broken in any way.  This is a specification of the library that the code relies on; nothing in the repository is modelled here.
-/

namespace Verif.Fl

/-- A number with a mantissa of 53 binary digits. -/
def IsDouble (x : ℝ) : Prop := ∃ m e : ℤ, |m| < 2 ^ 53 ∧ x = (m : ℝ) * (2 : ℝ) ^ e

/-- `y` is a floating point number, and none is nearer to `x`. -/
def Nearest (x y : ℝ) : Prop := IsDouble y ∧ ∀ d, IsDouble d → |y - x| ≤ |d - x|

theorem two_zpow_pos (e : ℤ) : (0 : ℝ) < (2 : ℝ) ^ e := zpow_pos (by norm_num) e

theorem isDouble_int {m : ℤ} (h : |m| < 2 ^ 53) : IsDouble (m : ℝ) := ⟨m, 0, h, by simp⟩

theorem isDouble_nat {n : ℕ} (h : n < 2 ^ 53) : IsDouble (n : ℝ) := by
  have := isDouble_int (m := (n : ℤ)) (by rw [abs_of_nonneg (by omega)]; exact_mod_cast h)
  simpa using this

theorem isDouble_zpow (e : ℤ) : IsDouble ((2 : ℝ) ^ e) := ⟨1, e, by norm_num, by simp⟩

theorem isDouble_pow (k : ℕ) : IsDouble ((2 : ℝ) ^ k) := by simpa using isDouble_zpow (k : ℤ)

/-- Multiples of `2 ^ e` up to `2 ^ (e + 53)` are floating point numbers. -/
theorem isDouble_multiple {j e : ℤ} (h : |j| ≤ 2 ^ 53) : IsDouble ((j : ℝ) * (2 : ℝ) ^ e) := by
  rcases lt_or_eq_of_le h with h | h
  · exact ⟨j, e, h, rfl⟩
  · rcases eq_or_eq_neg_of_abs_eq h with rfl | rfl
    · refine ⟨1, e + 53, by norm_num, ?_⟩
      rw [zpow_add₀ (by norm_num)]
      push_cast
      norm_num
      ring
    · refine ⟨-1, e + 53, by norm_num, ?_⟩
      rw [zpow_add₀ (by norm_num)]
      push_cast
      norm_num
      ring

/-- Floating point numbers that are not smaller than `2 ^ k` are multiples of `2 ^ (k - 52)`. -/
theorem IsDouble.multiple {d : ℝ} (h : IsDouble d) {k : ℤ} (hk : (2 : ℝ) ^ k ≤ |d|) : ∃ j : ℤ, d = (j : ℝ) * (2 : ℝ) ^ (k - 52) := by
  obtain ⟨m, e, hm, rfl⟩ := h
  rw [abs_mul, abs_of_pos (two_zpow_pos e)] at hk
  have hm' : (|(m : ℝ)|) < 2 ^ 53 := by exact_mod_cast hm
  have h1 : (2 : ℝ) ^ k < (2 : ℝ) ^ (53 + e) := by
    rw [zpow_add₀ (by norm_num)]
    refine lt_of_le_of_lt hk (mul_lt_mul_of_pos_right ?_ (two_zpow_pos e))
    exact_mod_cast hm'
  have h2 : k < 53 + e := (zpow_lt_zpow_iff_right₀ (by norm_num)).1 h1
  obtain ⟨t, ht⟩ : ∃ t : ℕ, e = k - 52 + t := ⟨(e - (k - 52)).toNat, by omega⟩
  refine ⟨m * 2 ^ t, ?_⟩
  rw [ht, zpow_add₀ (by norm_num), zpow_natCast]
  push_cast
  ring

/-- Rounding with a fixed exponent. -/
theorem candidate {x : ℝ} (hx : x ≠ 0) : ∃ e j : ℤ, (2 : ℝ) ^ e ≤ |x| ∧ |x| < (2 : ℝ) ^ (e + 1) ∧ IsDouble ((j : ℝ) * (2 : ℝ) ^ (e - 52)) ∧
    |(j : ℝ) * (2 : ℝ) ^ (e - 52) - x| ≤ (2 : ℝ) ^ (e - 53) ∧ ∀ i : ℤ, |(j : ℝ) * (2 : ℝ) ^ (e - 52) - x| ≤ |(i : ℝ) * (2 : ℝ) ^ (e - 52) - x| := by
  obtain ⟨e, h1, h2⟩ := exists_mem_Ico_zpow (abs_pos.2 hx) (show (1 : ℝ) < 2 by norm_num)
  have hp := two_zpow_pos (e - 52)
  have hr : ∀ i : ℤ, |(i : ℝ) * (2 : ℝ) ^ (e - 52) - x| = |x / (2 : ℝ) ^ (e - 52) - i| * (2 : ℝ) ^ (e - 52) := by
    intro i
    rw [← abs_of_pos hp, ← abs_mul, abs_of_pos hp, abs_sub_comm, sub_mul, div_mul_cancel₀ _ hp.ne']
  refine ⟨e, round (x / (2 : ℝ) ^ (e - 52)), h1, h2, isDouble_multiple ?_, ?_, fun i => ?_⟩
  · have hb : |x / (2 : ℝ) ^ (e - 52)| < 2 ^ 53 := by
      rw [abs_div, abs_of_pos hp, div_lt_iff₀ hp]
      refine lt_of_lt_of_eq h2 ?_
      rw [show (2 : ℝ) ^ 53 = (2 : ℝ) ^ (53 : ℤ) by norm_num, ← zpow_add₀ (by norm_num)]
      congr 1
      omega
    have h3 := abs_sub_round (x / (2 : ℝ) ^ (e - 52))
    have h4 : |((round (x / (2 : ℝ) ^ (e - 52)) : ℤ) : ℝ)| < 2 ^ 53 + 1 := by
      have := abs_sub_abs_le_abs_sub ((round (x / (2 : ℝ) ^ (e - 52)) : ℤ) : ℝ) (x / (2 : ℝ) ^ (e - 52))
      rw [abs_sub_comm] at this
      linarith
    have h5 : |round (x / (2 : ℝ) ^ (e - 52))| < 2 ^ 53 + 1 := by exact_mod_cast h4
    omega
  · rw [hr]
    have h3 := abs_sub_round (x / (2 : ℝ) ^ (e - 52))
    calc _ ≤ 1 / 2 * (2 : ℝ) ^ (e - 52) := mul_le_mul_of_nonneg_right h3 hp.le
      _ = (2 : ℝ) ^ (e - 53) := by
        rw [show e - 52 = (e - 53) + 1 by omega, zpow_add₀ (by norm_num)]
        norm_num
        ring
  · rw [hr, hr]
    exact mul_le_mul_of_nonneg_right (round_le _ _) hp.le

/-- Every number can be rounded to nearest. -/
theorem nearest_exists (x : ℝ) : ∃ y, Nearest x y := by
  rcases eq_or_ne x 0 with rfl | hx
  · exact ⟨0, ⟨0, 0, by norm_num, by simp⟩, fun d _ => by simp⟩
  · obtain ⟨e, j, h1, h2, h3, _, h5⟩ := candidate hx
    refine ⟨_, h3, fun d hd => ?_⟩
    by_cases hde : (2 : ℝ) ^ e ≤ |d|
    · obtain ⟨i, rfl⟩ := hd.multiple hde
      exact h5 i
    · push Not at hde
      have hs : ∃ i : ℤ, |(i : ℝ) * (2 : ℝ) ^ (e - 52) - x| = |x| - (2 : ℝ) ^ e := by
        have h52 : (2 : ℝ) ^ 52 * (2 : ℝ) ^ (e - 52) = (2 : ℝ) ^ e := by
          rw [show (2 : ℝ) ^ 52 = (2 : ℝ) ^ (52 : ℤ) by norm_num, ← zpow_add₀ (by norm_num)]
          congr 1
          omega
        rcases le_total 0 x with hx0 | hx0
        · refine ⟨2 ^ 52, ?_⟩
          push_cast
          norm_num at h52 ⊢
          rw [h52, abs_sub_comm, abs_of_nonneg hx0, abs_of_nonneg]
          rw [abs_of_nonneg hx0] at h1
          linarith
        · refine ⟨-2 ^ 52, ?_⟩
          push_cast
          norm_num at h52 ⊢
          rw [h52, abs_of_nonpos hx0, abs_of_nonneg]
          · ring
          · rw [abs_of_nonpos hx0] at h1
            linarith
      obtain ⟨i, hi⟩ := hs
      refine (h5 i).trans ?_
      rw [hi, abs_sub_comm]
      have := abs_sub_abs_le_abs_sub x d
      linarith

/-- The relative error of rounding. -/
theorem Nearest.rel {x y : ℝ} (h : Nearest x y) : |y - x| ≤ |x| / 2 ^ 53 := by
  rcases eq_or_ne x 0 with rfl | hx
  · have := h.2 0 ⟨0, 0, by norm_num, by simp⟩
    simpa using this
  · obtain ⟨e, j, h1, _, h3, h4, _⟩ := candidate hx
    refine (h.2 _ h3).trans (h4.trans ?_)
    rw [le_div_iff₀ (by norm_num)]
    refine le_trans (le_of_eq ?_) h1
    rw [show (2 : ℝ) ^ 53 = (2 : ℝ) ^ (53 : ℤ) by norm_num, ← zpow_add₀ (by norm_num)]
    congr 1
    omega

/-- A floating point number is not changed. -/
theorem Nearest.self {x y : ℝ} (h : Nearest x y) (hx : IsDouble x) : y = x := by
  have := h.2 x hx
  simp only [sub_self, abs_zero] at this
  have h0 := le_antisymm this (abs_nonneg _)
  linarith [abs_eq_zero.1 h0]

/-- Two multiples of `s` whose distance is smaller than `s` are equal. -/
theorem multiple_eq {s : ℝ} (hs : 0 < s) {i j : ℤ} (h : |(i : ℝ) * s - (j : ℝ) * s| < s) : i = j := by
  rw [← sub_mul, abs_mul, abs_of_pos hs] at h
  have h1 : |(i : ℝ) - j| < 1 := by
    by_contra hc
    push Not at hc
    nlinarith
  have h2 : |i - j| < 1 := by exact_mod_cast h1
  have := Int.abs_lt_one_iff.1 h2
  omega

/-- A number at a distance of less than half of the spacing is rounded as expected. -/
theorem Nearest.eq_of_close {x y : ℝ} (h : Nearest x y) {j k : ℤ} (hj : IsDouble ((j : ℝ) * (2 : ℝ) ^ (k - 52)))
    (hc : |(j : ℝ) * (2 : ℝ) ^ (k - 52) - x| < (2 : ℝ) ^ (k - 53)) (hx : (2 : ℝ) ^ k + (2 : ℝ) ^ (k - 53) ≤ |x|) : y = (j : ℝ) * (2 : ℝ) ^ (k - 52) := by
  have h1 := h.2 _ hj
  have h2 : (2 : ℝ) ^ k ≤ |y| := by
    have := abs_sub_abs_le_abs_sub x y
    rw [abs_sub_comm] at h1
    have h3 := abs_sub_comm x y
    linarith [abs_sub_comm y x]
  obtain ⟨i, rfl⟩ := h.1.multiple h2
  have hd : (2 : ℝ) ^ (k - 52) = 2 * (2 : ℝ) ^ (k - 53) := by
    rw [show k - 52 = (k - 53) + 1 by omega, zpow_add₀ (by norm_num)]
    norm_num
    ring
  have : |(i : ℝ) * (2 : ℝ) ^ (k - 52) - (j : ℝ) * (2 : ℝ) ^ (k - 52)| < (2 : ℝ) ^ (k - 52) := by
    have h4 := abs_sub_le ((i : ℝ) * (2 : ℝ) ^ (k - 52)) x ((j : ℝ) * (2 : ℝ) ^ (k - 52))
    rw [abs_sub_comm x] at h4
    linarith
  rw [multiple_eq (two_zpow_pos _) this]

/-- Integers just below a power of two are rounded to it. -/
theorem nearest_below {k : ℕ} (hk : 55 ≤ k) {y : ℝ} (h : Nearest (((2 ^ k - 1 : ℕ) : ℝ)) y) : y = 2 ^ k := by
  have e : (((2 ^ k - 1 : ℕ) : ℝ)) = 2 ^ k - 1 := by
    rw [Nat.cast_sub Nat.one_le_two_pow]
    push_cast
    ring
  rw [e] at h
  have h1 := h.2 _ (isDouble_pow k)
  rw [show (2 : ℝ) ^ k - (2 ^ k - 1) = 1 by ring, abs_one, abs_le] at h1
  obtain ⟨t, rfl⟩ : ∃ t, k = t + 55 := ⟨k - 55, by omega⟩
  have h4 : (4 : ℝ) ≤ (2 : ℝ) ^ (t + 2) := by
    have := one_le_pow₀ (show (1 : ℝ) ≤ 2 by norm_num) (n := t)
    rw [pow_add]; linarith
  have hy : (2 : ℝ) ^ ((t + 54 : ℕ) : ℤ) ≤ |y| := by
    rw [zpow_natCast]
    refine le_trans ?_ (le_abs_self y)
    have : (2 : ℝ) ^ (t + 55) = 2 * (2 : ℝ) ^ (t + 54) := by ring
    have h5 : (2 : ℝ) ≤ (2 : ℝ) ^ (t + 54) := by
      calc (2 : ℝ) ≤ 2 ^ (t + 2) := by linarith
        _ ≤ 2 ^ (t + 54) := pow_le_pow_right₀ (by norm_num) (by omega)
    linarith
  obtain ⟨i, hi⟩ := h.1.multiple hy
  have hz : (2 : ℝ) ^ (((t + 54 : ℕ) : ℤ) - 52) = 2 ^ (t + 2) := by
    rw [show ((t + 54 : ℕ) : ℤ) - 52 = ((t + 2 : ℕ) : ℤ) by omega, zpow_natCast]
  rw [hz] at hi
  have hp : (2 : ℝ) ^ (t + 55) = ((2 ^ 53 : ℤ) : ℝ) * 2 ^ (t + 2) := by push_cast; ring
  rw [hi, hp] at h1 ⊢
  congr 2
  refine multiple_eq (s := (2 : ℝ) ^ (t + 2)) (by positivity) ?_
  rw [abs_lt]
  constructor <;> linarith

/-- Integers just above a power of two are rounded to it. -/
theorem nearest_above {k : ℕ} (hk : 54 ≤ k) {y : ℝ} (h : Nearest (((2 ^ k + 1 : ℕ) : ℝ)) y) : y = 2 ^ k := by
  push_cast at h
  have h1 := h.2 _ (isDouble_pow k)
  rw [show (2 : ℝ) ^ k - (2 ^ k + 1) = -1 by ring, abs_neg, abs_one, abs_le] at h1
  obtain ⟨t, rfl⟩ : ∃ t, k = t + 54 := ⟨k - 54, by omega⟩
  have h4 : (4 : ℝ) ≤ (2 : ℝ) ^ (t + 2) := by
    have := one_le_pow₀ (show (1 : ℝ) ≤ 2 by norm_num) (n := t)
    rw [pow_add]; linarith
  have hy : (2 : ℝ) ^ ((t + 54 : ℕ) : ℤ) ≤ |y| := by
    rw [zpow_natCast]
    refine le_trans ?_ (le_abs_self y)
    linarith
  obtain ⟨i, hi⟩ := h.1.multiple hy
  have hz : (2 : ℝ) ^ (((t + 54 : ℕ) : ℤ) - 52) = 2 ^ (t + 2) := by
    rw [show ((t + 54 : ℕ) : ℤ) - 52 = ((t + 2 : ℕ) : ℤ) by omega, zpow_natCast]
  rw [hz] at hi
  have hp : (2 : ℝ) ^ (t + 54) = ((2 ^ 52 : ℤ) : ℝ) * 2 ^ (t + 2) := by push_cast; ring
  rw [hi, hp] at h1 ⊢
  congr 2
  refine multiple_eq (s := (2 : ℝ) ^ (t + 2)) (by positivity) ?_
  rw [abs_lt]
  constructor <;> linarith

end Verif.Fl
