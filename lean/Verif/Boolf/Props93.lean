import Verif.Boolf.Model34
import Verif.A.LogProps
import Verif.Boolf.Props2
import Verif.Binv.Props

/-!
# Truth tables given as integers, with floating point numbers
-/

namespace Verif.Fl
open Verif.Py Verif.BV
open Real

/-! ## Rounding -/

theorem Nearest.le {x y d : ℝ} (h : Nearest x y) (hd : IsDouble d) (hx : d ≤ x) : d ≤ y := by
  by_contra hc
  push Not at hc
  have := h.2 d hd
  rw [abs_of_nonpos (by linarith), abs_of_nonpos (by linarith)] at this
  linarith

theorem Nearest.mono {a b y z : ℝ} (hy : Nearest a y) (hz : Nearest b z) (hab : a < b) : y ≤ z := by
  by_contra hc
  push Not at hc
  have h1 := hy.2 z hz.1
  have h2 := hz.2 y hy.1
  have h1' := sq_le_sq.2 h1
  have h2' := sq_le_sq.2 h2
  nlinarith

theorem IsDouble.mul_zpow {x : ℝ} (h : IsDouble x) (e : ℤ) : IsDouble (x * (2 : ℝ) ^ e) := by
  obtain ⟨m, f, hm, rfl⟩ := h
  refine ⟨m, f + e, hm, ?_⟩
  rw [zpow_add₀ (by norm_num), mul_assoc]

/-- Rounding does not depend on the exponent. -/
theorem Nearest.scale {x y : ℝ} (h : Nearest x y) (e : ℤ) : Nearest (x * (2 : ℝ) ^ e) (y * (2 : ℝ) ^ e) := by
  refine ⟨h.1.mul_zpow e, fun d hd => ?_⟩
  have hp := two_zpow_pos e
  have := h.2 _ (hd.mul_zpow (-e))
  have e1 : (2 : ℝ) ^ (-e) * (2 : ℝ) ^ e = 1 := by rw [← zpow_add₀ (by norm_num)]; simp
  calc |y * (2 : ℝ) ^ e - x * (2 : ℝ) ^ e| = |y - x| * (2 : ℝ) ^ e := by rw [← sub_mul, abs_mul, abs_of_pos hp]
    _ ≤ |d * (2 : ℝ) ^ (-e) - x| * (2 : ℝ) ^ e := mul_le_mul_of_nonneg_right this hp.le
    _ = |d - x * (2 : ℝ) ^ e| := by
      rw [← abs_of_pos hp, ← abs_mul, abs_of_pos hp, sub_mul, mul_assoc, e1, mul_one]

/-- Integers close below a power of two are rounded to it. -/
theorem nearest_close {k n : ℕ} (hk : 55 ≤ k) (h1 : 2 ^ k < n + 2 ^ (k - 54)) (h2 : n ≤ 2 ^ k) {y : ℝ} (h : Nearest (n : ℝ) y) : y = 2 ^ k := by
  obtain ⟨t, rfl⟩ : ∃ t, k = t + 55 := ⟨k - 55, by omega⟩
  rw [show t + 55 - 54 = t + 1 by omega] at h1
  have h1' : (2 : ℝ) ^ (t + 55) < n + 2 ^ (t + 1) := by exact_mod_cast h1
  have h2' : (n : ℝ) ≤ 2 ^ (t + 55) := by exact_mod_cast h2
  have h3 := h.2 _ (isDouble_pow (t + 55))
  rw [abs_of_nonneg (show (0 : ℝ) ≤ 2 ^ (t + 55) - n by linarith), abs_le] at h3
  have hp : (0 : ℝ) < 2 ^ t := by positivity
  have e1 : (2 : ℝ) ^ (t + 1) = 2 * 2 ^ t := by ring
  have e2 : (2 : ℝ) ^ (t + 2) = 4 * 2 ^ t := by ring
  have e54 : (2 : ℝ) ^ (t + 54) = 18014398509481984 * 2 ^ t := by ring
  have e55 : (2 : ℝ) ^ (t + 55) = 36028797018963968 * 2 ^ t := by ring
  have hy : (2 : ℝ) ^ ((t + 54 : ℕ) : ℤ) ≤ |y| := by
    rw [zpow_natCast]
    refine le_trans ?_ (le_abs_self y)
    linarith [h3.1]
  obtain ⟨i, hi⟩ := h.1.multiple hy
  have hz : (2 : ℝ) ^ (((t + 54 : ℕ) : ℤ) - 52) = 2 ^ (t + 2) := by
    rw [show ((t + 54 : ℕ) : ℤ) - 52 = ((t + 2 : ℕ) : ℤ) by omega, zpow_natCast]
  rw [hz] at hi
  have hq : (2 : ℝ) ^ (t + 55) = ((2 ^ 53 : ℤ) : ℝ) * 2 ^ (t + 2) := by push_cast; ring
  rw [hi, hq] at h3 ⊢
  rw [hq] at h1' h2'
  congr 2
  refine multiple_eq (s := (2 : ℝ) ^ (t + 2)) (by positivity) ?_
  rw [abs_lt]
  constructor <;> linarith [h3.1, h3.2]

/-! ## Logarithms -/

theorem ln_pow_pow {F : Floats} (h : F.Correct) (j : ℕ) : F.ln (2 ^ 2 ^ j) = 2 ^ j * F.ln 2 := by
  have h1 := (h.ln (2 ^ 2 ^ j) (isDouble_pow _) (one_le_pow₀ (by norm_num))).scale (-(j : ℤ))
  rw [Real.log_pow] at h1
  have hp : (0 : ℝ) < 2 ^ j := by positivity
  have e : ((2 ^ j : ℕ) : ℝ) * Real.log 2 * (2 : ℝ) ^ (-(j : ℤ)) = Real.log 2 := by
    rw [zpow_neg, zpow_natCast]
    push_cast
    field_simp
  rw [e] at h1
  have := nearest_log_two h1
  rw [ln_two h, ← this, zpow_neg, zpow_natCast]
  field_simp

theorem log_eq {F : Floats} (h : F.Rounds) (n : ℕ) : F.log n 2 = F.div (F.ln (F.ofNat n)) (F.ln 2) := by
  unfold Floats.log
  rw [ofNat_self h (n := 2) (by norm_num)]
  norm_num

theorem ln_two_pos {F : Floats} (h : F.Correct) : 0 < F.ln 2 := by rw [ln_two h]; norm_num

theorem log_pow_pow {F : Floats} (h : F.Correct) (j : ℕ) : F.log (2 ^ 2 ^ j) 2 = 2 ^ j := by
  rw [log_eq h.toRounds, ofNat_pow h.toRounds]
  have d1 : IsDouble (F.ln (2 ^ 2 ^ j)) := (h.ln _ (isDouble_pow _) (one_le_pow₀ (by norm_num))).1
  have d2 : IsDouble (F.ln 2) := (h.ln 2 (by simpa using isDouble_pow 1) (by norm_num)).1
  have c0 := ln_two_pos h
  have hq := h.div _ _ d1 d2 c0
  have e : F.ln (2 ^ 2 ^ j) / F.ln 2 = 2 ^ j := by rw [ln_pow_pow h, mul_div_assoc, div_self c0.ne', mul_one]
  rw [e] at hq
  exact hq.self (isDouble_pow j)

/-- Integers with more than `2 ** j` digits. -/
theorem log_ge {F : Floats} (h : F.Correct) {j n : ℕ} (hn : 2 ^ 2 ^ j ≤ n) : (2 : ℝ) ^ j ≤ F.log n 2 := by
  have hn' : (2 : ℝ) ^ 2 ^ j ≤ n := by exact_mod_cast hn
  have hx := (h.ofNat n).le (isDouble_pow _) hn'
  have hP : (1 : ℝ) ≤ 2 ^ 2 ^ j := one_le_pow₀ (by norm_num)
  have c0 := ln_two_pos h
  have d2 : IsDouble (F.ln 2) := (h.ln 2 (by simpa using isDouble_pow 1) (by norm_num)).1
  have h1 := h.ln _ (isDouble_pow (2 ^ j)) hP
  have h2 := h.ln _ (h.ofNat n).1 (hP.trans hx)
  have hle : F.ln (2 ^ 2 ^ j) ≤ F.ln (F.ofNat n) := by
    rcases hx.eq_or_lt with e | e
    · rw [e]
    · exact h1.mono h2 (Real.log_lt_log (by linarith) e)
  rw [log_eq h.toRounds]
  refine (h.div _ _ h2.1 d2 c0).le (isDouble_pow j) ?_
  rw [le_div_iff₀ c0, ← ln_pow_pow h]
  exact hle

/-- Integers that are sufficiently smaller than `2 ** L`. -/
theorem log_lt {F : Floats} (h : F.Accurate) {L n : ℕ} (hL : L ≤ 512) (h0 : 1 ≤ n) (hn : n * 2 ^ 40 ≤ (2 ^ 40 - 1) * 2 ^ L) : F.log n 2 < L := by
  have hn' : (n : ℝ) ≤ (1 - 1 / 2 ^ 40) * 2 ^ L := by
    have : ((n * 2 ^ 40 : ℕ) : ℝ) ≤ (((2 ^ 40 - 1) * 2 ^ L : ℕ) : ℝ) := by exact_mod_cast hn
    push_cast at this
    norm_num at this ⊢
    linarith
  have h0' : (1 : ℝ) ≤ n := by exact_mod_cast h0
  have hr := h.ofNat n
  have hx1 : (1 : ℝ) ≤ F.ofNat n := by simpa using hr.le (isDouble_pow 0) (by simpa using h0')
  have hrel := rel_weaken hr (by linarith)
  rw [abs_le] at hrel
  set x := F.ofNat n
  have hX0 : 0 ≤ Real.log x := Real.log_nonneg hx1
  have hX : Real.log x ≤ L * Real.log 2 - 1 / 2 ^ 40 + 1 / 2 ^ 52 := by
    have hx : x ≤ (1 + 1 / 2 ^ 52) * ((1 - 1 / 2 ^ 40) * 2 ^ L) := by
      calc x ≤ (1 + 1 / 2 ^ 52) * n := by linarith [hrel.2]
        _ ≤ _ := mul_le_mul_of_nonneg_left hn' (by norm_num)
    have hP : (0 : ℝ) < 2 ^ L := by positivity
    have := Real.log_le_log (by linarith) hx
    rw [Real.log_mul (by norm_num) (by positivity), Real.log_mul (by norm_num) hP.ne', Real.log_pow] at this
    have l1 := Real.log_le_sub_one_of_pos (show (0 : ℝ) < 1 + 1 / 2 ^ 52 by norm_num)
    have l2 := Real.log_le_sub_one_of_pos (show (0 : ℝ) < 1 - 1 / 2 ^ 40 by norm_num)
    linarith
  have ha := h.ln x hr.1 hx1
  have hc := h.ln 2 (by simpa using isDouble_pow 1) (by norm_num)
  have l2 := log_two_bounds
  norm_num at l2
  rw [abs_le] at ha hc
  have c0 : 0 < F.ln 2 := by linarith [hc.1, l2.1]
  have d2 : IsDouble (F.ln 2) := h.double 2 (by simpa using isDouble_pow 1) (by norm_num)
  have a0 : 0 ≤ F.ln x := by linarith [ha.1]
  have hq := rel_weaken (h.div _ _ (h.double x hr.1 hx1) d2 c0) (by positivity)
  rw [log_eq h.toRounds]
  rw [abs_le] at hq
  have hL' : (L : ℝ) ≤ 512 := by exact_mod_cast hL
  have hL0 : (0 : ℝ) ≤ L := Nat.cast_nonneg L
  have hLc : (L : ℝ) * (Real.log 2 - Real.log 2 / 2 ^ 52) ≤ L * F.ln 2 := mul_le_mul_of_nonneg_left (by linarith [hc.1]) hL0
  have hLl : (L : ℝ) * Real.log 2 ≤ 512 * 1 := mul_le_mul hL' (by linarith [l2.2]) (by linarith [l2.1]) (by norm_num)
  have key : F.ln x * (1 + 1 / 2 ^ 52) < L * F.ln 2 := by
    have : (L : ℝ) * (Real.log 2 - Real.log 2 / 2 ^ 52) = L * Real.log 2 - L * Real.log 2 / 2 ^ 52 := by ring
    rw [this] at hLc
    generalize (L : ℝ) * Real.log 2 = P at *
    norm_num at *
    linarith [ha.2]
  have : F.ln x / F.ln 2 * (1 + 1 / 2 ^ 52) < L := by
    rw [div_mul_eq_mul_div, div_lt_iff₀ c0]
    exact key
  have q2 := hq.2
  linarith

/-! ## The constructors -/

theorem mkIntval_iff {F : Floats} {n L : ℕ} (h : F.binaryLength n ≤ L ↔ BV.binaryLength n ≤ L) (m : Option ℤ) :
    F.mkIntval n (some L) m = BV.mkIntval n (some L) m := by
  unfold Floats.mkIntval BV.mkIntval
  rw [if_pos (show (n : ℤ) ≥ 0 by omega), if_pos (show (n : ℤ) ≥ 0 by omega), Int.toNat_natCast]
  simp only
  by_cases hc : BV.binaryLength n ≤ L
  · rw [if_pos (by exact_mod_cast h.2 hc), if_pos (by exact_mod_cast hc)]
  · rw [if_neg (by
      intro h2
      exact hc (h.1 (by exact_mod_cast h2))), if_neg (by
      intro h2
      exact hc (by exact_mod_cast h2))]

/-- **C166.** With correctly rounded logarithms `Binv(intval=n, length=2**j)` (where `j` is at most 9) is right, unless the first 40 digits of `n` are all 1 and its length is
`2**j`. -/
theorem C166_binv (F : Floats) (hF : F.Correct) (j n : ℕ) (hj : j ≤ 9) (hn : n * 2 ^ 40 ≤ (2 ^ 40 - 1) * 2 ^ 2 ^ j ∨ 2 ^ 2 ^ j ≤ n) (m : Option ℤ) :
    F.mkIntval n (some (2 ^ j : ℕ)) m = BV.mkIntval n (some (2 ^ j : ℕ)) m := by
  apply mkIntval_iff
  rw [binaryLength_le]
  rcases hn with hn | hn
  · have hlt : n < 2 ^ 2 ^ j := by
      have : 0 < 2 ^ 2 ^ j := by positivity
      omega
    refine iff_of_true ?_ hlt
    unfold Floats.binaryLength
    split
    · positivity
    · rename_i h0
      have hL : 2 ^ j ≤ 512 := by
        calc 2 ^ j ≤ 2 ^ 9 := Nat.pow_le_pow_right (by norm_num) hj
          _ = 512 := rfl
      have := log_lt hF.accurate hL (by omega) hn
      have h2 : ⌊F.log n 2⌋ < ((2 ^ j : ℕ) : ℤ) := by
        rw [Int.floor_lt]
        exact_mod_cast this
      omega
  · refine iff_of_false ?_ (by omega)
    unfold Floats.binaryLength
    have : 0 < 2 ^ 2 ^ j := by positivity
    rw [if_neg (by omega)]
    have := log_ge hF hn
    have h2 : ((2 ^ j : ℕ) : ℤ) ≤ ⌊F.log n 2⌋ := by
      rw [Int.le_floor]
      exact_mod_cast this
    omega

theorem binaryLength_close {F : Floats} (hF : F.Correct) {j n : ℕ} (h1 : 2 ^ 2 ^ j < n + 2 ^ (2 ^ j - 54)) (h2 : n < 2 ^ 2 ^ j) :
    F.binaryLength n = (2 ^ j : ℕ) + 1 := by
  have h55 : 55 ≤ 2 ^ j := by
    by_contra hc
    rw [show 2 ^ j - 54 = 0 by omega] at h1
    omega
  have e : F.ofNat n = F.ofNat (2 ^ 2 ^ j) := by
    rw [ofNat_pow hF.toRounds]
    exact nearest_close h55 h1 h2.le (hF.ofNat n)
  have h3 : 2 ^ (2 ^ j - 54) < 2 ^ 2 ^ j := Nat.pow_lt_pow_right (by norm_num) (by omega)
  unfold Floats.binaryLength
  rw [if_neg (by omega), log_eq hF.toRounds, e, ← log_eq hF.toRounds, log_pow_pow hF]
  have : (2 : ℝ) ^ j = ((2 ^ j : ℕ) : ℝ) := by push_cast; rfl
  rw [this, Int.floor_natCast]

/-- **C166.** (Deviation) But `LengthError` is raised for the integers with `2**j` digits whose first 55 digits are 1 (a bit more exactly, for those above
`2**2**j - 2**(2**j - 54)`), although they are not too long.  (There are none when `j` is at most 5.) -/
theorem C166_lengthError (F : Floats) (hF : F.Correct) (j n : ℕ) (h1 : 2 ^ 2 ^ j < n + 2 ^ (2 ^ j - 54)) (h2 : n < 2 ^ 2 ^ j) :
    F.mkIntval n (some (2 ^ j : ℕ)) none = .error .lengthError ∧ ∃ b : Binv, BV.mkIntval n (some (2 ^ j : ℕ)) none = .ok b ∧ b.length = 2 ^ j ∧ b.intval = n := by
  refine ⟨?_, (C26_intval_length n (2 ^ j) (by positivity)).1 h2⟩
  unfold Floats.mkIntval
  rw [if_pos (show (n : ℤ) ≥ 0 by omega), Int.toNat_natCast]
  simp only
  rw [binaryLength_close hF h1 h2, if_neg (by omega)]

theorem newTT_of_mkIntval {F : Floats} {t j : ℕ} (h : F.mkIntval t (some (2 ^ j : ℕ)) none = BV.mkIntval t (some (2 ^ j : ℕ)) none) (atomvals : Option (List ℤ)) (skip : Bool) :
    F.newTT (.int t) atomvals (some j) skip = BF.newTT (.int t) atomvals (some j) skip := by
  have e : F.ttBinv (.int t) (some j) = BF.ttBinv (.int t) (some j) := by
    unfold Floats.ttBinv BF.ttBinv
    simp only
    rw [if_neg (by omega), if_neg (by omega), Int.toNat_natCast, Nat.one_shiftLeft]
    exact h
  unfold Floats.newTT BF.newTT
  simp only
  rw [e]

/-- **C166.** So `Boolf(t, arity=j)` does what the exact model says for each `t` that is negative or too big, and for each other one whose first 40 digits (of `2**j`) are not all 1.
For an arity up to 5 there is no exception. -/
theorem C166_table (F : Floats) (hF : F.Correct) (j : ℕ) (hj : j ≤ 9) (t : ℤ) (atomvals : Option (List ℤ)) (skip : Bool)
    (ht : t < 0 ∨ j ≤ 5 ∨ t * 2 ^ 40 ≤ (2 ^ 40 - 1) * 2 ^ 2 ^ j ∨ 2 ^ 2 ^ j ≤ t) :
    F.newTT (.int t) atomvals (some j) skip = BF.newTT (.int t) atomvals (some j) skip := by
  rcases lt_or_ge t 0 with h0 | h0
  · have e : F.ttBinv (.int t) (some j) = BF.ttBinv (.int t) (some j) := by
      unfold Floats.ttBinv BF.ttBinv BV.mk Floats.mkIntval BV.mkIntval
      simp only
      rw [if_neg (by omega), if_neg (by omega), if_neg (by omega), if_neg (by omega)]
    unfold Floats.newTT BF.newTT
    simp only
    rw [e]
  · obtain ⟨n, rfl⟩ := Int.eq_ofNat_of_zero_le h0
    refine newTT_of_mkIntval (C166_binv F hF j n hj ?_ none) atomvals skip
    rcases ht with h | h | h | h
    · omega
    · by_cases hlt : n < 2 ^ 2 ^ j
      · left
        have hp : 2 ^ 2 ^ j ≤ 2 ^ 32 := Nat.pow_le_pow_right (by norm_num) (by
          calc 2 ^ j ≤ 2 ^ 5 := Nat.pow_le_pow_right (by norm_num) h
            _ = 32 := rfl)
        generalize 2 ^ 2 ^ j = P at *
        norm_num at *
        omega
      · right; omega
    · left
      norm_num at h ⊢
      exact_mod_cast h
    · right
      exact_mod_cast h

/-- **C166.** (Deviation) When the last 55 values of the table are true, and `j` is at least 6, `Boolf(t, arity=j)` raises `LengthError`. -/
theorem C166_table_lengthError (F : Floats) (hF : F.Correct) (j t : ℕ) (h1 : 2 ^ 2 ^ j < t + 2 ^ (2 ^ j - 54)) (h2 : t < 2 ^ 2 ^ j) (atomvals : Option (List ℤ)) (skip : Bool) :
    F.newTT (.int t) atomvals (some j) skip = .error .lengthError := by
  unfold Floats.newTT Floats.ttBinv
  simp only
  rw [if_neg (by omega), Int.toNat_natCast, Nat.one_shiftLeft, (C166_lengthError F hF j t h1 h2).1]
  rfl

/-! ## The Zhegalkin index -/

theorem Nearest.ge {x y d : ℝ} (h : Nearest x y) (hd : IsDouble d) (hx : x ≤ d) : y ≤ d := by
  by_contra hc
  push Not at hc
  have := h.2 d hd
  rw [abs_of_nonneg (by linarith), abs_of_nonneg (by linarith)] at this
  linarith

theorem lb_range {F : Floats} (hF : F.Correct) {a b m : ℕ} (ha : IsDouble (a : ℝ)) (hb : IsDouble (b : ℝ)) (h1 : 2 ^ a ≤ m) (h2 : m ≤ 2 ^ b) :
    (a : ℤ) ≤ ⌊F.log2 m⌋ ∧ ⌊F.log2 m⌋ ≤ (b : ℤ) := by
  have x1 := (hF.ofNat m).le (isDouble_pow a) (by exact_mod_cast h1)
  have x2 := (hF.ofNat m).ge (isDouble_pow b) (by exact_mod_cast h2)
  have hP : (1 : ℝ) ≤ 2 ^ a := one_le_pow₀ (by norm_num)
  have x0 : 0 < F.ofNat m := by linarith
  have hn := hF.lb _ (hF.ofNat m).1 (hP.trans x1)
  have y1 := hn.le ha (by
    rw [Real.le_logb_iff_rpow_le (by norm_num) x0, Real.rpow_natCast]
    exact x1)
  have y2 := hn.ge hb (by
    rw [Real.logb_le_iff_le_rpow (by norm_num) x0, Real.rpow_natCast]
    exact x2)
  constructor
  · rw [Int.le_floor]; exact_mod_cast y1
  · have := Int.floor_le (F.log2 m)
    have h3 : ((⌊F.log2 m⌋ : ℤ) : ℝ) ≤ ((b : ℤ) : ℝ) := this.trans (by exact_mod_cast y2)
    exact_mod_cast h3

theorem arity_cases {F : Floats} (hF : F.Correct) {n z : ℕ} (hn : n + 1 < 2 ^ 53) (h1 : 2 ^ 2 ^ n ≤ z) (h2 : z < 2 ^ 2 ^ (n + 1)) :
    ∃ m, (m = n + 1 ∨ m = n + 2) ∧ F.intvalToArity z = .ok (m : ℤ) := by
  have hz : 2 ≤ z := by
    calc 2 = 2 ^ 1 := rfl
      _ ≤ 2 ^ 2 ^ n := Nat.pow_le_pow_right (by norm_num) Nat.one_le_two_pow
      _ ≤ z := h1
  obtain ⟨k1, k2⟩ := lb_range hF (a := 2 ^ n) (b := 2 ^ (n + 1)) (by push_cast; exact isDouble_pow _) (by push_cast; exact isDouble_pow _) h1 h2.le
  have hp : 1 ≤ 2 ^ n := Nat.one_le_two_pow
  obtain ⟨k, hk⟩ := Int.eq_ofNat_of_zero_le (show 0 ≤ ⌊F.log2 z⌋ by omega)
  rw [hk] at k1 k2
  have k1' : 2 ^ n ≤ k := by exact_mod_cast k1
  have k2' : k ≤ 2 ^ (n + 1) := by exact_mod_cast k2
  obtain ⟨l1, l2⟩ := lb_range hF (isDouble_nat (n := n) (by omega)) (isDouble_nat (n := n + 1) hn) k1' k2'
  have e1 : F.logFloor (z : ℤ) = .ok (k : ℤ) := by
    unfold Floats.logFloor
    rw [if_pos (by omega), Int.toNat_natCast, hk]
  have e2 : F.logFloor (k : ℤ) = .ok ⌊F.log2 k⌋ := by
    unfold Floats.logFloor
    rw [if_pos (by omega), Int.toNat_natCast]
  refine ⟨(⌊F.log2 k⌋ + 1).toNat, by omega, ?_⟩
  unfold Floats.intvalToArity
  rw [if_pos (by omega), if_neg (by omega)]
  simp only [e1, e2, bind, Except.bind, pure, Except.pure]
  rw [Int.toNat_of_nonneg (by omega)]

open Verif.BF in
theorem zhe_table {f : Boolf} (hf : Reach f) {z m : ℕ} (hz : f.zhe = .ok z) (hm : f.adicity ≤ m) : ∃ t, twinInt z m = .ok t ∧ t < 2 ^ 2 ^ m ∧
    BF.newTT (.int t) none (some (m : ℤ)) = .ok f ∧ ∀ q < 2 ^ m, t.testBit q = f.eval (q % 2 ^ f.adicity).testBit := by
  have h := hf.canon
  obtain ⟨z', z1, z2, z3⟩ := zhe_spec h.toSound
  rw [hz] at z1
  obtain rfl := Except.ok.inj z1
  have hzm : z < 2 ^ 2 ^ m := lt_of_lt_of_le z2 (Nat.pow_le_pow_right (by omega) (Nat.pow_le_pow_right (by omega) hm))
  obtain ⟨t, t1, t2, t3⟩ := twinInt_eq hzm
  have key : ∀ q < 2 ^ m, t.testBit q = f.eval (q % 2 ^ f.adicity).testBit := by
    intro q hq
    rw [t3 q hq, subXor_extend hm (fun i hi => testBit_of_lt z2 hi), ← subXor_mod, subXor_congr z3, subXor_subXor _ _ (Nat.mod_lt _ (Nat.two_pow_pos _))]
  obtain ⟨g, g1, g2, g3, _, g5⟩ := newTT_int_fun t2
  refine ⟨t, t1, t2, ?_, key⟩
  rw [g1]
  refine congrArg Except.ok (g2.ext_key h fun k => ?_)
  rw [getItem_eq g2.toSound, getItem_eq h.toSound, g5, key _ (Nat.mod_lt _ (Nat.two_pow_pos _)), Nat.mod_mod_of_dvd _ (Nat.pow_dvd_pow 2 hm), eval_mod h.toSound le_rfl]

open Verif.BF in
theorem zhe_big {f : Boolf} (hf : Reach f) {z n : ℕ} (hz : f.zhe = .ok z) (hn : f.adicity = n + 1) : 2 ^ 2 ^ n ≤ z ∧ z < 2 ^ 2 ^ (n + 1) := by
  obtain ⟨z', z1, z2, _, z4⟩ := C50_zhe f hf
  rw [hz] at z1
  obtain rfl := Except.ok.inj z1
  refine ⟨?_, hn ▸ z2⟩
  by_contra hc
  push Not at hc
  obtain ⟨t, _, t2⟩ := twinInt_eq hc
  obtain ⟨k, k1, k2, k3⟩ := intvalToArity_spec z
  have hk := k3 n hc
  obtain ⟨t, t1, t2, t3⟩ := twinInt_eq k2
  obtain ⟨g, g1, g2, g3, _⟩ := newTT_int_fun t2
  have e : newZhe z = .ok g := by
    unfold newZhe
    simp only [k1, t1, bind, Except.bind]
    exact g1
  rw [show BF.new { zhe := some (z : ℤ) } = newZhe z from rfl, e] at z4
  obtain rfl := Except.ok.inj z4
  omega

theorem le_of_bits {a L t : ℕ} (ha : a ≤ L) (h : ∀ j, a ≤ j → j < L → t.testBit j = true) : 2 ^ L ≤ t + 2 ^ a := by
  have e : (2 ^ a * (2 ^ (L - a) - 1)) &&& t = 2 ^ a * (2 ^ (L - a) - 1) := by
    apply Nat.eq_of_testBit_eq
    intro i
    rw [Nat.testBit_and, Nat.testBit_two_pow_mul, Nat.testBit_two_pow_sub_one]
    by_cases h1 : a ≤ i
    · by_cases h2 : i - a < L - a
      · rw [h i h1 (by omega)]; simp
      · simp [h2]
    · simp [h1]
  have h2 := Nat.and_le_right (n := 2 ^ a * (2 ^ (L - a) - 1)) (m := t)
  rw [e, Nat.mul_sub, ← pow_add, Nat.add_sub_cancel' ha] at h2
  omega

theorem lt_of_bit {q L t : ℕ} (hq : q < L) (ht : t < 2 ^ L) (h : t.testBit q = false) : t + 2 ^ q < 2 ^ L := by
  have := Nat.testBit_two_pow_sub_succ ht q
  rw [h, decide_eq_true hq] at this
  have := Nat.ge_two_pow_of_testBit this
  omega

open Verif.BF in
/-- **C166.** `Boolf(zhe=…)` gives back each function that does not have more than five arguments, and each other one (with at most eight arguments) that is false for one of the
last 40 keys. -/
theorem C166_zhe (F : Floats) (hF : F.Correct) (f : Boolf) (hf : Reach f) (z : ℕ) (hz : f.zhe = .ok z) (h8 : f.adicity ≤ 8)
    (h : f.adicity ≤ 5 ∨ ∃ key : ℕ, key < 2 ^ f.adicity ∧ 2 ^ f.adicity ≤ key + 40 ∧ f.getItem key = .ok false) : F.newZhe z = .ok f := by
  have e1 := (C50_zhe f hf)
  obtain ⟨z', z1, z2, _, z4⟩ := e1
  rw [hz] at z1
  obtain rfl := Except.ok.inj z1
  rw [show BF.new { zhe := some (z : ℤ) } = newZhe z from rfl] at z4
  have hs := hf.canon.toSound
  by_cases h5 : f.adicity ≤ 5
  · have hp : 2 ^ 2 ^ f.adicity ≤ 2 ^ 32 := Nat.pow_le_pow_right (by norm_num) (by
      calc 2 ^ f.adicity ≤ 2 ^ 5 := Nat.pow_le_pow_right (by norm_num) h5
        _ = 32 := rfl)
    have hz32 : z < 2 ^ 32 := by omega
    obtain ⟨k, k1, k2, k3⟩ := intvalToArity_spec z
    have hk := k3 _ z2
    obtain ⟨t, t1, t2, _⟩ := twinInt_eq k2
    have e2 := ((C163_models F hF).2.2.2.2.1 z (by norm_num at hz32 ⊢; omega))
    rw [k1] at e2
    rw [← z4]
    unfold Floats.newZhe newZhe
    rw [e2, k1]
    simp only [Except.map, bind, Except.bind, Int.toNat_natCast, t1]
    exact C166_table F hF k (by omega) t none false (Or.inr (Or.inl (by omega)))
  · obtain ⟨n, hn⟩ : ∃ n, f.adicity = n + 1 := ⟨f.adicity - 1, by omega⟩
    obtain ⟨key, q1, q2, q3⟩ := h.resolve_left h5
    obtain ⟨b1, b2⟩ := zhe_big hf hz hn
    obtain ⟨m, hm, e⟩ := arity_cases hF (by norm_num; omega) b1 b2
    obtain ⟨t, t1, t2, t3, t4⟩ := zhe_table hf hz (m := m) (by omega)
    unfold Floats.newZhe
    rw [e]
    simp only [bind, Except.bind, Int.toNat_natCast, t1]
    rw [← t3]
    refine C166_table F hF m (by omega) t none false (Or.inr (Or.inr (Or.inl ?_)))
    have hle : 2 ^ f.adicity ≤ 2 ^ m := Nat.pow_le_pow_right (by norm_num) (by omega)
    have hmod : (2 ^ m - 2 ^ f.adicity + key) % 2 ^ f.adicity = key := by
      have hd : 2 ^ f.adicity ∣ 2 ^ m - 2 ^ f.adicity := Nat.dvd_sub (Nat.pow_dvd_pow 2 (by omega)) (dvd_refl _)
      rw [Nat.add_mod, Nat.mod_eq_zero_of_dvd hd, Nat.zero_add, Nat.mod_mod, Nat.mod_eq_of_lt q1]
    have hb := t4 (2 ^ m - 2 ^ f.adicity + key) (by omega)
    rw [hmod] at hb
    rw [getItem_eq hs] at q3
    rw [Except.ok.inj q3] at hb
    have hlt := lt_of_bit (by omega) t2 hb
    have h64 : 64 ≤ 2 ^ f.adicity := by
      calc 64 = 2 ^ 6 := rfl
        _ ≤ _ := Nat.pow_le_pow_right (by norm_num) (by omega)
    have hpow : 2 ^ (2 ^ m - 40) ≤ 2 ^ (2 ^ m - 2 ^ f.adicity + key) := Nat.pow_le_pow_right (by norm_num) (by omega)
    have hsplit : 2 ^ 2 ^ m = 2 ^ (2 ^ m - 40) * 2 ^ 40 := by rw [← pow_add]; congr 1; omega
    have hfin : t + 2 ^ (2 ^ m - 40) < 2 ^ 2 ^ m := by omega
    have hsplit' : (2 : ℤ) ^ 2 ^ m = 2 ^ (2 ^ m - 40) * 2 ^ 40 := by exact_mod_cast hsplit
    have hfin' : (t : ℤ) + 2 ^ (2 ^ m - 40) < 2 ^ 2 ^ m := by exact_mod_cast hfin
    rw [hsplit'] at hfin' ⊢
    generalize (2 : ℤ) ^ (2 ^ m - 40) = P at *
    norm_num at *
    omega

open Verif.BF in
/-- **C166.** (Deviation) A function with six to eight arguments that is true for the last 55 keys has a Zhegalkin index, but `Boolf(zhe=…)` raises `LengthError` for it. -/
theorem C166_zhe_lengthError (F : Floats) (hF : F.Correct) (f : Boolf) (hf : Reach f) (z : ℕ) (hz : f.zhe = .ok z) (h6 : 6 ≤ f.adicity) (h8 : f.adicity ≤ 8)
    (h : ∀ key : ℕ, key < 2 ^ f.adicity → 2 ^ f.adicity ≤ key + 55 → f.getItem key = .ok true) : F.newZhe z = .error .lengthError := by
  obtain ⟨n, hn⟩ : ∃ n, f.adicity = n + 1 := ⟨f.adicity - 1, by omega⟩
  obtain ⟨b1, b2⟩ := zhe_big hf hz hn
  obtain ⟨m, hm, e⟩ := arity_cases hF (by norm_num; omega) b1 b2
  obtain ⟨t, t1, t2, t3, t4⟩ := zhe_table hf hz (m := m) (by omega)
  unfold Floats.newZhe
  rw [e]
  simp only [bind, Except.bind, Int.toNat_natCast, t1]
  have hle : 2 ^ f.adicity ≤ 2 ^ m := Nat.pow_le_pow_right (by norm_num) (by omega)
  have h64 : 64 ≤ 2 ^ f.adicity := by
    calc 64 = 2 ^ 6 := rfl
      _ ≤ _ := Nat.pow_le_pow_right (by norm_num) h6
  have hd : 2 ^ f.adicity ∣ 2 ^ m - 2 ^ f.adicity := Nat.dvd_sub (Nat.pow_dvd_pow 2 (by omega)) (dvd_refl _)
  have hb := le_of_bits (a := 2 ^ m - 55) (L := 2 ^ m) (t := t) (by omega) (fun j j1 j2 => by
    rw [t4 j j2]
    have hmod : j % 2 ^ f.adicity = j - (2 ^ m - 2 ^ f.adicity) := by
      conv_lhs => rw [show j = (2 ^ m - 2 ^ f.adicity) + (j - (2 ^ m - 2 ^ f.adicity)) by omega]
      rw [Nat.add_mod, Nat.mod_eq_zero_of_dvd hd, Nat.zero_add, Nat.mod_mod, Nat.mod_eq_of_lt (by omega)]
    have := h (j % 2 ^ f.adicity) (Nat.mod_lt _ (Nat.two_pow_pos _)) (by omega)
    rw [getItem_eq hf.canon.toSound] at this
    exact Except.ok.inj this)
  refine C166_table_lengthError F hF m t ?_ t2 none false
  have : 2 ^ (2 ^ m - 55) < 2 ^ (2 ^ m - 54) := Nat.pow_lt_pow_right (by norm_num) (by omega)
  omega

open Verif.BF in
/-- **C166.** (Deviation) For example the disjunction of six atoms: `Boolf(2**64 - 2, arity=6)` and `Boolf(zhe=2**64 - 2)`. -/
theorem C166_disjunction (F : Floats) (hF : F.Correct) : F.newTT (.int ((2 ^ 64 - 2 : ℕ) : ℤ)) none (some (6 : ℕ)) = .error .lengthError ∧
    F.newZhe ((2 ^ 64 - 2 : ℕ) : ℤ) = .error .lengthError ∧
    ∃ f, BF.newTT (.int ((2 ^ 64 - 2 : ℕ) : ℤ)) none (some (6 : ℕ)) = .ok f ∧ BF.newZhe ((2 ^ 64 - 2 : ℕ) : ℤ) = .ok f ∧ f.zhe = .ok (2 ^ 64 - 2) ∧
      ∀ key < 64, f.getItem (key : ℕ) = .ok (decide (key ≠ 0)) := by
  have tw : twinInt ((2 ^ 64 - 2 : ℕ) : ℤ) 6 = .ok (2 ^ 64 - 2) := by decide +kernel
  have ar : BF.intvalToArity ((2 ^ 64 - 2 : ℕ) : ℤ) = .ok 6 := by decide +kernel
  obtain ⟨f, f1, f2, f3, f4⟩ := C50_zhe_index (2 ^ 64 - 2)
  rw [show BF.new { zhe := some ((2 ^ 64 - 2 : ℕ) : ℤ) } = newZhe ((2 ^ 64 - 2 : ℕ) : ℤ) from rfl] at f1
  have hs := f2.canon.toSound
  obtain ⟨g, g1, g2, g3, _, g5⟩ := newTT_int_fun (t := 2 ^ 64 - 2) (n := 6) (by norm_num)
  have e : newZhe ((2 ^ 64 - 2 : ℕ) : ℤ) = .ok g := by
    unfold newZhe
    simp only [ar, tw, bind, Except.bind]
    exact g1
  obtain rfl : f = g := Except.ok.inj (f1.symm.trans e)
  have hv : ∀ key < 64, f.getItem (key : ℕ) = .ok (decide (key ≠ 0)) := by
    intro key hk
    rw [getItem_eq hs, g5, Nat.mod_eq_of_lt (by simpa using hk)]
    have : ∀ k < 64, (2 ^ 64 - 2).testBit k = decide (k ≠ 0) := by decide +kernel
    rw [this key hk]
  have had : f.adicity = 6 := by
    refine le_antisymm g3 ?_
    by_contra hc
    obtain ⟨z, z1, z2, _⟩ := C50_zhe f f2
    rw [f3] at z1
    obtain rfl := Except.ok.inj z1
    have : 2 ^ 2 ^ f.adicity ≤ 2 ^ 32 := Nat.pow_le_pow_right (by norm_num) (by
      calc 2 ^ f.adicity ≤ 2 ^ 5 := Nat.pow_le_pow_right (by norm_num) (by omega)
        _ = 32 := rfl)
    norm_num at z2 this
    omega
  refine ⟨C166_table_lengthError F hF 6 _ (by norm_num) (by norm_num) none false, ?_, f, g1, f1, f3, hv⟩
  refine C166_zhe_lengthError F hF f f2 _ f3 (by omega) (by omega) fun key k1 k2 => ?_
  rw [had] at k1 k2
  rw [hv key (by simpa using k1), decide_eq_true (by omega)]

/-- Correctly rounded logarithms exist. -/
example : ∃ F : Floats, F.Correct ∧ F.newZhe ((2 ^ 64 - 2 : ℕ) : ℤ) = .error .lengthError := by
  obtain ⟨F, hF⟩ := correct_exists
  exact ⟨F, hF, (C166_disjunction F hF).2.1⟩

/-- A table with 64 digits that begins with a zero is no problem. -/
example (F : Floats) (hF : F.Correct) : F.newTT (.int (2 ^ 63 - 1)) none (some (6 : ℕ)) = BF.newTT (.int (2 ^ 63 - 1)) none (some (6 : ℕ)) :=
  C166_table F hF 6 (by norm_num) _ none false (by norm_num)

end Verif.Fl
