import Verif.A.Log
import Verif.A.LogBounds
import Verif.Binv.Props

/-!
# C163: logarithms of integers, with floating point numbers
-/

namespace Verif.Fl
open Verif.Py Verif.BV
open Real

/-! ## Specification -/

/-- Integers are converted, and numbers divided, with rounding to nearest. -/
structure Floats.Rounds (F : Floats) : Prop where
  ofNat : ∀ n : ℕ, Nearest n (F.ofNat n)
  div : ∀ x y, IsDouble x → IsDouble y → 0 < y → Nearest (x / y) (F.div x y)

/-- The logarithms of the library have a relative error of at most `2 ** -52`. -/
structure Floats.Accurate (F : Floats) : Prop extends F.Rounds where
  double : ∀ x, IsDouble x → 1 ≤ x → IsDouble (F.ln x)
  ln : ∀ x, IsDouble x → 1 ≤ x → |F.ln x - Real.log x| ≤ Real.log x / 2 ^ 52
  lb : ∀ x, IsDouble x → 1 ≤ x → |F.lb x - logb 2 x| ≤ logb 2 x / 2 ^ 52

/-- The logarithms of the library are rounded to nearest. -/
structure Floats.Correct (F : Floats) : Prop extends F.Rounds where
  ln : ∀ x, IsDouble x → 1 ≤ x → Nearest (Real.log x) (F.ln x)
  lb : ∀ x, IsDouble x → 1 ≤ x → Nearest (logb 2 x) (F.lb x)

theorem rel_weaken {x y : ℝ} (h : Nearest x y) (hx : 0 ≤ x) : |y - x| ≤ x / 2 ^ 52 := by
  refine h.rel.trans ?_
  rw [abs_of_nonneg hx]
  exact div_le_div_of_nonneg_left hx (by norm_num) (by norm_num)

theorem Floats.Correct.accurate {F : Floats} (h : F.Correct) : F.Accurate where
  toRounds := h.toRounds
  double := fun x h1 h2 => (h.ln x h1 h2).1
  ln := fun x h1 h2 => rel_weaken (h.ln x h1 h2) (log_nonneg h2)
  lb := fun x h1 h2 => rel_weaken (h.lb x h1 h2) (logb_nonneg (by norm_num) h2)

/-- There are such operations. -/
theorem correct_exists : ∃ F : Floats, F.Correct :=
  ⟨⟨fun n => (nearest_exists n).choose, fun x => (nearest_exists (Real.log x)).choose, fun x => (nearest_exists (logb 2 x)).choose,
      fun x y => (nearest_exists (x / y)).choose⟩,
    { ofNat := fun n => (nearest_exists n).choose_spec
      div := fun x y _ _ _ => (nearest_exists (x / y)).choose_spec
      ln := fun x _ _ => (nearest_exists (Real.log x)).choose_spec
      lb := fun x _ _ => (nearest_exists (logb 2 x)).choose_spec }⟩

/-! ## Numbers that are not powers of the base -/

theorem ofNat_self {F : Floats} (h : F.Rounds) {n : ℕ} (hn : n < 2 ^ 53) : F.ofNat n = n := (h.ofNat n).self (isDouble_nat hn)

theorem log_close {F : Floats} (h : F.Accurate) {n b : ℕ} (hn : 1 ≤ n) (hn2 : n < 2 ^ 53) (hb : 2 ≤ b) (hb2 : b < 2 ^ 53) :
    |F.log n b - logb b n| ≤ logb b n / 2 ^ 50 := by
  unfold Floats.log
  rw [ofNat_self h.toRounds hn2, ofNat_self h.toRounds hb2]
  have dn := isDouble_nat hn2
  have db := isDouble_nat hb2
  have hn' : (1 : ℝ) ≤ n := by exact_mod_cast hn
  have hb' : (2 : ℝ) ≤ b := by exact_mod_cast hb
  have hA := h.ln n dn hn'
  have hB := h.ln b db (by linarith)
  have dA := h.double n dn hn'
  have dB := h.double b db (by linarith)
  have a0 : 0 ≤ Real.log n := log_nonneg hn'
  have b0 : 0 < Real.log b := log_pos (by linarith)
  unfold logb
  generalize Real.log n = a at *
  generalize Real.log b = β at *
  generalize F.ln n = A at *
  generalize F.ln b = B at *
  rw [abs_le] at hA hB
  norm_num at hA hB
  have B0 : 0 < B := by linarith
  have A0 : 0 ≤ A := by linarith
  have hq := (h.div A B dA dB B0).rel
  rw [abs_of_nonneg (div_nonneg A0 B0.le)] at hq
  generalize F.div A B = q at *
  have h1 : A / B ≤ a / β * (1 + 3 / 2 ^ 52) := by
    rw [div_le_iff₀ B0, div_mul_eq_mul_div, div_mul_eq_mul_div, le_div_iff₀ b0]
    have : A ≤ a * (1 + 1 / 2 ^ 52) := by norm_num; linarith
    have h3 : β * (1 - 1 / 2 ^ 52) ≤ B := by norm_num; linarith
    calc A * β ≤ a * (1 + 1 / 2 ^ 52) * β := mul_le_mul_of_nonneg_right this b0.le
      _ ≤ a * (1 + 3 / 2 ^ 52) * (β * (1 - 1 / 2 ^ 52)) := by
        have : 0 ≤ a * β := mul_nonneg a0 b0.le
        norm_num
        nlinarith
      _ ≤ a * (1 + 3 / 2 ^ 52) * B := mul_le_mul_of_nonneg_left h3 (mul_nonneg a0 (by norm_num))
  have h2 : a / β * (1 - 3 / 2 ^ 52) ≤ A / B := by
    rw [le_div_iff₀ B0, div_mul_eq_mul_div, div_mul_eq_mul_div, div_le_iff₀ b0]
    have : a * (1 - 1 / 2 ^ 52) ≤ A := by norm_num; linarith
    have h3 : B ≤ β * (1 + 1 / 2 ^ 52) := by norm_num; linarith
    calc a * (1 - 3 / 2 ^ 52) * B ≤ a * (1 - 3 / 2 ^ 52) * (β * (1 + 1 / 2 ^ 52)) := mul_le_mul_of_nonneg_left h3 (mul_nonneg a0 (by norm_num))
      _ ≤ a * (1 - 1 / 2 ^ 52) * β := by
        have : 0 ≤ a * β := mul_nonneg a0 b0.le
        norm_num
        nlinarith
      _ ≤ A * β := mul_le_mul_of_nonneg_right this b0.le
  have hl : 0 ≤ a / β := div_nonneg a0 b0.le
  generalize a / β = l at *
  generalize A / B = Q at *
  rw [abs_le] at hq ⊢
  norm_num at *
  constructor <;> linarith

theorem between {β n k : ℕ} (hβ : 2 ≤ β) (h1 : β ^ k < n) (h2 : n < β ^ (k + 1)) {c : ℝ} (hc : Real.log β ≤ c) (hk : ((k : ℝ) + 1) * c / 2 ^ 50 ≤ 1 / (β : ℝ) ^ (k + 1))
    {q : ℝ} (hq : |q - logb β n| ≤ logb β n / 2 ^ 50) : (k : ℝ) < q ∧ q < (k : ℝ) + 1 := by
  have hβ' : (2 : ℝ) ≤ β := by exact_mod_cast hβ
  have b0 : 0 < Real.log β := log_pos (by linarith)
  have c0 : 0 < c := lt_of_lt_of_le b0 hc
  have hP : (0 : ℝ) < (β : ℝ) ^ (k + 1) := by positivity
  have hp : (0 : ℝ) < (β : ℝ) ^ k := by positivity
  have h1' : (β : ℝ) ^ k + 1 ≤ n := by exact_mod_cast h1
  have h2' : (n : ℝ) + 1 ≤ (β : ℝ) ^ (k + 1) := by exact_mod_cast h2
  have n0 : (0 : ℝ) < n := by linarith
  have lo : (k : ℝ) * Real.log β + 1 / (β : ℝ) ^ (k + 1) < Real.log n := by
    have := one_sub_inv_le_log_of_pos (x := (n : ℝ) / (β : ℝ) ^ k) (by positivity)
    rw [log_div n0.ne' hp.ne', log_pow, inv_div] at this
    have h3 : 1 / (β : ℝ) ^ (k + 1) < 1 - (β : ℝ) ^ k / n := by
      rw [eq_sub_of_add_eq (show (1 - (β : ℝ) ^ k / n) + (β : ℝ) ^ k / n = 1 by ring)]
      calc 1 / (β : ℝ) ^ (k + 1) < 1 / n := one_div_lt_one_div_of_lt n0 (by linarith)
        _ ≤ 1 - (β : ℝ) ^ k / n := by
          rw [le_sub_iff_add_le, ← add_div, div_le_one n0]
          linarith
    linarith
  have hi : Real.log n + 1 / (β : ℝ) ^ (k + 1) ≤ ((k : ℝ) + 1) * Real.log β := by
    have := one_sub_inv_le_log_of_pos (x := (β : ℝ) ^ (k + 1) / n) (by positivity)
    rw [log_div hP.ne' n0.ne', log_pow, inv_div] at this
    have h3 : 1 / (β : ℝ) ^ (k + 1) ≤ 1 - n / (β : ℝ) ^ (k + 1) := by
      rw [le_sub_iff_add_le, ← add_div, div_le_one hP]
      linarith
    push_cast at this
    linarith
  have hT : ((k : ℝ) + 1) / 2 ^ 50 * Real.log β ≤ 1 / (β : ℝ) ^ (k + 1) := by
    refine le_trans ?_ hk
    rw [div_mul_eq_mul_div]
    exact div_le_div_of_nonneg_right (mul_le_mul_of_nonneg_left hc (by positivity)) (by norm_num)
  have e : Real.log n = logb β n * Real.log β := by
    unfold logb
    rw [div_mul_cancel₀ _ b0.ne']
  rw [e] at lo hi
  generalize logb (β : ℝ) n = l at *
  generalize 1 / (β : ℝ) ^ (k + 1) = T at *
  have hl1 : (k : ℝ) + ((k : ℝ) + 1) / 2 ^ 50 < l := by
    by_contra hcon
    push Not at hcon
    have := mul_le_mul_of_nonneg_right hcon b0.le
    nlinarith
  have hl2 : l + ((k : ℝ) + 1) / 2 ^ 50 ≤ (k : ℝ) + 1 := by
    by_contra hcon
    push Not at hcon
    have := mul_lt_mul_of_pos_right hcon b0
    nlinarith
  have k0 : (0 : ℝ) ≤ k := Nat.cast_nonneg k
  rw [abs_le] at hq
  have h4 : l / 2 ^ 50 ≤ ((k : ℝ) + 1) / 2 ^ 50 := by
    apply div_le_div_of_nonneg_right _ (by norm_num)
    have : 0 ≤ ((k : ℝ) + 1) / 2 ^ 50 := by positivity
    linarith
  have h5 : l / 2 ^ 50 < ((k : ℝ) + 1) / 2 ^ 50 := by
    apply div_lt_div_of_pos_right _ (by norm_num)
    have : 0 < ((k : ℝ) + 1) / 2 ^ 50 := by positivity
    linarith
  constructor <;> linarith

theorem log_two_le_one : Real.log (2 : ℕ) ≤ 1 := by
  have := log_two_bounds.2
  norm_num at this ⊢
  linarith

theorem log_ten_le_three : Real.log (10 : ℕ) ≤ 3 := by
  have := log_ten_bounds.2
  norm_num at this ⊢
  linarith

theorem two_bound {k : ℕ} (hk : k + 1 ≤ 44) : ((k : ℝ) + 1) * 1 / 2 ^ 50 ≤ 1 / ((2 : ℕ) : ℝ) ^ (k + 1) := by
  have h1 : (k : ℝ) + 1 ≤ 44 := by exact_mod_cast hk
  have h2 : ((2 : ℕ) : ℝ) ^ (k + 1) ≤ 2 ^ 44 := by
    push_cast
    exact pow_le_pow_right₀ (by norm_num) hk
  have h3 : 1 / (2 : ℝ) ^ 44 ≤ 1 / ((2 : ℕ) : ℝ) ^ (k + 1) := one_div_le_one_div_of_le (by positivity) h2
  refine le_trans ?_ h3
  norm_num
  linarith

theorem ten_bound {k : ℕ} (hk : k + 1 ≤ 13) : ((k : ℝ) + 1) * 3 / 2 ^ 50 ≤ 1 / ((10 : ℕ) : ℝ) ^ (k + 1) := by
  have h1 : (k : ℝ) + 1 ≤ 13 := by exact_mod_cast hk
  have h2 : ((10 : ℕ) : ℝ) ^ (k + 1) ≤ 10 ^ 13 := by
    push_cast
    exact pow_le_pow_right₀ (by norm_num) hk
  have h3 : 1 / (10 : ℝ) ^ 13 ≤ 1 / ((10 : ℕ) : ℝ) ^ (k + 1) := one_div_le_one_div_of_le (by positivity) h2
  refine le_trans ?_ h3
  norm_num
  linarith

theorem floor_between {k : ℕ} {q : ℝ} (h : (k : ℝ) < q ∧ q < (k : ℝ) + 1) : ⌊q⌋ = k ∧ ⌈q⌉ = k + 1 ∧ ¬ isNatural q := by
  refine ⟨Int.floor_eq_iff.2 ⟨by exact_mod_cast h.1.le, by exact_mod_cast h.2⟩, Int.ceil_eq_iff.2 ⟨?_, ?_⟩, ?_⟩
  · push_cast; linarith [h.1]
  · push_cast; linarith [h.2]
  · rintro ⟨⟨z, rfl⟩, _⟩
    have h1 : (k : ℤ) < z := by exact_mod_cast h.1
    have h2 : z < (k : ℤ) + 1 := by exact_mod_cast h.2
    omega

/-- **C163.** With rounding to nearest, and logarithms with a relative error of at most `2 ** -52`, the functions are right for the integers below `2 ** 44` that are
not powers of two, and `decimal_length` for those below `10 ** 13` that are not powers of ten. -/
theorem C163_accurate (F : Floats) (hF : F.Accurate) :
    (∀ n k : ℕ, 2 ^ k < n → n < 2 ^ (k + 1) → k + 1 ≤ 44 → F.binaryLength n = k + 1 ∧ F.isPowerOfTwo n = false ∧ F.logFloor n = .ok (k : ℤ) ∧
      F.logCeil n = .ok ((k : ℤ) + 1) ∧ F.logInt n = .error .argValue) ∧
    (∀ n k : ℕ, 10 ^ k < n → n < 10 ^ (k + 1) → k + 1 ≤ 13 → F.decimalLength n = k + 1) := by
  refine ⟨fun n k h1 h2 hk => ?_, fun n k h1 h2 hk => ?_⟩
  · have hn : 1 ≤ n := by have := Nat.one_le_two_pow (n := k); omega
    have hn53 : n < 2 ^ 53 := lt_of_lt_of_le h2 (Nat.pow_le_pow_right (by norm_num) (by omega))
    have a := floor_between (between le_rfl h1 h2 log_two_le_one (two_bound hk) (log_close hF hn hn53 le_rfl (by norm_num)))
    have hlb : |F.log2 n - logb ((2 : ℕ) : ℝ) n| ≤ logb ((2 : ℕ) : ℝ) n / 2 ^ 50 := by
      unfold Floats.log2
      rw [ofNat_self hF.toRounds hn53]
      have := hF.lb n (isDouble_nat hn53) (by exact_mod_cast hn)
      push_cast
      refine this.trans (div_le_div_of_nonneg_left (logb_nonneg (by norm_num) (by exact_mod_cast hn)) (by norm_num) (by norm_num))
    have b := floor_between (between le_rfl h1 h2 log_two_le_one (two_bound hk) hlb)
    have e0 : n ≠ 0 := by omega
    have e1 : (n : ℤ) - 1 ≥ 0 := by omega
    refine ⟨?_, ?_, ?_, ?_, ?_⟩
    · unfold Floats.binaryLength; rw [if_neg e0, a.1]
    · unfold Floats.isPowerOfTwo; rw [if_neg e0, if_pos a.2.2]
    · unfold Floats.logFloor; rw [if_pos e1, Int.toNat_natCast, b.1]
    · unfold Floats.logCeil; rw [if_pos e1, Int.toNat_natCast, b.2.1]
    · unfold Floats.logInt; rw [if_pos e1, Int.toNat_natCast]; simp only; rw [if_neg b.2.2]
  · have hn : 1 ≤ n := by have := Nat.one_le_pow k 10 (by norm_num); omega
    have hn53 : n < 2 ^ 53 := lt_of_lt_of_le h2 ((Nat.pow_le_pow_right (by norm_num) hk).trans (by norm_num))
    have a := floor_between (between (by norm_num) h1 h2 log_ten_le_three (ten_bound hk) (log_close hF hn hn53 (by norm_num) (by norm_num)))
    unfold Floats.decimalLength; rw [if_neg (by omega), a.1]

/-! ## Powers of the base -/

/-- Rounding, with a given number of binary digits after the point. -/
theorem nearest_fixed {x y : ℝ} (h : Nearest x y) (j t : ℕ) (hj : j ≤ 2 ^ 53) (h1 : 2 * |(j : ℝ) - x * 2 ^ t| < 1) (h2 : (2 : ℝ) ^ 53 + 1 ≤ 2 * (x * 2 ^ t)) :
    y = j / 2 ^ t := by
  have hp : (0 : ℝ) < 2 ^ t := by positivity
  have e : ((2 : ℝ) ^ ((52 - t : ℤ) - 52)) = 1 / 2 ^ t := by
    rw [show (52 - t : ℤ) - 52 = -(t : ℤ) by ring, zpow_neg, zpow_natCast, one_div]
  have e2 : ((2 : ℝ) ^ ((52 - t : ℤ) - 53)) = 1 / 2 / 2 ^ t := by
    rw [show (52 - t : ℤ) - 53 = -(t : ℤ) - 1 by ring, zpow_sub₀ (by norm_num), zpow_neg, zpow_natCast]
    norm_num
    ring
  have e3 : ((2 : ℝ) ^ (52 - t : ℤ)) = 2 ^ 52 / 2 ^ t := by
    rw [zpow_sub₀ (by norm_num), zpow_natCast]
    norm_num
  have hj' : |(j : ℤ)| ≤ 2 ^ 53 := by
    rw [abs_of_nonneg (by omega)]
    exact_mod_cast hj
  have x0 : 0 < x := by
    by_contra hc
    push Not at hc
    have := mul_nonpos_of_nonpos_of_nonneg hc hp.le
    norm_num at h2
    linarith
  have := h.eq_of_close (j := (j : ℤ)) (k := 52 - t) (isDouble_multiple hj') (by
      rw [e, e2, lt_div_iff₀ hp, ← abs_of_pos hp, ← abs_mul, abs_of_pos hp, sub_mul, mul_one_div, div_mul_cancel₀ _ hp.ne']
      push_cast
      linarith) (by
      rw [e3, e2, ← add_div, div_le_iff₀ hp, abs_of_pos x0]
      norm_num at h2 ⊢
      linarith)
  rw [this, e]
  push_cast
  rw [mul_one_div]

/-- The exponent `k`, mantissa and binary digits after the point of `log(2 ** k)`, and of `log(2 ** k) / log(2)`, when rounded to nearest. -/
def powerTable : List (ℕ × ℕ × ℕ × ℕ × ℕ) :=
  [(1, 6243314768165359, 53, 9007199254740992, 53), (2, 6243314768165359, 52, 9007199254740992, 52),
    (3, 4682486076124019, 51, 6755399441055744, 51), (4, 6243314768165359, 51, 9007199254740992, 51),
    (5, 7804143460206699, 51, 5629499534213120, 50), (6, 4682486076124019, 50, 6755399441055744, 50),
    (7, 5462900422144689, 50, 7881299347898368, 50), (8, 6243314768165359, 50, 9007199254740992, 50),
    (9, 7023729114186029, 50, 5066549580791808, 49), (10, 7804143460206699, 50, 5629499534213120, 49),
    (11, 8584557806227369, 50, 6192449487634432, 49), (12, 4682486076124019, 49, 6755399441055744, 49),
    (13, 5072693249134354, 49, 7318349394477056, 49), (14, 5462900422144689, 49, 7881299347898368, 49),
    (15, 5853107595155024, 49, 8444249301319680, 49), (16, 6243314768165359, 49, 9007199254740992, 49),
    (17, 6633521941175694, 49, 4785074604081152, 48), (18, 7023729114186029, 49, 5066549580791808, 48),
    (19, 7413936287196364, 49, 5348024557502464, 48), (20, 7804143460206699, 49, 5629499534213120, 48),
    (21, 8194350633217034, 49, 5910974510923776, 48), (22, 8584557806227369, 49, 6192449487634432, 48)] ++
   [(23, 8974764979237704, 49, 6473924464345088, 48), (24, 4682486076124019, 48, 6755399441055744, 48),
    (25, 4877589662629187, 48, 7036874417766400, 48), (26, 5072693249134354, 48, 7318349394477056, 48),
    (27, 5267796835639522, 48, 7599824371187712, 48), (28, 5462900422144689, 48, 7881299347898368, 48),
    (29, 5658004008649857, 48, 8162774324609025, 48), (30, 5853107595155024, 48, 8444249301319680, 48),
    (31, 6048211181660192, 48, 8725724278030337, 48), (32, 6243314768165359, 48, 9007199254740992, 48),
    (33, 6438418354670527, 48, 4644337115725824, 47), (34, 6633521941175694, 48, 4785074604081152, 47),
    (35, 6828625527680862, 48, 4925812092436480, 47), (36, 7023729114186029, 48, 5066549580791808, 47),
    (37, 7218832700691197, 48, 5207287069147136, 47), (38, 7413936287196364, 48, 5348024557502464, 47),
    (39, 7609039873701532, 48, 5488762045857793, 47), (40, 7804143460206699, 48, 5629499534213120, 47),
    (41, 7999247046711866, 48, 5770237022568448, 47), (42, 8194350633217034, 48, 5910974510923776, 47),
    (43, 8389454219722201, 48, 6051711999279104, 47)]

/-- The conditions that are needed, in integers. -/
def rowOk : ℕ × ℕ × ℕ × ℕ × ℕ → Bool := fun (k, m, s, j, t) =>
  decide (m ≤ 2 ^ 53 ∧ s ≤ 53 ∧ j ≤ 2 ^ 53 ∧
    2 * (m : ℤ) * 2 ^ (80 - s) < 2 * k * 837963523372001241319843 + 2 ^ (80 - s) ∧
    2 * (k : ℤ) * 837963523372001241319972 < 2 * m * 2 ^ (80 - s) + 2 ^ (80 - s) ∧
    ((2 ^ 53 + 1) * 2 ^ (80 - s) : ℤ) ≤ 2 * k * 837963523372001241319843 ∧
    2 * (j : ℤ) * 6243314768165359 < 2 * m * 2 ^ (53 - s + t) + 6243314768165359 ∧
    2 * (m : ℤ) * 2 ^ (53 - s + t) < 2 * j * 6243314768165359 + 6243314768165359 ∧
    ((2 ^ 53 + 1) * 6243314768165359 : ℤ) ≤ 2 * m * 2 ^ (53 - s + t) ∧
    k * 2 ^ t ≤ j ∧ j < (k + 1) * 2 ^ t ∧ (k ≤ 28 → j = k * 2 ^ t))

theorem powerTable_ok : ∀ r ∈ powerTable, rowOk r = true := by decide +kernel

theorem powerTable_all : ∀ k : ℕ, 1 ≤ k → k ≤ 43 → ∃ r ∈ powerTable, r.1 = k := by
  intro k h1 h2
  have : ∀ k ∈ List.range 44, 1 ≤ k → (powerTable.any fun r => r.1 == k) = true := by decide +kernel
  obtain ⟨r, hr, he⟩ := List.any_eq_true.1 (this k (List.mem_range.2 (by omega)) h1)
  exact ⟨r, hr, by simpa using he⟩

theorem nearest_log_two {y : ℝ} (h1 : Nearest (Real.log 2) y) : y = 6243314768165359 / 2 ^ 53 := by
  have := log_two_bounds
  norm_num at this
  have e := nearest_fixed h1 6243314768165359 53 (by norm_num) (by
    have : |((6243314768165359 : ℕ) : ℝ) - Real.log 2 * 2 ^ 53| < 1 / 2 := by
      rw [abs_lt]
      norm_num
      constructor <;> linarith [this.1, this.2]
    rw [← lt_div_iff₀' (by norm_num)]
    exact this) (by norm_num; linarith [this.1])
  rw [e]
  norm_num

theorem ln_two {F : Floats} (h : F.Correct) : F.ln 2 = 6243314768165359 / 2 ^ 53 :=
  nearest_log_two (h.ln 2 (by simpa using isDouble_pow 1) (by norm_num))

theorem ofNat_pow {F : Floats} (h : F.Rounds) (k : ℕ) : F.ofNat (2 ^ k) = 2 ^ k := by
  have := (h.ofNat (2 ^ k)).self (by push_cast; exact isDouble_pow k)
  rw [this]
  push_cast
  rfl

theorem log_row {F : Floats} (h : F.Correct) {k m s j t : ℕ} (hr : rowOk (k, m, s, j, t) = true) : F.log (2 ^ k) 2 = j / 2 ^ t := by
  unfold rowOk at hr
  simp only [decide_eq_true_eq] at hr
  obtain ⟨m1, s1, j1, a1, a2, a3, q1, q2, q3, _, _, _⟩ := hr
  have l2 := log_two_bounds
  have hP : (0 : ℝ) < 2 ^ (80 - s) := by positivity
  have hS : (0 : ℝ) < 2 ^ s := by positivity
  have hSP : (2 : ℝ) ^ s * 2 ^ (80 - s) = 2 ^ 80 := by rw [← pow_add]; congr 1; omega
  have hk0 : (0 : ℝ) ≤ k := Nat.cast_nonneg k
  have a1' : 2 * (m : ℝ) * 2 ^ (80 - s) < 2 * k * 837963523372001241319843 + 2 ^ (80 - s) := by exact_mod_cast a1
  have a2' : 2 * (k : ℝ) * 837963523372001241319972 < 2 * m * 2 ^ (80 - s) + 2 ^ (80 - s) := by exact_mod_cast a2
  have a3' : ((2 : ℝ) ^ 53 + 1) * 2 ^ (80 - s) ≤ 2 * k * 837963523372001241319843 := by exact_mod_cast a3
  have lo : 2 * k * 837963523372001241319843 ≤ 2 * (k * Real.log 2 * 2 ^ s) * 2 ^ (80 - s) := by
    rw [show 2 * (k * Real.log 2 * 2 ^ s) * (2 : ℝ) ^ (80 - s) = 2 * k * (Real.log 2 * (2 ^ s * 2 ^ (80 - s))) by ring, hSP]
    apply mul_le_mul_of_nonneg_left _ (by positivity)
    rw [← div_le_iff₀ (by positivity)]
    exact l2.1.le
  have hi : 2 * (k * Real.log 2 * 2 ^ s) * 2 ^ (80 - s) ≤ 2 * k * 837963523372001241319972 := by
    rw [show 2 * (k * Real.log 2 * 2 ^ s) * (2 : ℝ) ^ (80 - s) = 2 * k * (Real.log 2 * (2 ^ s * 2 ^ (80 - s))) by ring, hSP]
    apply mul_le_mul_of_nonneg_left _ (by positivity)
    rw [← le_div_iff₀ (by positivity)]
    exact l2.2.le
  have hA : F.ln (2 ^ k) = m / 2 ^ s := by
    have hn := h.ln (2 ^ k) (isDouble_pow k) (one_le_pow₀ (by norm_num))
    rw [log_pow] at hn
    refine nearest_fixed hn m s m1 ?_ ?_
    · have : |(m : ℝ) - k * Real.log 2 * 2 ^ s| < 1 / 2 := by
        rw [abs_lt]
        generalize k * Real.log 2 * 2 ^ s = X at *
        generalize (2 : ℝ) ^ (80 - s) = P at *
        constructor <;> nlinarith
      linarith
    · generalize k * Real.log 2 * 2 ^ s = X at *
      generalize (2 : ℝ) ^ (80 - s) = P at *
      refine le_of_mul_le_mul_right ?_ hP
      linarith
  have d1 : IsDouble (F.ln (2 ^ k)) := (h.ln (2 ^ k) (isDouble_pow k) (one_le_pow₀ (by norm_num))).1
  have d2 : IsDouble (F.ln 2) := (h.ln 2 (by simpa using isDouble_pow 1) (by norm_num)).1
  unfold Floats.log
  rw [ofNat_pow h.toRounds, ofNat_self h.toRounds (by norm_num)]
  push_cast
  have hq := h.div _ _ d1 d2 (by rw [ln_two h]; norm_num)
  refine nearest_fixed hq j t j1 ?_ ?_ <;> rw [hA, ln_two h]
  all_goals
    have e : (m : ℝ) / 2 ^ s / (6243314768165359 / 2 ^ 53) * 2 ^ t = m * 2 ^ (53 - s + t) / 6243314768165359 := by
      have : (2 : ℝ) ^ 53 = 2 ^ (53 - s) * 2 ^ s := by rw [← pow_add]; congr 1; omega
      rw [this, pow_add]
      field_simp
    rw [e]
    have q1' : 2 * (j : ℝ) * 6243314768165359 < 2 * m * 2 ^ (53 - s + t) + 6243314768165359 := by exact_mod_cast q1
    have q2' : 2 * (m : ℝ) * 2 ^ (53 - s + t) < 2 * j * 6243314768165359 + 6243314768165359 := by exact_mod_cast q2
    have q3' : ((2 : ℝ) ^ 53 + 1) * 6243314768165359 ≤ 2 * m * 2 ^ (53 - s + t) := by exact_mod_cast q3
  · rw [← lt_div_iff₀' (by norm_num), abs_lt]
    constructor
    · rw [neg_lt_sub_iff_lt_add, div_lt_iff₀ (by norm_num)]
      linarith
    · rw [sub_lt_iff_lt_add, ← sub_lt_iff_lt_add', lt_div_iff₀ (by norm_num)]
      linarith
  · rw [mul_div_assoc', le_div_iff₀ (by norm_num)]
    linarith

theorem log_power {F : Floats} (h : F.Correct) {k : ℕ} (hk : k ≤ 43) :
    (k : ℝ) ≤ F.log (2 ^ k) 2 ∧ F.log (2 ^ k) 2 < (k : ℝ) + 1 ∧ (k ≤ 28 → F.log (2 ^ k) 2 = k) := by
  rcases Nat.eq_zero_or_pos k with rfl | hk1
  · have h1 := log_close h.accurate (n := 1) (b := 2) le_rfl (by norm_num) le_rfl (by norm_num)
    norm_num at h1
    have : F.log 1 2 = 0 := h1
    simp [this]
  · obtain ⟨⟨k', m, s, j, t⟩, hr, he⟩ := powerTable_all k hk1 hk
    simp only at he
    subst he
    have hok := powerTable_ok _ hr
    rw [log_row h hok]
    unfold rowOk at hok
    simp only [decide_eq_true_eq] at hok
    obtain ⟨_, _, _, _, _, _, _, _, _, b1, b2, b3⟩ := hok
    have hp : (0 : ℝ) < 2 ^ t := by positivity
    refine ⟨?_, ?_, fun h28 => ?_⟩
    · rw [le_div_iff₀ hp]; exact_mod_cast b1
    · rw [div_lt_iff₀ hp]; exact_mod_cast b2
    · rw [div_eq_iff hp.ne']; exact_mod_cast b3 h28

theorem log_29 {F : Floats} (h : F.Correct) : F.log (2 ^ 29) 2 = 8162774324609025 / 2 ^ 48 := by
  have := log_row h (k := 29) (m := 5658004008649857) (s := 48) (j := 8162774324609025) (t := 48) (by decide +kernel)
  rw [this]
  norm_num

theorem log_1000 {F : Floats} (h : F.Correct) : F.log 1000 10 = 6755399441055743 / 2 ^ 51 := by
  have l10 := log_ten_bounds
  norm_num at l10
  have d10 : IsDouble (10 : ℝ) := by simpa using isDouble_nat (n := 10) (by norm_num)
  have d1000 : IsDouble (1000 : ℝ) := by simpa using isDouble_nat (n := 1000) (by norm_num)
  have n10 := h.ln 10 d10 (by norm_num)
  have n1000 := h.ln 1000 d1000 (by norm_num)
  have e3 : Real.log 1000 = 3 * Real.log 10 := by
    rw [show (1000 : ℝ) = 10 ^ 3 by norm_num, log_pow]
    norm_num
  have e10 : F.ln 10 = 5184960683398422 / 2 ^ 51 := by
    have := nearest_fixed n10 5184960683398422 51 (by norm_num) (by
      rw [← lt_div_iff₀' (by norm_num), abs_lt]
      norm_num
      constructor <;> linarith [l10.1, l10.2]) (by norm_num; linarith [l10.1])
    rw [this]
    norm_num
  have e1000 : F.ln 1000 = 7777441025097632 / 2 ^ 50 := by
    rw [e3] at n1000
    have := nearest_fixed n1000 7777441025097632 50 (by norm_num) (by
      rw [← lt_div_iff₀' (by norm_num), abs_lt]
      norm_num
      constructor <;> linarith [l10.1, l10.2]) (by norm_num; linarith [l10.1])
    rw [this]
    norm_num
  have hq := h.div _ _ n1000.1 n10.1 (by rw [e10]; norm_num)
  unfold Floats.log
  rw [ofNat_self h.toRounds (by norm_num), ofNat_self h.toRounds (by norm_num)]
  push_cast
  have := nearest_fixed hq 6755399441055743 51 (by norm_num) (by
    rw [e10, e1000, ← lt_div_iff₀' (by norm_num), abs_lt]
    norm_num) (by rw [e10, e1000]; norm_num)
  rw [this]
  norm_num

theorem log2_power {F : Floats} (h : F.Correct) (k : ℕ) (hk : k < 2 ^ 53) : F.log2 (2 ^ k) = k := by
  unfold Floats.log2
  rw [ofNat_pow h.toRounds]
  have hn := h.lb (2 ^ k) (isDouble_pow k) (one_le_pow₀ (by norm_num))
  rw [logb_pow, logb_self_eq_one (by norm_num), mul_one] at hn
  exact hn.self (isDouble_nat hk)

theorem isNatural_nat (k : ℕ) : isNatural (k : ℝ) := ⟨⟨k, by push_cast; rfl⟩, Nat.cast_nonneg k⟩

/-- **C163.** When also the logarithms are rounded to nearest, the powers of two are right: for `binary_length` those below `2 ** 44`, for `is_power_of_two` those below
`2 ** 29`, for `log_floor`, `log_ceil` and `log_int` all. -/
theorem C163_correct (F : Floats) (hF : F.Correct) :
    (∀ k : ℕ, k ≤ 43 → F.binaryLength (2 ^ k) = k + 1) ∧ (∀ k : ℕ, k ≤ 28 → F.isPowerOfTwo (2 ^ k) = true) ∧
    (∀ k : ℕ, k < 2 ^ 53 → F.logFloor ((2 ^ k : ℕ) : ℤ) = .ok (k : ℤ) ∧ F.logCeil ((2 ^ k : ℕ) : ℤ) = .ok (k : ℤ) ∧ F.logInt ((2 ^ k : ℕ) : ℤ) = .ok (k : ℤ)) := by
  have h0 : ∀ k : ℕ, 2 ^ k ≠ 0 := fun k => by positivity
  refine ⟨fun k hk => ?_, fun k hk => ?_, fun k hk => ?_⟩
  · obtain ⟨h1, h2, _⟩ := log_power hF hk
    unfold Floats.binaryLength
    rw [if_neg (h0 k), show ⌊F.log (2 ^ k) 2⌋ = (k : ℤ) from Int.floor_eq_iff.2 ⟨by exact_mod_cast h1, by exact_mod_cast h2⟩]
  · obtain ⟨_, _, h3⟩ := log_power hF (show k ≤ 43 by omega)
    unfold Floats.isPowerOfTwo
    rw [if_neg (h0 k), h3 hk, if_neg (not_not.2 (isNatural_nat k))]
  · have e1 : ((2 ^ k : ℕ) : ℤ) - 1 ≥ 0 := by
      have := Nat.one_le_two_pow (n := k)
      omega
    unfold Floats.logFloor Floats.logCeil Floats.logInt
    simp only [Int.toNat_natCast]
    have hl := log2_power hF k hk
    have hn : isNatural (F.log2 (2 ^ k)) := by rw [hl]; exact isNatural_nat k
    rw [if_pos e1, if_pos e1, if_pos e1, if_pos hn, hl, Int.floor_natCast, Int.ceil_natCast]
    exact ⟨rfl, rfl, rfl⟩

/-- **C163.** (Deviations) When also the logarithms are rounded to nearest, `2 ** 29` is no power of two, and 1000 has three decimal digits. -/
theorem C163_deviations (F : Floats) (hF : F.Correct) : F.isPowerOfTwo (2 ^ 29) = false ∧ F.decimalLength 1000 = 3 := by
  constructor
  · unfold Floats.isPowerOfTwo
    rw [if_neg (by norm_num), if_pos]
    refine (floor_between (k := 29) ?_).2.2
    rw [log_29 hF]
    norm_num
  · unfold Floats.decimalLength
    rw [if_neg (by norm_num), log_1000 hF, (floor_between (k := 2) (by norm_num)).1]
    norm_num

/-! ## The exact models -/

theorem log2_cases {n : ℕ} (hn : n ≠ 0) : n = 2 ^ Nat.log2 n ∨ 2 ^ Nat.log2 n < n ∧ n < 2 ^ (Nat.log2 n + 1) := by
  have h1 := Nat.log2_self_le hn
  have h2 := Nat.lt_log2_self (n := n)
  omega

theorem log2_lt {n : ℕ} (hn : n ≠ 0) {L : ℕ} (h : n < 2 ^ L) : Nat.log2 n + 1 ≤ L := (Nat.log2_lt hn).2 h

theorem binaryLength_exact {n : ℕ} (hn : n ≠ 0) : BV.binaryLength n = Nat.log2 n + 1 := by
  apply le_antisymm
  · rw [binaryLength_le]; exact Nat.lt_log2_self
  · have := (binaryLength_le n (BV.binaryLength n)).1 le_rfl
    exact log2_lt hn this

/-- **C163.** So the exact models, which are used everywhere else, agree with the code: `binary_length` and the constructor of Binv with `intval`, `log_floor`, `log_int` and
`intval_to_arity` for integers below `2 ** 44`, and `is_power_of_two` for those below `2 ** 29`. -/
theorem C163_models (F : Floats) (hF : F.Correct) :
    (∀ n : ℕ, n < 2 ^ 44 → F.binaryLength n = BV.binaryLength n) ∧ (∀ n : ℕ, n < 2 ^ 29 → F.isPowerOfTwo n = W.isPowerOfTwo n) ∧
    (∀ n : ℤ, n < 2 ^ 44 → F.logFloor n = (BF.logFloor n).map (fun k : ℕ => (k : ℤ))) ∧ (∀ n : ℕ, n < 2 ^ 44 → F.logInt n = (BF.logInt n).map (fun k : ℕ => (k : ℤ))) ∧
    (∀ n : ℤ, n < 2 ^ 44 → F.intvalToArity n = (BF.intvalToArity n).map (fun k : ℕ => (k : ℤ))) ∧
    (∀ (n : ℤ) (length minimalLength : Option ℤ), n < 2 ^ 44 → F.mkIntval n length minimalLength = BV.mkIntval n length minimalLength) := by
  have acc := (C163_accurate F hF.accurate).1
  obtain ⟨c1, c2, c3⟩ := C163_correct F hF
  have hbl : ∀ n : ℕ, n < 2 ^ 44 → F.binaryLength n = BV.binaryLength n := by
    intro n hn
    rcases Nat.eq_zero_or_pos n with rfl | h0
    · rfl
    · have hl := log2_lt h0.ne' hn
      rw [binaryLength_exact h0.ne']
      rcases log2_cases h0.ne' with h | ⟨h1, h2⟩
      · have := c1 (Nat.log2 n) (by omega)
        rw [← h] at this
        rw [this]; push_cast; rfl
      · rw [(acc n _ h1 h2 hl).1]; push_cast; rfl
  have hlf : ∀ n : ℤ, n < 2 ^ 44 → F.logFloor n = (BF.logFloor n).map (fun k : ℕ => (k : ℤ)) := by
    intro n hn
    unfold BF.logFloor
    by_cases h1 : n - 1 ≥ 0
    · rw [if_pos h1]
      obtain ⟨m, rfl⟩ : ∃ m : ℕ, n = m := ⟨n.toNat, by omega⟩
      have h0 : m ≠ 0 := by rintro rfl; simp at h1
      have hl := log2_lt h0 (show m < 2 ^ 44 by exact_mod_cast hn)
      rcases log2_cases h0 with h | ⟨a1, a2⟩
      · have := (c3 (Nat.log2 m) (by omega)).1
        rw [← h] at this
        exact this
      · exact (acc m _ a1 a2 hl).2.2.1
    · unfold Floats.logFloor
      rw [if_neg h1, if_neg h1]
      rfl
  refine ⟨hbl, fun n hn => ?_, hlf, fun n hn => ?_, fun n hn => ?_, fun n length minimalLength hn => ?_⟩
  · unfold W.isPowerOfTwo
    rcases Nat.eq_zero_or_pos n with rfl | h0
    · rfl
    · have hl := log2_lt h0.ne' hn
      rcases log2_cases h0.ne' with h | ⟨h1, h2⟩
      · have := c2 (Nat.log2 n) (by omega)
        rw [← h] at this
        rw [this]
        symm
        rw [decide_eq_true_eq]
        exact ⟨h0.ne', h.symm⟩
      · rw [(acc n _ h1 h2 (by omega)).2.1]
        symm
        rw [decide_eq_false_iff_not]
        rintro ⟨_, hc⟩
        omega
  · unfold BF.logInt W.isPowerOfTwo
    rcases Nat.eq_zero_or_pos n with rfl | h0
    · rfl
    · have hl := log2_lt h0.ne' hn
      rcases log2_cases h0.ne' with h | ⟨h1, h2⟩
      · have := (c3 (Nat.log2 n) (by omega)).2.2
        rw [← h] at this
        rw [this, if_pos (decide_eq_true ⟨h0.ne', h.symm⟩)]
        rfl
      · rw [(acc n _ h1 h2 (by omega)).2.2.2.2, if_neg]
        · rfl
        · rw [decide_eq_true_eq]
          rintro ⟨_, hc⟩
          omega
  · unfold Floats.intvalToArity BF.intvalToArity
    split
    · split
      · rfl
      · rename_i h1 h2
        rw [hlf n hn]
        have e : BF.logFloor n = .ok (Nat.log2 n.toNat) := by unfold BF.logFloor; rw [if_pos (by omega)]
        rw [e]
        have hlt : Nat.log2 n.toNat + 1 ≤ 44 := log2_lt (by omega) (by zify; rw [Int.toNat_of_nonneg (by omega)]; exact_mod_cast hn)
        have := hlf (Nat.log2 n.toNat : ℕ) (by push_cast; norm_num; omega)
        simp only [Except.map, bind, Except.bind, pure, Except.pure] at this ⊢
        rw [this]
        cases BF.logFloor ((Nat.log2 n.toNat : ℕ) : ℤ) with
        | error e => rfl
        | ok k => simp
    · rfl
  · unfold Floats.mkIntval BV.mkIntval
    split
    · rename_i h0
      rw [hbl n.toNat (by zify; rw [Int.toNat_of_nonneg h0]; exact_mod_cast hn)]
      cases length <;> cases minimalLength <;> rfl
    · rfl

/-! ## Big integers -/

/-- **C163.** (Deviation) Whatever the logarithms of the library are, the functions do not distinguish big integers that are converted to the same floating point number: from
`2 ** 55` on, `2 ** k` and `2 ** k - 1` have the same `binary_length` and `log_floor`, and `log_int` treats them alike; and `2 ** k + 1` has the same `log_ceil` as `2 ** k`. -/
theorem C163_collision (F : Floats) (hF : ∀ n : ℕ, Nearest n (F.ofNat n)) (k : ℕ) (hk : 55 ≤ k) :
    F.binaryLength (2 ^ k - 1) = F.binaryLength (2 ^ k) ∧ F.logFloor ((2 ^ k - 1 : ℕ) : ℤ) = F.logFloor ((2 ^ k : ℕ) : ℤ) ∧
    F.logInt ((2 ^ k - 1 : ℕ) : ℤ) = F.logInt ((2 ^ k : ℕ) : ℤ) ∧ F.logCeil ((2 ^ k + 1 : ℕ) : ℤ) = F.logCeil ((2 ^ k : ℕ) : ℤ) := by
  have e0 : F.ofNat (2 ^ k) = 2 ^ k := by
    have := (hF (2 ^ k)).self (by push_cast; exact isDouble_pow k)
    rw [this]; push_cast; rfl
  have e1 : F.ofNat (2 ^ k - 1) = F.ofNat (2 ^ k) := by rw [e0]; exact nearest_below hk (hF _)
  have e2 : F.ofNat (2 ^ k + 1) = F.ofNat (2 ^ k) := by rw [e0]; exact nearest_above (by omega) (hF _)
  have h2 : 2 ≤ 2 ^ k := by
    calc 2 = 2 ^ 1 := rfl
      _ ≤ 2 ^ k := Nat.pow_le_pow_right (by norm_num) (by omega)
  have p0 : ((2 ^ k : ℕ) : ℤ) - 1 ≥ 0 := by omega
  have p1 : ((2 ^ k - 1 : ℕ) : ℤ) - 1 ≥ 0 := by omega
  have p2 : ((2 ^ k + 1 : ℕ) : ℤ) - 1 ≥ 0 := by omega
  refine ⟨?_, ?_, ?_, ?_⟩
  · unfold Floats.binaryLength Floats.log
    rw [if_neg (by omega), if_neg (by omega), e1]
  · unfold Floats.logFloor Floats.log2
    rw [if_pos p0, if_pos p1, Int.toNat_natCast, Int.toNat_natCast, e1]
  · unfold Floats.logInt Floats.log2
    rw [if_pos p0, if_pos p1, Int.toNat_natCast, Int.toNat_natCast, e1]
  · unfold Floats.logCeil Floats.log2
    rw [if_pos p0, if_pos p2, Int.toNat_natCast, Int.toNat_natCast, e2]

/-- **C163.** (Deviation) So `Binv(intval=2**k-1, length=k)` raises `LengthError`, and `Binv(intval=2**k-1, minimal_length=0)` has a superfluous zero, when `binary_length(2**k)`
is right; otherwise `2**k` is accepted with a length that is too small. -/
theorem C163_binv (F : Floats) (hF : ∀ n : ℕ, Nearest n (F.ofNat n)) (k : ℕ) (hk : 55 ≤ k) :
    (F.binaryLength (2 ^ k) = k + 1 → F.mkIntval ((2 ^ k - 1 : ℕ) : ℤ) (some k) none = .error .lengthError ∧
      ∃ b : Binv, F.mkIntval ((2 ^ k - 1 : ℕ) : ℤ) none (some 0) = .ok b ∧ b.length = k + 1) ∧
    (F.binaryLength (2 ^ k) ≤ k → ∃ b : Binv, F.mkIntval ((2 ^ k : ℕ) : ℤ) (some k) none = .ok b ∧ b.length = k + 1) ∧
    (∃ b : Binv, BV.mkIntval ((2 ^ k - 1 : ℕ) : ℤ) (some k) none = .ok b ∧ b.length = k) := by
  have hc := (C163_collision F hF k hk).1
  have h2 : 2 ≤ 2 ^ k := by
    calc 2 = 2 ^ 1 := rfl
      _ ≤ 2 ^ k := Nat.pow_le_pow_right (by norm_num) (by omega)
  have hlog : Nat.log2 (2 ^ k - 1) + 1 = k := by
    apply le_antisymm
    · exact log2_lt (by omega) (by omega)
    · have := Nat.lt_log2_self (n := 2 ^ k - 1)
      have h4 : 2 ^ k ≤ 2 ^ (Nat.log2 (2 ^ k - 1) + 1) := by omega
      exact (Nat.pow_le_pow_iff_right (by norm_num)).1 h4
  have hlen : ∀ n, n ≠ 0 → (binLE n).length = Nat.log2 n + 1 := by
    intro n hn
    rw [← binaryLength_exact hn]
    unfold binLE BV.binaryLength
    rw [if_neg hn]
  have hz : ∀ (n : ℕ) (L : ℤ), n ≠ 0 → (zfillLE (binLE n) L).length = max (Nat.log2 n + 1) L.toNat := by
    intro n L hn
    unfold zfillLE
    rw [List.length_append, List.length_replicate, hlen n hn]
    omega
  refine ⟨fun hb => ⟨?_, ?_⟩, fun hb => ?_, ?_⟩
  · unfold Floats.mkIntval
    rw [if_pos (by omega), Int.toNat_natCast]
    simp only
    rw [hc, hb, if_neg (by omega)]
  · refine ⟨⟨zfillLE (binLE (2 ^ k - 1)) (max 0 (k + 1))⟩, ?_, ?_⟩
    · unfold Floats.mkIntval
      rw [if_pos (by omega), Int.toNat_natCast]
      simp only
      rw [hc, hb]
    · unfold Binv.length
      simp only
      rw [hz _ _ (by omega), hlog]
      omega
  · refine ⟨⟨zfillLE (binLE (2 ^ k)) k⟩, ?_, ?_⟩
    · unfold Floats.mkIntval
      rw [if_pos (by omega), Int.toNat_natCast]
      simp only
      rw [if_pos hb]
    · unfold Binv.length
      simp only
      rw [hz _ _ (by omega), Nat.log2_two_pow]
      omega
  · refine ⟨⟨zfillLE (binLE (2 ^ k - 1)) k⟩, ?_, ?_⟩
    · unfold BV.mkIntval
      rw [if_pos (by omega), Int.toNat_natCast]
      simp only
      rw [if_pos (by rw [binaryLength_exact (by omega), hlog])]
    · unfold Binv.length
      simp only
      rw [hz _ _ (by omega), hlog]
      omega

/-- **C163.** (Deviation) The 64 binary digits of `2**64 - 1` are taken for the truth table of a function with seven arguments. -/
theorem C163_arity (F : Floats) (hF : F.Correct) : F.intvalToArity ((2 ^ 64 - 1 : ℕ) : ℤ) = .ok 7 ∧ BF.intvalToArity ((2 ^ 64 - 1 : ℕ) : ℤ) = .ok 6 := by
  constructor
  · unfold Floats.intvalToArity
    rw [(C163_collision F hF.ofNat 64 (by norm_num)).2.1, ((C163_correct F hF).2.2 64 (by norm_num)).1]
    rw [if_pos (by norm_num), if_neg (by norm_num)]
    have := ((C163_correct F hF).2.2 6 (by norm_num)).1
    norm_num at this
    simp only [bind, Except.bind, pure, Except.pure]
    norm_num
    rw [this]
    rfl
  · decide +kernel

example : ∃ F : Floats, F.Correct ∧ F.Accurate ∧ ∀ n : ℕ, Nearest n (F.ofNat n) := by
  obtain ⟨F, hF⟩ := correct_exists
  exact ⟨F, hF, hF.accurate, hF.ofNat⟩

end Verif.Fl
