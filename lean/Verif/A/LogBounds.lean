import Verif.Py.Double

/-!
# Bounds for the logarithms of 2 and 10
-/

namespace Verif.Fl
open Real Finset

theorem log_two_bounds : (837963523372001241319843 : ℝ) / 2 ^ 80 < log 2 ∧ log 2 < (837963523372001241319972 : ℝ) / 2 ^ 80 := by
  have h := abs_log_sub_add_sum_range_le (x := 1 / 2) (by rw [abs_of_pos] <;> norm_num) 80
  rw [abs_of_pos (show (0 : ℝ) < 1 / 2 by norm_num), show (1 : ℝ) - 1 / 2 = 2⁻¹ by norm_num, log_inv] at h
  have h1 := abs_le.1 h
  norm_num [sum_range_succ] at h1
  constructor <;> · norm_num; linarith [h1.1, h1.2]

theorem log_ten_bounds : (2783654570780253816071515 : ℝ) / 2 ^ 80 < log 10 ∧ log 10 < (2783654570780253816073564 : ℝ) / 2 ^ 80 := by
  have h := abs_log_sub_add_sum_range_le (x := 1 / 5) (by rw [abs_of_pos] <;> norm_num) 34
  rw [abs_of_pos (show (0 : ℝ) < 1 / 5 by norm_num), show (1 : ℝ) - 1 / 5 = (5 / 4)⁻¹ by norm_num, log_inv] at h
  have h1 := abs_le.1 h
  norm_num [sum_range_succ] at h1
  have e : log 10 = 3 * log 2 + log (5 / 4) := by
    rw [show (10 : ℝ) = 2 ^ 3 * (5 / 4) by norm_num, log_mul (by norm_num) (by norm_num), log_pow]
    norm_num
  have h2 := log_two_bounds
  norm_num at h2
  rw [e]
  constructor <;> · norm_num; linarith [h1.1, h1.2, h2.1, h2.2]

end Verif.Fl
