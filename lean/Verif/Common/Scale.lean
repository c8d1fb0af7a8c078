import Verif.Common.Double
/-!
Rounding to doubles commutes with the multiplication with a power of two (without subnormal numbers and overflow).
-/
namespace Verif.Common.Round

theorem log_scale {x : ℚ} (h : 0 < x) (k : ℤ) : Int.log 2 (x * 2 ^ k) = Int.log 2 x + k := by
  have hp : (0:ℚ) < 2 ^ k := by positivity
  obtain ⟨a1, a2⟩ := log_bounds h
  obtain ⟨b1, b2⟩ := log_bounds (mul_pos h hp)
  have c1 : (2:ℚ) ^ (Int.log 2 x + k) < 2 ^ (Int.log 2 (x * 2 ^ k) + 1) := by
    refine lt_of_le_of_lt ?_ b2
    rw [zpow_add₀ (by norm_num)]
    exact mul_le_mul_of_nonneg_right a1 hp.le
  have c2 : (2:ℚ) ^ Int.log 2 (x * 2 ^ k) < 2 ^ (Int.log 2 x + 1 + k) := by
    refine lt_of_le_of_lt b1 ?_
    rw [zpow_add₀ (by norm_num) (Int.log 2 x + 1)]
    exact mul_lt_mul_of_pos_right a2 hp
  have d1 := (zpow_lt_zpow_iff_right₀ (by norm_num : (1:ℚ) < 2)).1 c1
  have d2 := (zpow_lt_zpow_iff_right₀ (by norm_num : (1:ℚ) < 2)).1 c2
  omega

theorem ulp_scale {x : ℚ} (h : 0 < x) (k : ℤ) : ulp (x * 2 ^ k) = ulp x * 2 ^ k := by
  rw [ulp, ulp, log_scale h, ← zpow_add₀ (by norm_num)]
  congr 1
  ring

theorem fl_scale (x : ℚ) (k : ℤ) : fl (x * 2 ^ k) = fl x * 2 ^ k := by
  have hp : (0:ℚ) < 2 ^ k := by positivity
  by_cases h : x ≤ 0
  · rw [fl, if_pos (mul_nonpos_of_nonpos_of_nonneg h hp.le), fl, if_pos h, zero_mul]
  · have h' := not_le.1 h
    rw [fl, if_neg (not_le.2 (mul_pos h' hp)), fl, if_neg h, ulp_scale h', mul_div_mul_right _ _ hp.ne']
    ring

theorem rnd_scale (x : ℚ) (k : ℤ) : rnd (x * 2 ^ k) = rnd x * 2 ^ k := by
  have hp : (0:ℚ) < 2 ^ k := by positivity
  by_cases h : x < 0
  · rw [rnd, if_pos (mul_neg_of_neg_of_pos h hp), rnd, if_pos h, ← neg_mul, fl_scale]
    ring
  · rw [rnd, if_neg (not_lt.2 (mul_nonneg (not_lt.1 h) hp.le)), rnd, if_neg h, fl_scale]

example : rnd (1 / 10 * 2 ^ (5 : ℤ)) = rnd (1 / 10) * 2 ^ (5 : ℤ) := rnd_scale _ _

end Verif.Common.Round
