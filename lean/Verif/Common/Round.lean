import Mathlib.Data.Int.Log
import Mathlib.Algebra.Order.Field.Power
import Mathlib.Data.Rat.Floor
import Mathlib.Algebra.Order.Floor.Ring
import Mathlib.Algebra.Ring.Parity
import Mathlib.Tactic.Linarith
import Mathlib.Tactic.Positivity
import Mathlib.Tactic.FieldSimp
import Mathlib.Tactic.Ring
/-!
Rounding of a positive rational number to the nearest double, ties to even (IEEE 754).  Subnormal numbers and overflow are left out:
the exponent is not limited.
-/
namespace Verif.Common.Round

/-- The nearest integer, ties to even. -/
def nearest (y : ℚ) : ℤ :=
  if y - ⌊y⌋ < 1 / 2 then ⌊y⌋
  else if 1 / 2 < y - ⌊y⌋ then ⌊y⌋ + 1
  else if Even ⌊y⌋ then ⌊y⌋ else ⌊y⌋ + 1

/-- Distance of two doubles in the binade of `x`: 53 binary digits. -/
def ulp (x : ℚ) : ℚ := 2 ^ (Int.log 2 x - 52)

/-- Nearest double. -/
def fl (x : ℚ) : ℚ := if x ≤ 0 then 0 else nearest (x / ulp x) * ulp x

/-- Nearest double of a number of either sign. -/
def rnd (x : ℚ) : ℚ := if x < 0 then - fl (-x) else fl x

/-! ### Properties -/

theorem nearest_int (n : ℤ) : nearest n = n := by simp [nearest]

theorem nearest_error (y : ℚ) : |(nearest y : ℚ) - y| ≤ 1 / 2 := by
  have h1 := Int.floor_le y
  have h2 := Int.lt_floor_add_one y
  unfold nearest
  rw [abs_le]
  split_ifs <;> push_cast <;> constructor <;> linarith

theorem nearest_floor_or (y : ℚ) : nearest y = ⌊y⌋ ∨ nearest y = ⌊y⌋ + 1 := by
  unfold nearest; split_ifs <;> simp

theorem nearest_mono {x y : ℚ} (h : x ≤ y) : nearest x ≤ nearest y := by
  rcases lt_or_eq_of_le (Int.floor_mono h) with hf | hf
  · rcases nearest_floor_or x with h1 | h1 <;> rcases nearest_floor_or y with h2 | h2 <;> omega
  · unfold nearest
    rw [← hf]
    split_ifs <;> first | omega | (exfalso; linarith)

theorem ulp_pos (x : ℚ) : 0 < ulp x := by unfold ulp; positivity

theorem log_bounds {x : ℚ} (h : 0 < x) : (2:ℚ) ^ Int.log 2 x ≤ x ∧ x < 2 ^ (Int.log 2 x + 1) :=
  ⟨by exact_mod_cast Int.zpow_log_le_self (R := ℚ) (b := 2) (by norm_num) h,
   by exact_mod_cast Int.lt_zpow_succ_log_self (R := ℚ) (b := 2) (by norm_num) x⟩

theorem fl_error {x : ℚ} (h : 0 < x) : |fl x - x| ≤ ulp x / 2 := by
  have hu := ulp_pos x
  rw [fl, if_neg (not_le.2 h)]
  have h1 := nearest_error (x / ulp x)
  have h2 : (nearest (x / ulp x) : ℚ) * ulp x - x = ((nearest (x / ulp x) : ℚ) - x / ulp x) * ulp x := by
    field_simp
  rw [h2, abs_mul, abs_of_pos hu]
  nlinarith

/-- The scaled number lies in `[2^52, 2^53)`. -/
theorem scaled {x : ℚ} (h : 0 < x) : (2:ℚ) ^ (52:ℕ) ≤ x / ulp x ∧ x / ulp x < 2 ^ (53:ℕ) := by
  obtain ⟨h1, h2⟩ := log_bounds h
  have hu := ulp_pos x
  have e1 : (2:ℚ) ^ Int.log 2 x = 2 ^ (52:ℕ) * ulp x := by
    unfold ulp
    rw [← zpow_natCast, ← zpow_add₀ (by norm_num)]
    congr 1; push_cast; ring
  have e2 : (2:ℚ) ^ (Int.log 2 x + 1) = 2 ^ (53:ℕ) * ulp x := by
    rw [zpow_add₀ (by norm_num), e1]; norm_num; ring
  rw [e1] at h1
  rw [e2] at h2
  exact ⟨by rw [le_div_iff₀ hu]; exact h1, by rw [div_lt_iff₀ hu]; exact h2⟩

/-- Numbers with at most 53 binary digits are doubles. -/
theorem fl_exact (m : ℕ) (k : ℤ) (hm : m ≤ 2 ^ 53) : fl ((m : ℚ) * 2 ^ k) = (m : ℚ) * 2 ^ k := by
  by_cases hz : m = 0
  · subst hz; simp [fl]
  have hpos : (0:ℚ) < (m : ℚ) * 2 ^ k := by
    have : (0:ℚ) < m := by exact_mod_cast Nat.pos_of_ne_zero hz
    positivity
  set x := (m : ℚ) * 2 ^ k with hx
  have hu := ulp_pos x
  obtain ⟨h1, h2⟩ := scaled hpos
  obtain ⟨l1, l2⟩ := log_bounds hpos
  rw [fl, if_neg (not_le.2 hpos)]
  -- the scaled number is an integer
  have key : ∃ n : ℤ, x / ulp x = n := by
    by_cases hlt : m = 2 ^ 53
    · refine ⟨2 ^ 52, ?_⟩
      have : Int.log 2 x = 53 + k := by
        have : x = ((2:ℕ):ℚ) ^ (53 + k) := by
          rw [hx, hlt, zpow_add₀ (by norm_num)]; push_cast; norm_num
        rw [this, Int.log_zpow (by norm_num)]
      rw [ulp, this, hx, hlt, div_eq_iff (by positivity)]
      push_cast
      have e : (53 + k - 52 : ℤ) = k + 1 := by ring
      rw [e, zpow_add₀ (by norm_num)]; norm_num; ring
    · have hm' : m < 2 ^ 53 := lt_of_le_of_ne hm hlt
      have hle : Int.log 2 x - 52 ≤ k := by
        have : (2:ℚ) ^ Int.log 2 x < 2 ^ (53 + k) := by
          refine lt_of_le_of_lt l1 ?_
          rw [hx, zpow_add₀ (by norm_num)]
          have : (m:ℚ) < 2 ^ (53:ℤ) := by
            have : (m:ℚ) < ((2 ^ 53 : ℕ) : ℚ) := by exact_mod_cast hm'
            refine lt_of_lt_of_le this ?_
            norm_num
          have hk : (0:ℚ) < 2 ^ k := by positivity
          nlinarith
        have := (zpow_lt_zpow_iff_right₀ (by norm_num : (1:ℚ) < 2)).1 this
        omega
      refine ⟨m * 2 ^ (k - (Int.log 2 x - 52)).toNat, ?_⟩
      rw [div_eq_iff hu.ne', ulp]
      push_cast
      rw [← zpow_natCast, Int.toNat_of_nonneg (by omega), mul_assoc, ← zpow_add₀ (by norm_num), hx]
      congr 2; ring
  obtain ⟨n, hn⟩ := key
  rw [hn, nearest_int, ← hn]
  field_simp

theorem fl_nonneg (x : ℚ) : 0 ≤ fl x := by
  unfold fl
  split_ifs with h
  · exact le_refl 0
  · have h1 := (scaled (not_le.1 h)).1
    have : (0:ℤ) ≤ nearest (x / ulp x) := by
      have := nearest_mono (x := ((0:ℤ):ℚ)) (y := x / ulp x) (by push_cast; linarith [show (0:ℚ) ≤ 2 ^ (52:ℕ) by positivity])
      rwa [nearest_int] at this
    have hu := ulp_pos x
    have : (0:ℚ) ≤ (nearest (x / ulp x) : ℚ) := by exact_mod_cast this
    positivity

theorem fl_le_binade {x : ℚ} (h : 0 < x) : fl x ≤ 2 ^ (Int.log 2 x + 1) := by
  have hu := ulp_pos x
  rw [fl, if_neg (not_le.2 h)]
  have h2 := (scaled h).2
  have : nearest (x / ulp x) ≤ 2 ^ 53 := by
    have := nearest_mono (x := x / ulp x) (y := ((2 ^ 53 : ℤ) : ℚ)) (by push_cast; exact h2.le)
    rwa [nearest_int] at this
  have h3 : (nearest (x / ulp x) : ℚ) ≤ 2 ^ (53:ℕ) := by exact_mod_cast this
  have e : (2:ℚ) ^ (Int.log 2 x + 1) = 2 ^ (53:ℕ) * ulp x := by
    unfold ulp
    rw [← zpow_natCast, ← zpow_add₀ (by norm_num)]
    congr 1; push_cast; ring
  rw [e]
  exact mul_le_mul_of_nonneg_right h3 hu.le

theorem binade_le_fl {x : ℚ} (h : 0 < x) : 2 ^ Int.log 2 x ≤ fl x := by
  have hu := ulp_pos x
  rw [fl, if_neg (not_le.2 h)]
  have h1 := (scaled h).1
  have : 2 ^ 52 ≤ nearest (x / ulp x) := by
    have := nearest_mono (x := ((2 ^ 52 : ℤ) : ℚ)) (y := x / ulp x) (by push_cast; exact h1)
    rwa [nearest_int] at this
  have h3 : (2:ℚ) ^ (52:ℕ) ≤ (nearest (x / ulp x) : ℚ) := by exact_mod_cast this
  have e : (2:ℚ) ^ Int.log 2 x = 2 ^ (52:ℕ) * ulp x := by
    unfold ulp
    rw [← zpow_natCast, ← zpow_add₀ (by norm_num)]
    congr 1; push_cast; ring
  rw [e]
  exact mul_le_mul_of_nonneg_right h3 hu.le

/-- Rounding is monotone. -/
theorem fl_mono {x y : ℚ} (h : x ≤ y) : fl x ≤ fl y := by
  by_cases hx : x ≤ 0
  · rw [fl, if_pos hx]; exact fl_nonneg y
  have hx := not_le.1 hx
  have hy := lt_of_lt_of_le hx h
  rcases lt_or_eq_of_le (Int.log_mono_right hx h (b := 2)) with hl | hl
  · refine le_trans (fl_le_binade hx) (le_trans ?_ (binade_le_fl hy))
    exact zpow_le_zpow_right₀ (by norm_num) (by omega)
  · have hu : ulp x = ulp y := by unfold ulp; rw [hl]
    rw [fl, fl, if_neg (not_le.2 hx), if_neg (not_le.2 hy), hu]
    have := nearest_mono (div_le_div_of_nonneg_right h (ulp_pos y).le)
    exact mul_le_mul_of_nonneg_right (by exact_mod_cast this) (ulp_pos y).le

/-- Integers up to `2^53` are doubles. -/
theorem fl_nat (n : ℕ) (h : n ≤ 2 ^ 53) : fl n = n := by
  have := fl_exact n 0 h
  simpa using this

/-- Rounding with the binade and the nearest integer given. -/
theorem fl_eq (x : ℚ) (e n : ℤ) (h1 : 2 ^ e ≤ x) (h2 : x < 2 ^ (e + 1)) (h3 : |x / 2 ^ (e - 52) - n| < 1 / 2) :
    fl x = n * 2 ^ (e - 52) := by
  have hpos : 0 < x := lt_of_lt_of_le (by positivity) h1
  have hlog : Int.log 2 x = e := by
    obtain ⟨l1, l2⟩ := log_bounds hpos
    have a := (zpow_lt_zpow_iff_right₀ (by norm_num : (1:ℚ) < 2)).1 (lt_of_le_of_lt l1 h2)
    have b := (zpow_lt_zpow_iff_right₀ (by norm_num : (1:ℚ) < 2)).1 (lt_of_le_of_lt h1 l2)
    omega
  rw [fl, if_neg (not_le.2 hpos), ulp, hlog]
  congr 2
  have he := nearest_error (x / 2 ^ (e - 52))
  set y := x / 2 ^ (e - 52)
  rw [abs_lt] at h3
  rw [abs_le] at he
  have a : ((nearest y : ℤ) : ℚ) < ((n + 1 : ℤ) : ℚ) := by push_cast; linarith
  have b : ((n - 1 : ℤ) : ℚ) < ((nearest y : ℤ) : ℚ) := by push_cast; linarith
  have a' : nearest y < n + 1 := by exact_mod_cast a
  have b' : n - 1 < nearest y := by exact_mod_cast b
  omega

theorem rnd_pos {x : ℚ} (h : 0 ≤ x) : rnd x = fl x := by rw [rnd, if_neg (not_lt.2 h)]

theorem rnd_neg {x : ℚ} (h : x < 0) : rnd x = - fl (-x) := by rw [rnd, if_pos h]

end Verif.Common.Round
