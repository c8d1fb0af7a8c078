import Verif.Common.Scale
import Mathlib.Tactic.Linarith
import Mathlib.Tactic.Positivity
import Mathlib.Tactic.NormNum
/-!
The default monitor of a periodic task in doubles: `PeriodicCounter::addDefaultMonitor`, src/core/PeriodicCounter.cpp:84-97, with the measured period of lines 42 and 45
(a whole number of nanoseconds, converted to seconds as a double).  In exact arithmetic: `warns_iff` in `Verif/Core/PeriodicCounterProps.lean`.

Simplification: no overflow and no underflow of doubles; the difference of the two clock readings is below 2^53 ns (104 days), so that it is a double.
-/
namespace Verif.Core.MonitorFl
open Verif.Common.Round Verif.Common

/-- `std::chrono::duration<double>(start - last).count()`, line 42: `n` nanoseconds in seconds. -/
def seconds (n : ℕ) : ℚ := rnd (n / 1000000000)

/-- Lines 85-91: whether a warning is logged, for doubles `period`, `tolerance` and a measured period `T`. -/
def warns (period tolerance T : ℚ) : Bool :=
  let tmin := rnd (period * rnd (1 - tolerance))
  let tmax := rnd (period * rnd (1 + tolerance))
  decide (T < tmin ∨ T > tmax)

/-! ### Lemmas -/

theorem rnd_one : rnd 1 = 1 := by simpa using rnd_exact 1 0 (by norm_num)

theorem prod_near (P p a c : ℚ) (hP : 0 < P) (hp : |p - P| ≤ P / 2 ^ 53) (ha : |a - c| ≤ 2 / 2 ^ 53) (hc : |c| ≤ 2) : |rnd (p * a) - P * c| ≤ P * (10 / 2 ^ 53) := by
  have h1 : |p * a - P * c| ≤ P * (5 / 2 ^ 53) := by
    have e : p * a - P * c = (p - P) * a + P * (a - c) := by ring
    have ha3 : |a| ≤ 3 := by
      have := abs_le.1 ha
      have := abs_le.1 hc
      norm_num at *
      rw [abs_le]; constructor <;> linarith
    have t1 : |(p - P) * a| ≤ P / 2 ^ 53 * 3 := by
      rw [abs_mul]; exact mul_le_mul hp ha3 (abs_nonneg _) (by positivity)
    have t2 : |P * (a - c)| ≤ P * (2 / 2 ^ 53) := by
      rw [abs_mul, abs_of_pos hP]; exact mul_le_mul_of_nonneg_left ha hP.le
    calc |p * a - P * c| = |(p - P) * a + P * (a - c)| := by rw [e]
      _ ≤ |(p - P) * a| + |P * (a - c)| := abs_add_le _ _
      _ ≤ P / 2 ^ 53 * 3 + P * (2 / 2 ^ 53) := by linarith
      _ = P * (5 / 2 ^ 53) := by ring
  have h2 := rnd_rel (p * a)
  have h3 : |p * a| ≤ P * 3 := by
    have h4 : |P * c| ≤ P * 2 := by rw [abs_mul, abs_of_pos hP]; exact mul_le_mul_of_nonneg_left hc hP.le
    have : |p * a| ≤ |p * a - P * c| + |P * c| := by
      have := abs_add_le (p * a - P * c) (P * c); rwa [sub_add_cancel] at this
    norm_num at h1; linarith
  have h5 : |p * a| / 2 ^ 53 ≤ P * (3 / 2 ^ 53) := by
    rw [← mul_div_assoc]; apply div_le_div_of_nonneg_right h3; positivity
  have := abs_le.1 h1
  have := abs_le.1 h2
  norm_num at *
  rw [abs_le]; constructor <;> linarith

theorem factor_near (c : ℚ) (hc : |c| ≤ 2) : |rnd c - c| ≤ 2 / 2 ^ 53 :=
  le_trans (rnd_rel c) (div_le_div_of_nonneg_right hc (by positivity))

/-! ### C359 -/

/-- **C359.** A task which is exactly on time is never warned about, for every tolerance. -/
theorem on_time (N : ℕ) (tolerance : ℚ) (ht : 0 ≤ tolerance) : warns (seconds N) tolerance (seconds N) = false := by
  have hp : 0 ≤ seconds N := by
    have := rnd_mono (show (0 : ℚ) ≤ N / 1000000000 by positivity)
    rwa [rnd_zero] at this
  have hd : rnd (seconds N) = seconds N := rnd_idem _
  have a1 : rnd (1 - tolerance) ≤ 1 := by rw [← rnd_one]; exact rnd_mono (by rw [rnd_one]; linarith)
  have a2 : 1 ≤ rnd (1 + tolerance) := by rw [← rnd_one]; exact rnd_mono (by rw [rnd_one]; linarith)
  have b1 : rnd (seconds N * rnd (1 - tolerance)) ≤ seconds N := by
    conv => rhs; rw [← hd]
    exact rnd_mono (by nlinarith)
  have b2 : seconds N ≤ rnd (seconds N * rnd (1 + tolerance)) := by
    conv => lhs; rw [← hd]
    exact rnd_mono (by nlinarith)
  simp only [warns, decide_eq_false_iff_not, not_or, not_lt, gt_iff_lt]
  exact ⟨b1, b2⟩

/-- **C359.** A larger tolerance warns less, and a longer deviation warns more. -/
theorem monotone (p t t' T T' : ℚ) (hp : 0 ≤ p) (htt : t ≤ t') (hT : T' ≤ T ∧ T ≤ p ∨ p ≤ T ∧ T ≤ T') (ht : 0 ≤ t) (hd : IsDouble p) (h : warns p t' T = true) :
    warns p t T' = true := by
  simp only [warns, decide_eq_true_eq, gt_iff_lt] at h ⊢
  have m1 : rnd (p * rnd (1 - t')) ≤ rnd (p * rnd (1 - t)) := rnd_mono (mul_le_mul_of_nonneg_left (rnd_mono (by linarith)) hp)
  have m2 : rnd (p * rnd (1 + t)) ≤ rnd (p * rnd (1 + t')) := rnd_mono (mul_le_mul_of_nonneg_left (rnd_mono (by linarith)) hp)
  have a1 : rnd (1 - t) ≤ 1 := by rw [← rnd_one]; exact rnd_mono (by rw [rnd_one]; linarith)
  have a2 : 1 ≤ rnd (1 + t) := by rw [← rnd_one]; exact rnd_mono (by rw [rnd_one]; linarith)
  have b1 : rnd (p * rnd (1 - t)) ≤ p := by
    conv => rhs; rw [← show rnd p = p from hd]
    exact rnd_mono (by nlinarith)
  have b2 : p ≤ rnd (p * rnd (1 + t)) := by
    conv => lhs; rw [← show rnd p = p from hd]
    exact rnd_mono (by nlinarith)
  rcases hT with ⟨h1, h2⟩ | ⟨h1, h2⟩ <;> rcases h with h | h
  · left; linarith
  · exfalso; linarith
  · exfalso; linarith
  · right; linarith

/-- **C359, the part which holds.** A nominal period of `N` ns and a measured one of `n` ns: unless the deviation lies within `N / 2^48` ns of the limit, there is a
warning exactly if the deviation is larger than the tolerance. -/
theorem warns_partial (N n : ℕ) (hN : 0 < N) (t : ℚ) (h0 : 0 ≤ t) (h1 : t ≤ 1) (hfar : (N : ℚ) / 2 ^ 48 < |(|(n : ℚ) - N| - t * N)|) :
    warns (seconds N) t (seconds n) = true ↔ t * N < |(n : ℚ) - N| := by
  have hN' : (0 : ℚ) < N := by exact_mod_cast hN
  have hn' : (0 : ℚ) ≤ n := by positivity
  have sN := rnd_rel ((N : ℚ) / 1000000000)
  have sn := rnd_rel ((n : ℚ) / 1000000000)
  rw [abs_of_nonneg (show (0 : ℚ) ≤ N / 1000000000 by positivity)] at sN
  rw [abs_of_nonneg (show (0 : ℚ) ≤ n / 1000000000 by positivity)] at sn
  have lo := prod_near (N / 1000000000) (seconds N) (rnd (1 - t)) (1 - t) (by positivity) sN (factor_near _ (by rw [abs_le]; constructor <;> linarith))
    (by rw [abs_le]; constructor <;> linarith)
  have hi := prod_near (N / 1000000000) (seconds N) (rnd (1 + t)) (1 + t) (by positivity) sN (factor_near _ (by rw [abs_le]; constructor <;> linarith))
    (by rw [abs_le]; constructor <;> linarith)
  simp only [warns, decide_eq_true_eq, gt_iff_lt]
  unfold seconds at lo hi ⊢
  generalize rnd (rnd ((N : ℚ) / 1000000000) * rnd (1 - t)) = tmin at *
  generalize rnd (rnd ((N : ℚ) / 1000000000) * rnd (1 + t)) = tmax at *
  generalize rnd ((n : ℚ) / 1000000000) = T at *
  have htN : t * N ≤ N := by nlinarith
  have htN0 : 0 ≤ t * N := by positivity
  rw [show (N : ℚ) / 1000000000 * (1 - t) = (N - t * N) / 1000000000 by ring] at lo
  rw [show (N : ℚ) / 1000000000 * (1 + t) = (N + t * N) / 1000000000 by ring] at hi
  generalize t * (N : ℚ) = s at *
  generalize (n : ℚ) = x at *
  generalize (N : ℚ) = y at *
  rw [abs_le] at lo hi sn
  norm_num at lo hi sn hfar
  constructor
  · intro h
    by_contra hc
    rw [not_lt] at hc
    rw [abs_of_nonpos (by linarith)] at hfar
    have hd := abs_le.1 hc
    rcases le_total x y with hxy | hxy
    · rw [abs_of_nonpos (by linarith)] at hfar
      rcases h with h | h <;> linarith
    · rw [abs_of_nonneg (by linarith)] at hfar
      rcases h with h | h <;> linarith
  · intro h
    rw [abs_of_pos (by linarith)] at hfar
    rcases le_total x y with hxy | hxy
    · rw [abs_of_nonpos (by linarith)] at hfar h
      left; linarith
    · rw [abs_of_nonneg (by linarith)] at hfar h
      right; linarith

/-- **C359 is violated at the limit**: with a period of 1 ms and a tolerance of 0.1, a measured period of 0.9 ms, which deviates by the tolerance and not by more, is
warned about, and one of 1.1 ms is not. -/
theorem limit_violated : warns (seconds 1000000) (rnd (1 / 10)) (seconds 900000) = true ∧ warns (seconds 1000000) (rnd (1 / 10)) (seconds 1100000) = false ∧
    |(900000 : ℚ) - 1000000| = 1 / 10 * 1000000 ∧ |(1100000 : ℚ) - 1000000| = 1 / 10 * 1000000 := by
  have e1 : rnd (1 / 10) = 7205759403792794 / 2 ^ 56 := by
    rw [rnd_pos (by norm_num), fl_eq (1 / 10) (-4) 7205759403792794 (by norm_num) (by norm_num) (by norm_num [abs_lt])]; norm_num
  have e2 : seconds 1000000 = 4611686018427388 / 2 ^ 62 := by
    unfold seconds
    push_cast
    rw [rnd_pos (by norm_num), fl_eq _ (-10) 4611686018427388 (by norm_num) (by norm_num) (by norm_num [abs_lt])]; norm_num
  have e3 : seconds 900000 = 8301034833169298 / 2 ^ 63 := by
    unfold seconds
    push_cast
    rw [rnd_pos (by norm_num), fl_eq _ (-11) 8301034833169298 (by norm_num) (by norm_num) (by norm_num [abs_lt])]; norm_num
  have e4 : seconds 1100000 = 5072854620270127 / 2 ^ 62 := by
    unfold seconds
    push_cast
    rw [rnd_pos (by norm_num), fl_eq _ (-10) 5072854620270127 (by norm_num) (by norm_num) (by norm_num [abs_lt])]; norm_num
  have f1 : rnd (1 - 7205759403792794 / 2 ^ 56) = 8106479329266893 / 2 ^ 53 := by
    rw [rnd_pos (by norm_num), fl_eq _ (-1) 8106479329266893 (by norm_num) (by norm_num) (by norm_num [abs_lt])]; norm_num
  have f2 : rnd (1 + 7205759403792794 / 2 ^ 56) = 4953959590107546 / 2 ^ 52 := by
    rw [rnd_pos (by norm_num), fl_eq _ 0 4953959590107546 (by norm_num) (by norm_num) (by norm_num [abs_lt])]; norm_num
  have g1 : rnd (4611686018427388 / 2 ^ 62 * (8106479329266893 / 2 ^ 53)) = 8301034833169299 / 2 ^ 63 := by
    rw [rnd_pos (by norm_num), fl_eq _ (-11) 8301034833169299 (by norm_num) (by norm_num) (by norm_num [abs_lt])]; norm_num
  have g2 : rnd (4611686018427388 / 2 ^ 62 * (4953959590107546 / 2 ^ 52)) = 5072854620270127 / 2 ^ 62 := by
    rw [rnd_pos (by norm_num), fl_eq _ (-10) 5072854620270127 (by norm_num) (by norm_num) (by norm_num [abs_lt])]; norm_num
  refine ⟨?_, ?_, by norm_num, by norm_num⟩
  · simp only [warns]; rw [e1, e2, e3, f1, f2, g1, g2]; norm_num
  · simp only [warns]; rw [e1, e2, e4, f1, f2, g1, g2]; norm_num

/-! ### Cases -/

/-- 1 ms with 0.05: 1.06 ms is warned about, 1.04 ms is not. -/
example : warns (seconds 1000000) (1 / 20) (seconds 1060000) = true := (warns_partial 1000000 1060000 (by norm_num) (1 / 20) (by norm_num) (by norm_num) (by norm_num)).2 (by norm_num)
example : ¬ warns (seconds 1000000) (1 / 20) (seconds 1040000) = true := fun h =>
  absurd ((warns_partial 1000000 1040000 (by norm_num) (1 / 20) (by norm_num) (by norm_num) (by norm_num)).1 h) (by norm_num)
example : warns (seconds 1000000) 0 (seconds 1000000) = false := on_time 1000000 0 (le_refl _)
example : warns (seconds 1000000) (1 / 50) (seconds 1080000) = true :=
  monotone (seconds 1000000) (1 / 50) (1 / 20) (seconds 1060000) (seconds 1080000) (by have := rnd_mono (show (0 : ℚ) ≤ (1000000 : ℕ) / 1000000000 by norm_num); rwa [rnd_zero] at this)
    (by norm_num) (Or.inr ⟨rnd_mono (by norm_num), rnd_mono (by norm_num)⟩) (by norm_num) (rnd_idem _)
    ((warns_partial 1000000 1060000 (by norm_num) (1 / 20) (by norm_num) (by norm_num) (by norm_num)).2 (by norm_num))

end Verif.Core.MonitorFl
