import Verif.Core.StatisticsFl
import Verif.Common.Scale
/-!
C318: `Statistics` in double arithmetic does not depend on the unit of the values, if the units differ by a power of two (model: `Core/StatisticsFl.lean`, `src/core/Statistics.cpp`).
-/
namespace Verif.Core.StatisticsFl
open Verif.Common.Round
open Verif.Core.Statistics (St reset Op)

/-! ### Specification -/

/-- The values in another unit. -/
def opScale (k : ℤ) : Op ℚ → Op ℚ
  | .add v => .add (v * 2 ^ k)
  | .reset => .reset

/-- The figures in another unit: the variance and the sum of the squares have the square of the unit. -/
def scaled (k : ℤ) (s : St ℚ) : St ℚ :=
  { count := s.count, last := s.last * 2 ^ k, min := s.min * 2 ^ k, max := s.max * 2 ^ k, A := s.A * 2 ^ k, B := s.B * 2 ^ (2 * k)
    mean := s.mean * 2 ^ k, variance := s.variance * 2 ^ (2 * k) }

theorem two_mul_zpow (k : ℤ) : (2:ℚ) ^ (2 * k) = 2 ^ k * 2 ^ k := by rw [← zpow_add₀ (by norm_num)]; congr 1; ring

theorem add_scale (k : ℤ) (s : St ℚ) (v : ℚ) : add (scaled k s) (v * 2 ^ k) = scaled k (add s v) := by
  have hp : (0:ℚ) < 2 ^ k := by positivity
  have lt : ∀ a b : ℚ, a * 2 ^ k < b * 2 ^ k ↔ a < b := fun a b => mul_lt_mul_iff_left₀ hp
  have hA : rnd (s.A * 2 ^ k + v * 2 ^ k) = rnd (s.A + v) * 2 ^ k := by rw [← add_mul, rnd_scale]
  have hsq : ∀ a : ℚ, rnd (a * 2 ^ k * (a * 2 ^ k)) = rnd (a * a) * 2 ^ (2 * k) := by
    intro a
    rw [← rnd_scale, two_mul_zpow]
    congr 1
    ring
  have hB : rnd (s.B * 2 ^ (2 * k) + rnd (v * 2 ^ k * (v * 2 ^ k))) = rnd (s.B + rnd (v * v)) * 2 ^ (2 * k) := by
    rw [hsq, ← add_mul, rnd_scale]
  have hmean : ∀ a n : ℚ, rnd (a * 2 ^ k / n) = rnd (a / n) * 2 ^ k := by
    intro a n
    rw [← rnd_scale]
    congr 1
    ring
  have hvar : ∀ A B m n : ℚ, rnd (rnd (rnd (B * 2 ^ (2 * k) - rnd (rnd (2 * (m * 2 ^ k)) * (A * 2 ^ k))) / n) + rnd (m * 2 ^ k * (m * 2 ^ k))) =
      rnd (rnd (rnd (B - rnd (rnd (2 * m) * A)) / n) + rnd (m * m)) * 2 ^ (2 * k) := by
    intro A B m n
    have e1 : rnd (2 * (m * 2 ^ k)) = rnd (2 * m) * 2 ^ k := by rw [← mul_assoc, rnd_scale]
    have e2 : rnd (rnd (2 * m) * 2 ^ k * (A * 2 ^ k)) = rnd (rnd (2 * m) * A) * 2 ^ (2 * k) := by
      rw [two_mul_zpow, ← two_mul_zpow, ← rnd_scale (rnd (2 * m) * A), two_mul_zpow]
      congr 1
      ring
    rw [e1, e2, hsq, ← sub_mul, rnd_scale, mul_div_right_comm, rnd_scale, ← add_mul, rnd_scale]
  unfold add scaled
  simp only [lt, hA, hB, hmean, hvar]
  congr 1
  · split <;> rfl
  · split <;> rfl

/-- **C318** For every history of calls and every power of two: with the values in another unit all figures are exactly the same in that unit, down to the last digit.
(`M`: the number with which minimum and maximum start.) -/
theorem exec_scale (k : ℤ) (M : ℚ) (ops : List (Op ℚ)) : exec (M * 2 ^ k) (ops.map (opScale k)) = scaled k (exec M ops) := by
  have hr : reset (M * 2 ^ k) = scaled k (reset M) := by simp [reset, scaled]
  have H : ∀ (ops : List (Op ℚ)) (s : St ℚ), (ops.map (opScale k)).foldl (step (M * 2 ^ k)) (scaled k s) = scaled k (ops.foldl (step M) s) := by
    intro ops
    induction ops with
    | nil => intro s; rfl
    | cons o ops ih =>
      intro s
      cases o with
      | add v =>
        show (ops.map (opScale k)).foldl (step (M * 2 ^ k)) (add (scaled k s) (v * 2 ^ k)) = _
        rw [add_scale, ih]
        rfl
      | reset =>
        show (ops.map (opScale k)).foldl (step (M * 2 ^ k)) (reset (M * 2 ^ k)) = _
        rw [hr, ih]
        rfl
  unfold exec
  rw [hr, H]

/-- The mean of 1/10 and 1/5 in units of 1/8. -/
example : (exec (maxDouble * 2 ^ (3 : ℤ)) ([Op.add (rnd (1 / 10)), .reset, .add (rnd (1 / 10)), .add (rnd (1 / 5))].map (opScale 3))).mean =
    (exec maxDouble [Op.add (rnd (1 / 10)), .reset, .add (rnd (1 / 10)), .add (rnd (1 / 5))]).mean * 2 ^ (3 : ℤ) := by
  rw [exec_scale]; rfl

/-- Mean and variance do not depend on the number with which minimum and maximum start. -/
theorem start_free (M N : ℚ) (ops : List (Op ℚ)) : (exec M ops).mean = (exec N ops).mean ∧ (exec M ops).variance = (exec N ops).variance := by
  have H : ∀ (ops : List (Op ℚ)) (s t : St ℚ), s.A = t.A → s.B = t.B → s.count = t.count → s.mean = t.mean → s.variance = t.variance →
      (ops.foldl (step M) s).mean = (ops.foldl (step N) t).mean ∧ (ops.foldl (step M) s).variance = (ops.foldl (step N) t).variance := by
    intro ops
    induction ops with
    | nil => intro s t _ _ _ h1 h2; exact ⟨h1, h2⟩
    | cons o ops ih =>
      intro s t hA hB hc h1 h2
      cases o with
      | add v => 
        refine ih (add s v) (add t v) ?_ ?_ ?_ ?_ ?_ <;> simp only [add, hA, hB, hc]
      | reset => exact ih _ _ rfl rfl rfl rfl rfl
  exact H ops _ _ rfl rfl rfl rfl rfl

example : (exec 0 [.add 3]).mean = (exec maxDouble [.add 3]).mean := (start_free 0 maxDouble _).1

/-- **C145 violated** for a whole family of values: five equal values, one thousandth of any power of two, have a negative variance. -/
theorem negative_variance_all_violated (M : ℚ) (k : ℤ) : (exec M (List.replicate 5 (.add (rnd (1 / 1000) * 2 ^ k)))).variance < 0 := by
  have h := exec_scale k maxDouble (List.replicate 5 (.add (rnd (1 / 1000))))
  rw [List.map_replicate] at h
  rw [(start_free M (maxDouble * 2 ^ k) _).2]
  show (exec (maxDouble * 2 ^ k) (List.replicate 5 (opScale k (.add (rnd (1 / 1000)))))).variance < 0
  rw [h]
  exact mul_neg_of_neg_of_pos negative_variance_violated (by positivity)

example : (exec maxDouble (List.replicate 5 (.add (rnd (1 / 1000) * 2 ^ (3 : ℤ))))).variance < 0 := negative_variance_all_violated _ 3

/-- **C145 violated** for a whole family of values: three equal values, one tenth of any power of two, have a mean above each of them. -/
theorem mean_above_all_violated (M : ℚ) (k : ℤ) : rnd (1 / 10) * 2 ^ k < (exec M (List.replicate 3 (.add (rnd (1 / 10) * 2 ^ k)))).mean := by
  have h := exec_scale k maxDouble (List.replicate 3 (.add (rnd (1 / 10))))
  rw [List.map_replicate] at h
  rw [(start_free M (maxDouble * 2 ^ k) _).1]
  show _ < (exec (maxDouble * 2 ^ k) (List.replicate 3 (opScale k (.add (rnd (1 / 10)))))).mean
  rw [h]
  exact mul_lt_mul_of_pos_right (by decide +kernel) (by positivity)

example : rnd (1 / 10) * 2 ^ (-4 : ℤ) < (exec 0 (List.replicate 3 (.add (rnd (1 / 10) * 2 ^ (-4 : ℤ))))).mean := mean_above_all_violated 0 (-4)

end Verif.Core.StatisticsFl
