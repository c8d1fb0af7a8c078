import Verif.Core.StatisticsProps
import Verif.Common.Error
import Mathlib.Algebra.Order.BigOperators.Ring.List
/-!
`Statistics` (src/core/Statistics.cpp) with the rounding of doubles, and what the rounding does to C21.  State, `reset` and the sample are those of
`Verif.Core.Statistics`; `count` is converted exactly (it stays below 2^53).
-/
namespace Verif.Core.StatisticsFl
open Verif.Common.Round
open Verif.Core.Statistics (St reset Op sample)

/-- `add`, Statistics.cpp:11-23; every operation rounds (the product with 2 as well, which is exact anyway). -/
def add (s : St ℚ) (value : ℚ) : St ℚ :=
  let min := if value < s.min then value else s.min
  let max := if s.max < value then value else s.max
  let count := s.count + 1
  let A := rnd (s.A + value)
  let B := rnd (s.B + rnd (value * value))
  let mean := rnd (A / (count : ℚ))
  { count := count, last := value, min := min, max := max, A := A, B := B, mean := mean,
    variance := rnd (rnd (rnd (B - rnd (rnd (2 * mean) * A)) / (count : ℚ)) + rnd (mean * mean)) }

def step (M : ℚ) (s : St ℚ) : Op ℚ → St ℚ
  | .add v => add s v
  | .reset => reset M

/-- Any history of calls. -/
def exec (M : ℚ) (ops : List (Op ℚ)) : St ℚ := ops.foldl (step M) (reset M)

/-! ### Properties: C145 -/

/-- Sum of the magnitudes. -/
def absSum (l : List ℚ) : ℚ := (l.map (fun x => |x|)).sum

/-- Sum of the squares. -/
def sqSum (l : List ℚ) : ℚ := (l.map (fun x => x * x)).sum

structure Rel (s : St ℚ) (l : List ℚ) : Prop where
  count : s.count = l.length
  A : Approx l.length s.A l.sum (absSum l)
  B : Approx (l.length + 1) s.B (sqSum l) (sqSum l)
  mean : l ≠ [] → Approx (l.length + 1) s.mean (l.sum / l.length) (absSum l / l.length)
  variance : l ≠ [] → Approx (2 * l.length + 6) s.variance ((sqSum l - 2 * (l.sum / l.length) * l.sum) / l.length + (l.sum / l.length) * (l.sum / l.length))
    ((sqSum l + 2 * (absSum l / l.length) * absSum l) / l.length + (absSum l / l.length) * (absSum l / l.length))

theorem rel_reset (M : ℚ) : Rel (reset M) [] := by
  refine ⟨rfl, ?_, ?_, by simp, by simp⟩
  · have := Approx.exact 0
    simpa [absSum, reset] using this
  · have := (Approx.exact 0).weaken (l := 1) (by omega)
    simpa [sqSum, reset] using this

theorem rel_add (s : St ℚ) (l : List ℚ) (h : Rel s l) (v : ℚ) : Rel (add s v) (l ++ [v]) := by
  have hlen : (l ++ [v]).length = l.length + 1 := by simp
  have hA : Approx (l ++ [v]).length (add s v).A (l ++ [v]).sum (absSum (l ++ [v])) := by
    have := (h.A.add ((Approx.exact v).weaken (Nat.zero_le l.length))).round
    simpa [add, absSum] using this
  have hB : Approx ((l ++ [v]).length + 1) (add s v).B (sqSum (l ++ [v])) (sqSum (l ++ [v])) := by
    have h1 : Approx 1 (rnd (v * v)) (v * v) (v * v) := by
      have := ((Approx.exact v).mul (Approx.exact v)).round
      rwa [← abs_mul, abs_mul_self] at this
    have := (h.B.add (h1.weaken (by omega : 1 ≤ l.length + 1))).round
    simpa [add, sqSum] using this
  have hc : ((add s v).count : ℚ) = ((l ++ [v]).length : ℚ) := by simp [add, h.count]
  have hmean : Approx ((l ++ [v]).length + 1) (add s v).mean ((l ++ [v]).sum / (l ++ [v]).length) (absSum (l ++ [v]) / (l ++ [v]).length) := by
    have := (hA.divide ((l ++ [v]).length : ℚ) (by positivity)).round
    rw [show (add s v).mean = rnd ((add s v).A / ((add s v).count : ℚ)) from rfl, hc]
    exact this
  refine ⟨by simp [add, h.count], hA, hB, fun _ => hmean, fun _ => ?_⟩
  have h2 := (hmean.scale 2).round
  rw [show |(2:ℚ)| = 2 by norm_num] at h2
  have h3 := (h2.mul hA).round
  have h4 := ((hB.weaken (by omega)).sub h3).round
  have h5 := (h4.divide ((l ++ [v]).length : ℚ) (by positivity)).round
  have h6 := (hmean.mul hmean).round
  have h7 := (h5.add (h6.weaken (by omega))).round
  have e : (add s v).variance = rnd (rnd (rnd ((add s v).B - rnd (rnd (2 * (add s v).mean) * (add s v).A)) / ((add s v).count : ℚ)) + rnd ((add s v).mean * (add s v).mean)) := rfl
  rw [e, hc]
  exact h7.weaken (by omega)

theorem rel_exec (M : ℚ) (ops : List (Op ℚ)) : Rel (exec M ops) (sample ops []) := by
  suffices H : ∀ (ops : List (Op ℚ)) (s : St ℚ) (acc : List ℚ), Rel s acc → Rel (ops.foldl (step M) s) (sample ops acc) from H ops _ _ (rel_reset M)
  intro ops
  induction ops with
  | nil => intro s acc h; exact h
  | cons op ops ih =>
    intro s acc h
    cases op with
    | add v => exact ih _ _ (rel_add s acc h v)
    | reset => exact ih _ _ (rel_reset M)

/-- C145: the error of the mean after any history, for `n` values since the last reset. -/
theorem mean_error (M : ℚ) (ops : List (Op ℚ)) (l : List ℚ) (hl : sample ops [] = l) (hne : l ≠ []) :
    |(exec M ops).mean - l.sum / l.length| ≤ ((1 + 1 / 2 ^ 53) ^ (l.length + 1) - 1) * (absSum l / l.length) := by
  subst hl
  exact ((rel_exec M ops).mean hne).err

/-- C145: the error of the variance after any history: it is bounded relative to the mean square, not relative to the variance. -/
theorem variance_error (M : ℚ) (ops : List (Op ℚ)) (l : List ℚ) (hl : sample ops [] = l) (hne : l ≠ []) :
    |(exec M ops).variance - (l.map (fun x => (x - l.sum / l.length) * (x - l.sum / l.length))).sum / l.length| ≤
      ((1 + 1 / 2 ^ 53) ^ (2 * l.length + 6) - 1) * (sqSum l / l.length + 3 * (absSum l / l.length) ^ 2) := by
  subst hl
  have h := ((rel_exec M ops).variance hne).err
  have hn : (0:ℚ) < (sample ops []).length := by
    have := List.length_pos_of_ne_nil hne
    exact_mod_cast this
  generalize sample ops [] = l at *
  rw [Verif.Core.Statistics.sum_sq_dev]
  have e1 : (sqSum l - 2 * (l.sum / l.length) * l.sum + l.length * (l.sum / l.length * (l.sum / l.length))) / l.length =
      (sqSum l - 2 * (l.sum / l.length) * l.sum) / l.length + (l.sum / l.length) * (l.sum / l.length) := by
    field_simp
  have e2 : sqSum l / l.length + 3 * (absSum l / l.length) ^ 2 =
      (sqSum l + 2 * (absSum l / l.length) * absSum l) / l.length + (absSum l / l.length) * (absSum l / l.length) := by
    field_simp
    ring
  rw [e2]
  change |_ - (sqSum l - 2 * (l.sum / l.length) * l.sum + l.length * (l.sum / l.length * (l.sum / l.length))) / l.length| ≤ _
  rw [e1]
  exact h

/-- C145: minimum, maximum, count and last value are not touched by rounding. -/
theorem others_exact (M : ℚ) (ops : List (Op ℚ)) : (exec M ops).min = (Statistics.exec M ops).min ∧ (exec M ops).max = (Statistics.exec M ops).max ∧
    (exec M ops).count = (Statistics.exec M ops).count ∧ (exec M ops).last = (Statistics.exec M ops).last := by
  suffices H : ∀ (ops : List (Op ℚ)) (s t : St ℚ), s.min = t.min ∧ s.max = t.max ∧ s.count = t.count ∧ s.last = t.last →
      (ops.foldl (step M) s).min = (ops.foldl (Statistics.step M) t).min ∧ (ops.foldl (step M) s).max = (ops.foldl (Statistics.step M) t).max ∧
      (ops.foldl (step M) s).count = (ops.foldl (Statistics.step M) t).count ∧ (ops.foldl (step M) s).last = (ops.foldl (Statistics.step M) t).last from
    H ops _ _ ⟨rfl, rfl, rfl, rfl⟩
  intro ops
  induction ops with
  | nil => intro s t h; exact h
  | cons op ops ih =>
    intro s t h
    cases op with
    | add v =>
      refine ih _ _ ?_
      simp only [step, Statistics.step, add, Statistics.add, h.1, h.2.1, h.2.2.1]
      exact ⟨trivial, trivial, trivial, trivial⟩
    | reset => exact ih _ _ ⟨rfl, rfl, rfl, rfl⟩

/-- The largest double. -/
def maxDouble : ℚ := (2 - 1 / 2 ^ 52) * 2 ^ 1023

/-- C145 violated: the variance of five periods of exactly one millisecond (the double 0.001) is negative. -/
theorem negative_variance_violated :
    (exec maxDouble (List.replicate 5 (.add (rnd (1 / 1000))))).variance < 0 := by decide +kernel

/-- C145 violated: the mean of three times the double 0.1 is greater than the maximum. -/
theorem mean_above_max_violated :
    (exec maxDouble (List.replicate 3 (.add (rnd (1 / 10))))).max < (exec maxDouble (List.replicate 3 (.add (rnd (1 / 10))))).mean := by decide +kernel

theorem double_nat_mul (m : ℕ) (k : ℤ) (hm : m ≤ 2 ^ 53) : rnd ((m : ℚ) * 2 ^ k) = (m : ℚ) * 2 ^ k := by
  have := rnd_exact m k (by rw [abs_of_nonneg (by positivity)]; exact_mod_cast hm)
  exact_mod_cast this

theorem rnd_pow (k : ℕ) : rnd (2 ^ k) = 2 ^ k := by
  have := double_nat_mul 1 k (by norm_num)
  simpa using this

/-- C145 violated: the values 2^e - 1 and 2^e + 1 have variance 1; the result is 0. -/
theorem spread_lost_violated (M : ℚ) (e : ℕ) (h1 : 28 ≤ e) (h2 : e ≤ 52) :
    (exec M [.add (2 ^ e - 1), .add (2 ^ e + 1)]).variance = 0 := by
  obtain ⟨j, rfl⟩ : ∃ j, e = j + 28 := ⟨e - 28, by omega⟩
  have hp : (1:ℚ) ≤ 2 ^ j := one_le_pow₀ (by norm_num)
  have hle : (2:ℚ) ^ j ≤ 2 ^ 24 := pow_le_pow_right₀ (by norm_num) (by omega)
  have hle' : (2:ℕ) ^ j ≤ 2 ^ 24 := Nat.pow_le_pow_right (by norm_num) (by omega)
  have hx : rnd ((2:ℚ) ^ (j + 28) - 1) = 2 ^ (j + 28) - 1 := by
    have := double_nat_mul (2 ^ (j + 28) - 1) 0 (by
      have : (2:ℕ) ^ (j + 28) ≤ 2 ^ 52 := Nat.pow_le_pow_right (by norm_num) (by omega)
      omega)
    rw [Nat.cast_sub Nat.one_le_two_pow] at this
    simpa using this
  -- the squares
  have z1 : (2:ℚ) ^ ((((2 * j + 55 : ℕ) : ℤ)) - 52) = 8 * 2 ^ (2 * j) := by
    rw [show (((2 * j + 55 : ℕ) : ℤ)) - 52 = ((2 * j + 3 : ℕ) : ℤ) by push_cast; ring, zpow_natCast, pow_add]; ring
  have z2 : (2:ℚ) ^ ((((2 * j + 56 : ℕ) : ℤ)) - 52) = 16 * 2 ^ (2 * j) := by
    rw [show (((2 * j + 56 : ℕ) : ℤ)) - 52 = ((2 * j + 4 : ℕ) : ℤ) by push_cast; ring, zpow_natCast, pow_add]; ring
  have hsq : (2:ℚ) ^ (2 * j) = 2 ^ j * 2 ^ j := by rw [two_mul, pow_add]
  obtain ⟨i, hi⟩ : ∃ i, 24 = j + i := ⟨24 - j, by omega⟩
  have hij : (2:ℚ) ^ i * 2 ^ j = 2 ^ 24 := by rw [← pow_add, hi]; congr 1; omega
  have s1 : rnd (((2:ℚ) ^ (j + 28) - 1) * (2 ^ (j + 28) - 1)) = 2 ^ (2 * j + 56) - 2 ^ (j + 29) := by
    rw [rnd_pos (mul_self_nonneg _), fl_eq _ ((2 * j + 55 : ℕ) : ℤ) (2 ^ 53 - 2 ^ (i + 2)) ?_ ?_ ?_]
    · rw [z1, hsq]
      push_cast
      rw [pow_add _ (2 * j), pow_add _ j, pow_add _ i, hsq]
      have : (2:ℚ) ^ i * 2 ^ 2 * (8 * (2 ^ j * 2 ^ j)) = 32 * 2 ^ j * (2 ^ i * 2 ^ j) := by ring
      rw [sub_mul, this, hij]; ring
    · rw [zpow_natCast, pow_add _ (2 * j), pow_add _ j, hsq]
      nlinarith
    · rw [show (((2 * j + 55 : ℕ) : ℤ)) + 1 = ((2 * j + 56 : ℕ) : ℤ) by push_cast; ring, zpow_natCast, pow_add _ (2 * j), pow_add _ j, hsq]
      nlinarith
    · rw [z1, hsq]
      push_cast
      have e : (((2:ℚ) ^ (j + 28) - 1) * (2 ^ (j + 28) - 1)) / (8 * (2 ^ j * 2 ^ j)) - (9007199254740992 - 2 ^ (i + 2)) = 1 / (8 * (2 ^ j * 2 ^ j)) := by
        rw [pow_add _ j, pow_add _ i]
        have hi' : (2:ℚ) ^ i = 2 ^ 24 / 2 ^ j := by rw [eq_div_iff (by positivity)]; exact hij
        rw [hi']
        field_simp
        ring
      rw [e, abs_of_pos (by positivity), div_lt_div_iff₀ (by positivity) (by norm_num)]
      nlinarith
  have s2 : rnd (((2:ℚ) ^ (j + 28) + 1) * (2 ^ (j + 28) + 1)) = 2 ^ (2 * j + 56) + 2 ^ (j + 29) := by
    rw [rnd_pos (mul_self_nonneg _), fl_eq _ ((2 * j + 56 : ℕ) : ℤ) (2 ^ 52 + 2 ^ (i + 1)) ?_ ?_ ?_]
    · rw [z2, hsq]
      push_cast
      rw [pow_add _ (2 * j), pow_add _ j, pow_add _ i, hsq]
      have : (2:ℚ) ^ i * 2 ^ 1 * (16 * (2 ^ j * 2 ^ j)) = 32 * 2 ^ j * (2 ^ i * 2 ^ j) := by ring
      rw [add_mul, this, hij]; ring
    · rw [zpow_natCast, pow_add _ (2 * j), pow_add _ j, hsq]
      nlinarith
    · rw [show (((2 * j + 56 : ℕ) : ℤ)) + 1 = ((2 * j + 57 : ℕ) : ℤ) by push_cast; ring, zpow_natCast, pow_add _ (2 * j), pow_add _ j, hsq]
      nlinarith
    · rw [z2, hsq]
      push_cast
      have e : (((2:ℚ) ^ (j + 28) + 1) * (2 ^ (j + 28) + 1)) / (16 * (2 ^ j * 2 ^ j)) - (4503599627370496 + 2 ^ (i + 1)) = 1 / (16 * (2 ^ j * 2 ^ j)) := by
        rw [pow_add _ j, pow_add _ i]
        have hi' : (2:ℚ) ^ i = 2 ^ 24 / 2 ^ j := by rw [eq_div_iff (by positivity)]; exact hij
        rw [hi']
        field_simp
        ring
      rw [e, abs_of_pos (by positivity), div_lt_div_iff₀ (by positivity) (by norm_num)]
      nlinarith
  have s1' : rnd ((2:ℚ) ^ (2 * j + 56) - 2 ^ (j + 29)) = 2 ^ (2 * j + 56) - 2 ^ (j + 29) := by
    rw [← s1]; exact rnd_idem _
  have a2 : (2:ℚ) ^ (j + 28) - 1 + (2 ^ (j + 28) + 1) = 2 ^ (j + 29) := by rw [pow_add, pow_add]; ring
  have b2 : (2:ℚ) ^ (2 * j + 56) - 2 ^ (j + 29) + (2 ^ (2 * j + 56) + 2 ^ (j + 29)) = 2 ^ (2 * j + 57) := by rw [pow_add, pow_add _ (2 * j) 57]; ring
  have m2 : (2:ℚ) ^ (j + 29) / 2 = 2 ^ (j + 28) := by rw [pow_add, pow_add]; ring
  have d2 : (2:ℚ) * 2 ^ (j + 28) = 2 ^ (j + 29) := by rw [pow_add, pow_add]; ring
  have p2 : (2:ℚ) ^ (j + 29) * 2 ^ (j + 29) = 2 ^ (2 * j + 58) := by rw [← pow_add]; congr 1; ring
  have q2 : (2:ℚ) ^ (2 * j + 57) - 2 ^ (2 * j + 58) = - 2 ^ (2 * j + 57) := by rw [pow_add, pow_add _ (2 * j) 58]; ring
  have r2 : - (2:ℚ) ^ (2 * j + 57) / 2 = - 2 ^ (2 * j + 56) := by rw [pow_add, pow_add _ (2 * j) 56]; ring
  have t2 : (2:ℚ) ^ (j + 28) * 2 ^ (j + 28) = 2 ^ (2 * j + 56) := by rw [← pow_add]; congr 1; ring
  simp only [exec, List.foldl_cons, List.foldl_nil, step, add, reset, zero_add, hx, s1, s2, s1', a2, b2, rnd_pow]
  norm_num only [Nat.cast_add, Nat.cast_one, Nat.cast_zero]
  rw [m2, rnd_pow, d2, rnd_pow, p2, rnd_pow, q2, rnd_neg_eq, rnd_pow, r2, rnd_neg_eq, rnd_pow, t2, rnd_pow, neg_add_cancel, rnd_zero]

/-- Case of `mean_error` and `variance_error`: two values. -/
example : sample [.add (5 : ℚ), .reset, .add 1, .add 4] [] = [1, 4] := rfl

/-- Case of `spread_lost_violated`. -/
example : (exec maxDouble [.add (2 ^ 30 - 1), .add (2 ^ 30 + 1)]).variance = 0 := spread_lost_violated _ 30 (by norm_num) (by norm_num)

/-- Cases of `mean_error` and `variance_error`. -/
example := mean_error maxDouble [.add (5 : ℚ), .reset, .add 1, .add 4] [1, 4] rfl (by simp)
example := variance_error maxDouble [.add (5 : ℚ), .reset, .add 1, .add 4] [1, 4] rfl (by simp)

end Verif.Core.StatisticsFl
