import Verif.Control.FiltersProps
import Verif.Common.Error
/-!
`MovingAverageFilter` and `LowPassFilter` (includes/eeros/control/filter) with the rounding of doubles and what it does to C36.  States and histories are those of `Verif.Control.Filters`.
-/
namespace Verif.Control.FiltersFl
open Verif.Common.Round
open Verif.Control.Filters

namespace MovingAverage
open Verif.Control.Filters.MovingAverage (St new Op inputs)

/-- The loop MovingAverageFilter.hpp:67-70 after `n` passes, starting from `result` of line 66; products and sums round. -/
def loop (c : Nat → ℚ) (prev : Nat → ℚ) (r : ℚ) : Nat → (Nat → ℚ) × ℚ
  | 0 => (prev, r)
  | n+1 =>
    let p := loop c prev r n
    let prev' := upd p.1 n (p.1 (n+1))
    (prev', rnd (p.2 + rnd (c n * prev' n)))

/-- `run`, MovingAverageFilter.hpp:64-78. -/
def run (s : St ℚ) (x : ℚ) : St ℚ × ℚ :=
  let p := loop s.c s.prev (rnd (s.c (s.N - 1) * x)) (s.N - 1)
  ({ s with prev := upd p.1 (s.N - 1) x }, if s.enabled then p.2 else x)

def step (s : St ℚ) : Op ℚ → St ℚ × Option ℚ
  | .run x => let r := run s x; (r.1, some r.2)
  | .enable => ({ s with enabled := true }, none)
  | .disable => ({ s with enabled := false }, none)

def exec (s : St ℚ) (ops : List (Op ℚ)) : St ℚ := ops.foldl (fun s op => (step s op).1) s

theorem loop_prev (c prev : Nat → ℚ) (r r' : ℚ) (n : Nat) : (loop c prev r n).1 = (Filters.MovingAverage.loop c prev r' n).1 := by
  induction n with
  | zero => rfl
  | succ n ih => simp only [loop, Filters.MovingAverage.loop, ih]

theorem exec_eq (ops : List (Op ℚ)) : ∀ s : St ℚ, exec s ops = Filters.MovingAverage.exec s ops := by
  induction ops with
  | nil => intro s; rfl
  | cons op ops ih =>
    intro s
    change exec (step s op).1 ops = Filters.MovingAverage.exec (Filters.MovingAverage.step s op).1 ops
    rw [ih]
    congr 1
    cases op with
    | run x => simp only [step, Filters.MovingAverage.step, run, Filters.MovingAverage.run, loop_prev s.c s.prev _ (s.c (s.N - 1) * x)]
    | enable => rfl
    | disable => rfl

theorem loop_approx (c prev : Nat → ℚ) (r y m : ℚ) (h : Approx 1 r y m) (n : Nat) :
    Approx (n + 1) (loop c prev r n).2 (y + ((List.range n).map (fun j => c j * prev (j + 1))).sum) (m + ((List.range n).map (fun j => |c j * prev (j + 1)|)).sum) := by
  induction n with
  | zero => simpa [loop] using h
  | succ n ih =>
    have hp : (loop c prev r n).1 (n + 1) = prev (n + 1) := by
      rw [loop_prev c prev r r, Filters.MovingAverage.loop_eq, Median.shift_eq]
      simp
    have h1 : Approx 1 (rnd (c n * prev (n + 1))) (c n * prev (n + 1)) |c n * prev (n + 1)| := (Approx.exact _).round
    have := (ih.add (h1.weaken (by omega : 1 ≤ n + 1))).round
    simp only [loop, upd, if_true, hp, List.range_succ, List.map_append, List.sum_append, List.map_cons, List.map_nil, List.sum_cons, List.sum_nil, add_zero]
    rw [← add_assoc, ← add_assoc]
    exact this

/-- C147: the error of the moving average after any history: one rounding per coefficient, it does not grow with the number of runs. -/
theorem average_error (N : Nat) (hN : 1 ≤ N) (c : Nat → ℚ) (ops : List (Op ℚ)) (x : ℚ) (hen : (exec (new N c) ops).enabled = true) :
    |(run (exec (new N c) ops) x).2 - (List.zipWith (· * ·) ((List.range N).map c) (window N (inputs ops ++ [x]))).sum| ≤
      ((1 + 1 / 2 ^ 53) ^ N - 1) * (List.zipWith (fun a b => |a * b|) ((List.range N).map c) (window N (inputs ops ++ [x]))).sum := by
  rw [exec_eq] at hen ⊢
  obtain ⟨h1, h2, h3⟩ := Filters.MovingAverage.exec_values N hN c ops
  rw [window_snoc N hN, ← h3]
  obtain ⟨M, rfl⟩ : ∃ M, N = M + 1 := ⟨N - 1, by omega⟩
  generalize Filters.MovingAverage.exec (new (M + 1) c) ops = s at *
  have ha := loop_approx s.c s.prev (rnd (s.c M * x)) (s.c M * x) |s.c M * x| (Approx.exact _).round M
  have hr : (run s x).2 = (loop s.c s.prev (rnd (s.c M * x)) M).2 := by simp [run, hen, h1]
  rw [hr, Filters.MovingAverage.zip_tail_sum, h2] at *
  have hm : (List.zipWith (fun a b => |a * b|) ((List.range (M + 1)).map c) (((List.range (M + 1)).map s.prev).tail ++ [x])).sum =
      |c M * x| + ((List.range M).map (fun j => |c j * s.prev (j + 1)|)).sum := by
    rw [Median.range_map_tail, Nat.add_sub_cancel, List.range_succ, List.map_append, List.map_cons, List.map_nil, List.zipWith_append (by simp)]
    rw [List.zipWith_map, List.zipWith_self]
    simp [add_comm]
  rw [hm]
  exact ha.err

end MovingAverage

namespace LowPass
open Verif.Control.Filters.LowPass (St)

/-- `run`, LowPassFilter.hpp:58-72; every operation rounds. -/
def run (s : St ℚ) (x : ℚ) : St ℚ × Option ℚ :=
  let valprev := if s.first then some x else s.prev
  let out := if s.enabled then valprev.map (fun p => rnd (rnd (x * s.alpha) + rnd (p * rnd (1 - s.alpha)))) else some x
  ({ s with first := false, prev := out }, out)

/-- `n` runs with a constant input. -/
def constant (s : St ℚ) (c : ℚ) : Nat → St ℚ
  | 0 => s
  | n + 1 => (run (constant s c n) c).1

/-- One step of the filter. -/
theorem out_approx (alpha c p : ℚ) (h0 : 0 ≤ alpha) (h1 : alpha ≤ 1) :
    Approx 3 (rnd (rnd (c * alpha) + rnd (p * rnd (1 - alpha)))) (c * alpha + p * (1 - alpha)) (|c| * alpha + |p| * (1 - alpha)) := by
  have ha : Approx 1 (rnd (c * alpha)) (c * alpha) (|c| * alpha) := by
    have := (Approx.exact (c * alpha)).round
    rwa [abs_mul, abs_of_nonneg h0] at this
  have hb : Approx 1 (rnd (1 - alpha)) (1 - alpha) (1 - alpha) := by
    have := (Approx.exact (1 - alpha)).round
    rwa [abs_of_nonneg (by linarith)] at this
  have hp := (hb.scale p).round
  exact ((ha.weaken (by omega)).add hp).round

example : |rnd (rnd (7 * (1/10)) + rnd (3 * rnd (1 - 1/10))) - (7 * (1/10) + 3 * (1 - 1/10))| ≤ gam 3 * (|7| * (1/10) + |3| * (1 - 1/10)) :=
  (out_approx (1/10) 7 3 (by norm_num) (by norm_num)).err

/-- C147: with a constant input the output comes as near to it as the rounding allows, from any state: `q < 1` if the weight is greater than about 3·2^-53. -/
theorem settles_partial (s : St ℚ) (c p : ℚ) (hf : s.first = false) (he : s.enabled = true) (hp : s.prev = some p) (h0 : 0 ≤ s.alpha) (h1 : s.alpha ≤ 1) (q : ℚ)
    (hq : q = (1 - s.alpha) * (1 + gam 3)) (hq1 : q < 1) (n : Nat) :
    ∃ v, (constant s c n).prev = some v ∧ |v - c| ≤ q ^ n * |p - c| + gam 3 * |c| / (1 - q) := by
  have hg := gam_nonneg 3
  have hq0 : 0 ≤ q := by rw [hq]; exact mul_nonneg (by linarith) (by linarith)
  have H : (constant s c n).first = false ∧ (constant s c n).enabled = true ∧ (constant s c n).alpha = s.alpha ∧
      ∃ v, (constant s c n).prev = some v ∧ |v - c| ≤ q ^ n * |p - c| + gam 3 * |c| / (1 - q) := by
    induction n with
    | zero =>
      refine ⟨hf, he, rfl, p, hp, ?_⟩
      have : 0 ≤ gam 3 * |c| / (1 - q) := div_nonneg (mul_nonneg hg (abs_nonneg c)) (by linarith)
      simp only [pow_zero, one_mul]
      linarith
    | succ n ih =>
      obtain ⟨i1, i2, i3, v, i4, i5⟩ := ih
      refine ⟨rfl, i2, i3, rnd (rnd (c * s.alpha) + rnd (v * rnd (1 - s.alpha))), ?_, ?_⟩
      · simp [constant, run, i1, i2, i3, i4]
      · have ha := (out_approx s.alpha c v h0 h1).err
        generalize rnd (rnd (c * s.alpha) + rnd (v * rnd (1 - s.alpha))) = w at ha ⊢
        have t1 : |w - c| ≤ |w - (c * s.alpha + v * (1 - s.alpha))| + |c * s.alpha + v * (1 - s.alpha) - c| := abs_sub_le _ _ _
        have t2 : |c * s.alpha + v * (1 - s.alpha) - c| = (1 - s.alpha) * |v - c| := by
          rw [show c * s.alpha + v * (1 - s.alpha) - c = (1 - s.alpha) * (v - c) by ring, abs_mul, abs_of_nonneg (by linarith)]
        have t3 : |v| ≤ |c| + |v - c| := by
          have := abs_add_le c (v - c)
          simpa using this
        have t4 : gam 3 * (|c| * s.alpha + |v| * (1 - s.alpha)) ≤ gam 3 * (|c| + (1 - s.alpha) * |v - c|) := by
          apply mul_le_mul_of_nonneg_left _ hg
          have := mul_le_mul_of_nonneg_right t3 (by linarith : 0 ≤ 1 - s.alpha)
          linarith
        have t5 : |w - c| ≤ q * |v - c| + gam 3 * |c| := by
          rw [hq]
          linarith
        have t6 : q * |v - c| ≤ q * (q ^ n * |p - c| + gam 3 * |c| / (1 - q)) := mul_le_mul_of_nonneg_left i5 hq0
        have t7 : q * (q ^ n * |p - c| + gam 3 * |c| / (1 - q)) + gam 3 * |c| = q ^ (n + 1) * |p - c| + gam 3 * |c| / (1 - q) := by
          have : (1 - q) ≠ 0 := by linarith
          field_simp
          ring
        linarith
  exact H.2.2.2

/-- The weight 0.001. -/
def alpha0 : ℚ := rnd (1 / 1000)

/-- A double a little below 1. -/
def stuck : ℚ := 9007199254740493 / 2 ^ 53

/-- C147 violated: with the weight 0.001 the output stops 499 doubles below the constant input 1 and never reaches it. -/
theorem never_reached_violated (n : Nat) :
    (constant { alpha := alpha0, first := false, enabled := true, prev := some stuck } 1 n).prev = some stuck ∧ stuck < 1 ∧ IsDouble stuck ∧ IsDouble alpha0 := by
  refine ⟨?_, by decide +kernel, by unfold IsDouble; decide +kernel, rnd_idem _⟩
  have h : rnd (rnd alpha0 + rnd (stuck * rnd (1 - alpha0))) = stuck := by decide +kernel
  have H : constant { alpha := alpha0, first := false, enabled := true, prev := some stuck } 1 n = { alpha := alpha0, first := false, enabled := true, prev := some stuck } := by
    induction n with
    | zero => rfl
    | succ n ih => simp [constant, ih, run, h]
  rw [H]

/-- C147 violated: the output leaves the range of the inputs: with the weight 0.3 and the constant input 0.1 from the first run the output is smaller than 0.1. -/
theorem below_inputs_violated :
    ∃ v, (constant { alpha := rnd (3 / 10), first := true, enabled := true, prev := none } (rnd (1 / 10)) 1).prev = some v ∧ v < rnd (1 / 10) := by
  refine ⟨rnd (rnd (rnd (1 / 10) * rnd (3 / 10)) + rnd (rnd (1 / 10) * rnd (1 - rnd (3 / 10)))), rfl, by decide +kernel⟩

/-- Case of `settles_partial`: weight 1/2, input 5, from 1. -/
example : (1 - (1 / 2 : ℚ)) * (1 + gam 3) < 1 := by decide +kernel

end LowPass

/-- Case of `MovingAverage.average_error`: three coefficients, five samples. -/
example : (MovingAverage.exec (Filters.MovingAverage.new 3 (fun _ => 1 / 4)) [.run 1, .run 2, .disable, .run 3, .enable, .run 4]).enabled = true := rfl

end Verif.Control.FiltersFl
