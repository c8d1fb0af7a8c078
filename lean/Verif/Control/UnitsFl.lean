import Verif.Control.FiltersFl
import Verif.Control.RateLimiterFl
import Verif.Control.IntegratorFl
import Verif.Control.GainFl
import Verif.Control.WrapAroundErr
import Verif.Common.Scale
/-!
C319: moving average filter, low pass filter, rate limiter, integrator, gain and wrap around in double arithmetic do not depend on the unit of the signals, if the units differ by a power of two:
in the other unit the results are the same down to the last digit (models: `Control/FiltersFl.lean`, `RateLimiterFl.lean`, `IntegratorFl.lean`, `GainFl.lean`, `WrapAroundFl.lean`).
With it the single violations of C147, C149 and C219 hold in all these units.
-/
namespace Verif.Control.UnitsFl
open Verif.Common.Round

/-- Two scaled summands which are rounded. -/
theorem add_scale (a b : ℚ) (k : ℤ) : rnd (a * 2 ^ k + b * 2 ^ k) = rnd (a + b) * 2 ^ k := by rw [← add_mul, rnd_scale]
theorem sub_scale (a b : ℚ) (k : ℤ) : rnd (a * 2 ^ k - b * 2 ^ k) = rnd (a - b) * 2 ^ k := by rw [← sub_mul, rnd_scale]
theorem mul_scale (a b : ℚ) (k : ℤ) : rnd (a * (b * 2 ^ k)) = rnd (a * b) * 2 ^ k := by rw [← mul_assoc, rnd_scale]
theorem mul_scale' (a b : ℚ) (k : ℤ) : rnd (a * 2 ^ k * b) = rnd (a * b) * 2 ^ k := by rw [mul_right_comm, rnd_scale]
theorem lt_scale (a b : ℚ) (k : ℤ) : a * 2 ^ k < b * 2 ^ k ↔ a < b := mul_lt_mul_iff_left₀ (by positivity)

/-! ### The moving average filter -/
namespace MovingAverage
open Verif.Control.Filters.MovingAverage (St new Op)
open Verif.Control.FiltersFl.MovingAverage

/-- The inputs in another unit. -/
def opScale (k : ℤ) : Op ℚ → Op ℚ
  | .run x => .run (x * 2 ^ k)
  | .enable => .enable
  | .disable => .disable

def scaled (k : ℤ) (s : St ℚ) : St ℚ := { s with prev := fun i => s.prev i * 2 ^ k }

theorem upd_scale (k : ℤ) (a : Nat → ℚ) (n : Nat) (v : ℚ) : Filters.upd (fun i => a i * 2 ^ k) n (v * 2 ^ k) = fun i => Filters.upd a n v i * 2 ^ k := by
  funext i
  unfold Filters.upd
  split <;> rfl

theorem loop_scale (k : ℤ) (c prev : Nat → ℚ) (r : ℚ) (n : Nat) :
    loop c (fun i => prev i * 2 ^ k) (r * 2 ^ k) n = ((fun i => (loop c prev r n).1 i * 2 ^ k), (loop c prev r n).2 * 2 ^ k) := by
  induction n with
  | zero => rfl
  | succ n ih =>
    simp only [loop, ih, upd_scale]
    rw [mul_scale, add_scale]

theorem run_scale (k : ℤ) (s : St ℚ) (x : ℚ) : run (scaled k s) (x * 2 ^ k) = (scaled k (run s x).1, (run s x).2 * 2 ^ k) := by
  unfold run scaled
  simp only [mul_scale, loop_scale, upd_scale]
  congr 1
  split <;> rfl

theorem step_scale (k : ℤ) (s : St ℚ) (o : Op ℚ) : (step (scaled k s) (opScale k o)).1 = scaled k (step s o).1 := by
  cases o with
  | run x => simp only [step, opScale, run_scale]
  | enable => rfl
  | disable => rfl

/-- **C319** (moving average) After every history, for every number of coefficients. -/
theorem exec_scale (k : ℤ) (N : Nat) (c : Nat → ℚ) (ops : List (Op ℚ)) (x : ℚ) :
    (run (exec (new N c) (ops.map (opScale k))) (x * 2 ^ k)).2 = (run (exec (new N c) ops) x).2 * 2 ^ k := by
  have hs : new N c = scaled k (new N c) := by simp [scaled, new]
  have H : ∀ (ops : List (Op ℚ)) (s : St ℚ), exec (scaled k s) (ops.map (opScale k)) = scaled k (exec s ops) := by
    intro ops
    induction ops with
    | nil => intro s; rfl
    | cons o ops ih =>
      intro s
      show exec (step (scaled k s) (opScale k o)).1 (ops.map (opScale k)) = _
      rw [step_scale, ih]
      rfl
  conv_lhs => rw [hs]
  rw [H, run_scale]

example : (run (exec (new 2 fun _ => rnd (1 / 3)) ([.run (rnd (1 / 10)), .disable, .run 5, .enable].map (opScale 4))) (7 * 2 ^ (4 : ℤ))).2 =
    (run (exec (new 2 fun _ => rnd (1 / 3)) [.run (rnd (1 / 10)), .disable, .run 5, .enable]) 7).2 * 2 ^ (4 : ℤ) := exec_scale 4 2 _ _ 7

end MovingAverage

/-! ### The low pass filter -/
namespace LowPass
open Verif.Control.Filters.LowPass (St)
open Verif.Control.FiltersFl.LowPass

def scaled (k : ℤ) (s : St ℚ) : St ℚ := { s with prev := s.prev.map (· * 2 ^ k) }

/-- **C319** (low pass) One run, from every state; hence any number of runs. -/
theorem run_scale (k : ℤ) (s : St ℚ) (x : ℚ) : run (scaled k s) (x * 2 ^ k) = (scaled k (run s x).1, (run s x).2.map (· * 2 ^ k)) := by
  obtain ⟨a, f, e, p⟩ := s
  cases f <;> cases e <;> cases p <;> simp [run, scaled, mul_scale', add_scale]

/-- **C319** (low pass) Any number of runs, with any inputs. -/
theorem runs_scale (k : ℤ) (s : St ℚ) (xs : List ℚ) :
    (xs.map (· * 2 ^ k)).foldl (fun s x => (run s x).1) (scaled k s) = scaled k (xs.foldl (fun s x => (run s x).1) s) := by
  induction xs generalizing s with
  | nil => rfl
  | cons x xs ih => simp only [List.map_cons, List.foldl_cons, run_scale, ih]

example : ([rnd (1 / 10), 3].map (· * 2 ^ (5 : ℤ))).foldl (fun s x => (run s x).1) (scaled 5 (Filters.LowPass.new (rnd (3 / 10)))) =
    scaled 5 ([rnd (1 / 10), 3].foldl (fun s x => (run s x).1) (Filters.LowPass.new (rnd (3 / 10)))) := runs_scale 5 _ _

theorem constant_scale (k : ℤ) (s : St ℚ) (c : ℚ) (n : Nat) : constant (scaled k s) (c * 2 ^ k) n = scaled k (constant s c n) := by
  induction n with
  | zero => rfl
  | succ n ih => rw [constant, ih, run_scale]; rfl

/-- **C147 violated** in all units: with the weight 0.001 the output stops 499 doubles below every power of two, and never reaches it. -/
theorem never_reached_all_violated (k : ℤ) (n : Nat) :
    (constant { alpha := alpha0, first := false, enabled := true, prev := some (stuck * 2 ^ k) } (2 ^ k) n).prev = some (stuck * 2 ^ k) ∧ stuck * 2 ^ k < 2 ^ k := by
  obtain ⟨h1, h2, -, -⟩ := never_reached_violated n
  have h := constant_scale k { alpha := alpha0, first := false, enabled := true, prev := some stuck } 1 n
  rw [one_mul] at h
  refine ⟨?_, ?_⟩
  · show (constant (scaled k { alpha := alpha0, first := false, enabled := true, prev := some stuck }) (2 ^ k) n).prev = _
    rw [h, scaled]
    simp [h1]
  · exact mul_lt_of_lt_one_left (by positivity) h2

example : stuck * 2 ^ (10 : ℤ) < 2 ^ (10 : ℤ) := (never_reached_all_violated 10 0).2

/-- **C147 violated** in all units: with the weight 0.3 and a constant input of one tenth of a power of two the output is smaller than the input. -/
theorem below_inputs_all_violated (k : ℤ) :
    ∃ v, (constant { alpha := rnd (3 / 10), first := true, enabled := true, prev := none } (rnd (1 / 10) * 2 ^ k) 1).prev = some v ∧ v < rnd (1 / 10) * 2 ^ k := by
  obtain ⟨v, h1, h2⟩ := below_inputs_violated
  refine ⟨v * 2 ^ k, ?_, (lt_scale _ _ _).2 h2⟩
  show (constant (scaled k { alpha := rnd (3 / 10), first := true, enabled := true, prev := none }) (rnd (1 / 10) * 2 ^ k) 1).prev = _
  rw [constant_scale, scaled, h1]
  rfl

example : ∃ v, (constant { alpha := rnd (3 / 10), first := true, enabled := true, prev := none } (rnd (1 / 10) * 2 ^ (-3 : ℤ)) 1).prev = some v ∧ v < rnd (1 / 10) * 2 ^ (-3 : ℤ) :=
  below_inputs_all_violated (-3)

end LowPass

/-! ### The rate limiter -/
namespace RateLimiter
open Verif.Control.RateLimiter (St)
open Verif.Control.RateLimiterFl
open Verif.Control.TimeDiff (dt)

/-- The rates are in the unit per second. -/
def scaled (k : ℤ) (s : St ℚ) : St ℚ := { s with prev := s.prev.map (· * 2 ^ k), falling := s.falling * 2 ^ k, rising := s.rising * 2 ^ k }

theorem gt_scale (k : ℤ) (n d r : ℚ) : rateGt (n * 2 ^ k) d (r * 2 ^ k) = rateGt n d r := by
  have h0 : (0 : ℚ) < n * 2 ^ k ↔ 0 < n := by have := lt_scale 0 n k; rwa [zero_mul] at this
  have h1 : r * 2 ^ k < rnd (n * 2 ^ k / d) ↔ r < rnd (n / d) := by rw [mul_div_right_comm, rnd_scale, lt_scale]
  unfold rateGt
  split
  · rw [Bool.eq_iff_iff]; simpa using h0
  · rw [Bool.eq_iff_iff]; simpa using h1

theorem lt_scale' (k : ℤ) (n d r : ℚ) : rateLt (n * 2 ^ k) d (r * 2 ^ k) = rateLt n d r := by
  have h0 : n * 2 ^ k < (0 : ℚ) ↔ n < 0 := by have := lt_scale n 0 k; rwa [zero_mul] at this
  have h1 : rnd (n * 2 ^ k / d) < r * 2 ^ k ↔ rnd (n / d) < r := by rw [mul_div_right_comm, rnd_scale, lt_scale]
  unfold rateLt
  split
  · rw [Bool.eq_iff_iff]; simpa using h0
  · rw [Bool.eq_iff_iff]; simpa using h1

/-- **C319** (rate limiter) One run, from every state. -/
theorem run_scale (k : ℤ) (s : St ℚ) (x : ℚ) (t : Nat) : run (scaled k s) (x * 2 ^ k) t = scaled k (run s x t) := by
  obtain ⟨p, ts, f, r, e⟩ := s
  cases e
  · rfl
  · cases p with
    | none => rfl
    | some p =>
      simp only [run, scaled, limit, Option.map_some, sub_scale, gt_scale, lt_scale', mul_scale, add_scale, if_true]
      congr 2
      split
      · rfl
      · split <;> rfl

/-- **C319** (rate limiter) Any number of runs, with any inputs and times. -/
theorem runs_scale (k : ℤ) (s : St ℚ) (xs : List (ℚ × Nat)) :
    (xs.map fun x => (x.1 * 2 ^ k, x.2)).foldl (fun s x => run s x.1 x.2) (scaled k s) = scaled k (xs.foldl (fun s x => run s x.1 x.2) s) := by
  induction xs generalizing s with
  | nil => rfl
  | cons x xs ih => simp only [List.map_cons, List.foldl_cons, run_scale, ih]

example : ([(5, 1000000), (rnd (1 / 10), 2000000)].map fun x : ℚ × Nat => (x.1 * 2 ^ (3 : ℤ), x.2)).foldl (fun s x => run s x.1 x.2)
      (scaled 3 { prev := some 1, prevTs := 0, falling := -3, rising := 3, enabled := true }) =
    scaled 3 ([(5, 1000000), (rnd (1 / 10), 2000000)].foldl (fun s (x : ℚ × Nat) => run s x.1 x.2) { prev := some 1, prevTs := 0, falling := -3, rising := 3, enabled := true }) :=
  runs_scale 3 _ _

theorem double_scale {x : ℚ} (h : IsDouble x) (k : ℤ) : IsDouble (x * 2 ^ k) := by
  unfold IsDouble at *
  rw [rnd_scale, h]

/-- **C149 violated** in all units: for the rate `3 * 2^k` the output can pass the input. -/
theorem passes_input_all_violated (k : ℤ) :
    ∃ (s : St ℚ) (p x : ℚ) (t : Nat), s.enabled = true ∧ s.prev = some p ∧ IsDouble p ∧ IsDouble x ∧ s.rising = 3 * 2 ^ k ∧ s.falling = -3 * 2 ^ k ∧ p < x ∧
      ∃ y, (run s x t).prev = some y ∧ x < y := by
  obtain ⟨s, p, x, t, h1, h2, h3, h4, h5, h6, h7, y, h8, h9⟩ := passes_input_violated
  refine ⟨scaled k s, p * 2 ^ k, x * 2 ^ k, t, h1, by simp [scaled, h2], double_scale h3 k, double_scale h4 k, by simp [scaled, h5], by simp [scaled, h6],
    (lt_scale _ _ _).2 h7, y * 2 ^ k, ?_, (lt_scale _ _ _).2 h9⟩
  rw [run_scale]
  simp [scaled, h8]

example : ∃ (s : St ℚ) (p x : ℚ) (t : Nat), s.enabled = true ∧ s.prev = some p ∧ IsDouble p ∧ IsDouble x ∧ s.rising = 3 * 2 ^ (-7 : ℤ) ∧ s.falling = -3 * 2 ^ (-7 : ℤ) ∧ p < x ∧
    ∃ y, (run s x t).prev = some y ∧ x < y := passes_input_all_violated (-7)

end RateLimiter

/-! ### The integrator -/
namespace Integrator
open Verif.Control.Integrator (St)
open Verif.Control.IntegratorFl

/-- Limits, state and output in another unit. -/
def scaled (k : ℤ) (s : St ℚ) : St ℚ :=
  { s with prev := s.prev.map (· * 2 ^ k), out := s.out.map (· * 2 ^ k), upper := s.upper * 2 ^ k, lower := s.lower * 2 ^ k }

/-- **C319** (integrator) One run, from every state, at every time, with or without a safety level. -/
theorem run_scale (k : ℤ) (s : St ℚ) (x : Option ℚ) (t : ℕ) (l : Bool) : run (scaled k s) (x.map (· * 2 ^ k)) t l = scaled k (run s x t l) := by
  have hn : ∀ d, next (scaled k s) (s.prev.map (· * 2 ^ k)) (x.map (· * 2 ^ k)) d = (next s s.prev x d).map (· * 2 ^ k) := by
    intro d
    cases hp : s.prev with
    | none => cases x <;> rfl
    | some p =>
      cases x with
      | none => rfl
      | some x =>
        simp only [next, Option.map_some, scaled, mul_scale', add_scale, lt_scale]
        split <;> rfl
  have h2 : (scaled k s).prev = s.prev.map (· * 2 ^ k) := rfl
  have h3 : (scaled k s).hasLevel = s.hasLevel := rfl
  have h4 : (scaled k s).enabled = s.enabled := rfl
  have h5 : (scaled k s).first = s.first := rfl
  have h6 : (scaled k s).prevTs = s.prevTs := rfl
  have ho : ∀ (b : Bool) (d : ℚ), (if b then next (scaled k s) (s.prev.map (· * 2 ^ k)) (x.map (· * 2 ^ k)) d else s.prev.map (· * 2 ^ k)) =
      (if b then next s s.prev x d else s.prev).map (· * 2 ^ k) := by
    intro b d
    cases b
    · rfl
    · simpa using hn d
  unfold run
  simp only [h2, h3, h4, h5, h6, ho]
  rfl

/-- **C319** (integrator) Any number of runs. -/
theorem runs_scale (k : ℤ) (s : St ℚ) (xs : List (ℚ × ℕ)) : runs (scaled k s) (xs.map fun x => (x.1 * 2 ^ k, x.2)) = scaled k (runs s xs) := by
  induction xs generalizing s with
  | nil => rfl
  | cons x xs ih =>
    show runs (run (scaled k s) ((some x.1).map (· * 2 ^ k)) x.2 true) _ = _
    rw [run_scale, ih]
    rfl

example (s : St ℚ) : runs (scaled 3 s) [(rnd (1 / 10) * 2 ^ (3 : ℤ), 1000000), (7 * 2 ^ (3 : ℤ), 3000000)] = scaled 3 (runs s [(rnd (1 / 10), 1000000), (7, 3000000)]) :=
  runs_scale 3 s [(rnd (1 / 10), 1000000), (7, 3000000)]

end Integrator

/-! ### The wrap around -/

/-- **C319** (wrap around) For all limits and inputs. -/
theorem wrap_scale (k : ℤ) (min max x : ℚ) : WrapAroundFl.wrap (min * 2 ^ k) (max * 2 ^ k) (x * 2 ^ k) = WrapAroundFl.wrap min max x * 2 ^ k := by
  have hp : (0:ℚ) < 2 ^ k := by positivity
  have h1 : ∀ a : ℚ, |a * 2 ^ k| = |a| * 2 ^ k := by intro a; rw [abs_mul, abs_of_pos hp]
  have h2 : ∀ a b : ℚ, rnd (a * 2 ^ k / (b * 2 ^ k)) = rnd (a / b) := by intro a b; rw [mul_div_mul_right _ _ hp.ne']
  have h3 : ∀ a : ℚ, a * 2 ^ k < 0 ↔ a < 0 := by intro a; have := lt_scale a 0 k; rwa [zero_mul] at this
  have h4 : ∀ a : ℚ, 0 < a * 2 ^ k ↔ 0 < a := by intro a; have := lt_scale 0 a k; rwa [zero_mul] at this
  unfold WrapAroundFl.wrap
  simp only [h1, sub_scale, h2, mul_scale, h3, h4, add_scale]
  split
  · rfl
  · split <;> rfl

example : WrapAroundFl.wrap (-(WrapAroundFl.pi) * 2 ^ (2 : ℤ)) (WrapAroundFl.pi * 2 ^ (2 : ℤ)) (7 * 2 ^ (2 : ℤ)) =
    WrapAroundFl.wrap (-(WrapAroundFl.pi)) WrapAroundFl.pi 7 * 2 ^ (2 : ℤ) := wrap_scale 2 _ _ _

/-- **C219 violated** in all units: with the limits `∓π * 2^k` there are inputs for which the result is above the upper limit; one misses the range by a factor of 39. -/
theorem wrap_all_violated (k : ℤ) :
    WrapAroundFl.pi * 2 ^ k < WrapAroundFl.wrap (-(WrapAroundFl.pi) * 2 ^ k) (WrapAroundFl.pi * 2 ^ k) (WrapAroundFl.x0 * 2 ^ k) ∧
    39 * (WrapAroundFl.pi * 2 ^ k) < WrapAroundFl.wrap (-(WrapAroundFl.pi) * 2 ^ k) (WrapAroundFl.pi * 2 ^ k) (10 ^ 18 * 2 ^ k) := by
  rw [wrap_scale, wrap_scale, ← mul_assoc, lt_scale, lt_scale]
  exact ⟨WrapAroundFl.negative_remainder_violated.2.1, WrapAroundErr.large_input_violated.2⟩

example : WrapAroundFl.pi * 2 ^ (6 : ℤ) < WrapAroundFl.wrap (-(WrapAroundFl.pi) * 2 ^ (6 : ℤ)) (WrapAroundFl.pi * 2 ^ (6 : ℤ)) (WrapAroundFl.x0 * 2 ^ (6 : ℤ)) :=
  (wrap_all_violated 6).1

/-! ### The gain -/
namespace Gain
open Verif.Control.Gain (St)
open Verif.Control.GainFl

/-- **C319** (gain) The gain has no unit of the signal: the same gains, and the output in the unit of the input. -/
theorem run_scale (k : ℤ) (s : St ℚ) (x : ℚ) : run s (x * 2 ^ k) = ((run s x).1, (run s x).2 * 2 ^ k) := by
  unfold run
  simp only [mul_scale]
  congr 1
  split <;> rfl

example (s : St ℚ) : (run s (3 * 2 ^ (4 : ℤ))).2 = (run s 3).2 * 2 ^ (4 : ℤ) := by rw [run_scale]

end Gain

end Verif.Control.UnitsFl
