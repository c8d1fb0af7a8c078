import Mathlib.Algebra.BigOperators.Fin
import Verif.Planner.ConstAccProps
import Verif.Control.DifferentiatorProps
import Verif.Control.IntegratorProps

/-!
The outputs of the path planner `PathPlannerConstAcc` taken further by other blocks of the same time domain: the derivative of its position output by a differentiator
`D` (includes/eeros/control/D.hpp:37-59), and the integral of its velocity output by an integrator `I` (includes/eeros/control/I.hpp:53-75).

The planner advances by its sampling time `dt` in each run and stamps its outputs with the time of the system clock (PathPlannerConstAcc.hpp:128-135); `D` and `I` use
these time stamps.  One element of the outputs is considered (`D` and `I` of scalars behind a `DeMux`).  Exact arithmetic.
-/
namespace Verif.Planner.Derived

open Verif.Planner.ConstAcc Verif.Control

variable {n : Nat}

/-! ### Model -/

/-- The derivative of the position output, after the planner has been run `k` times since `move`; `ts j` is the system time of its run `j`, run 0 is that before `move`. -/
noncomputable def derivative (dt : ℝ) (s : St n) (start : Vec n) (i : Fin (n + 1)) (ts : Nat → Nat) (k : Nat) : ℝ :=
  (Differentiator.runs Differentiator.new ((List.range (k + 1)).map fun j => ⟨(outs dt s start j i).pos, ts j⟩)).valOut

/-- The integrator on the velocity output, in the same runs. -/
noncomputable def integral (I : Integrator.St ℝ) (dt : ℝ) (s : St n) (start : Vec n) (i : Fin (n + 1)) (ts : Nat → Nat) (k : Nat) : Option ℝ :=
  (Integrator.exec I ((List.range (k + 1)).map fun j => .run (some (outs dt s start j i).vel) (ts j) false)).out

/-! ### Specification -/

/-- Seconds from run `k` to the next. -/
noncomputable def period (ts : Nat → Nat) (k : Nat) : ℝ := ((ts (k + 1) : ℝ) - ts k) / 1000000000

/-- An integrator which has an initial value, is enabled and has not been run. -/
structure Ready (I : Integrator.St ℝ) (c : ℝ) : Prop where
  level : I.hasLevel = false
  enabled : I.enabled = true
  first : I.first = true
  prev : I.prev = some c

/-! ### The derivative of the position -/

theorem derivative_eq (dt : ℝ) (s : St n) (start : Vec n) (i : Fin (n + 1)) (ts : Nat → Nat) (k : Nat) (h : ts k ≠ ts (k + 1)) :
    derivative dt s start i ts (k + 1) = ((outs dt s start (k + 1) i).pos - (outs dt s start k i).pos) / period ts k := by
  unfold derivative period
  rw [List.range_succ, List.range_succ, List.map_append, List.map_append]
  exact (Differentiator.difference_quotient _ _ _ h).1

section
variable (g : Cfg n) (s : St n) (start end_ : Vec n) (hdt : eps ≤ g.dt) (hv : ∀ i, 0 < g.velMax i) (ha : ∀ i, 0 < g.acc i) (hd : ∀ i, 0 < g.dec i)
  (hf : s.finished = true) (hne : ∃ i, end_ i ≠ start i)

include hdt hv ha hd hf hne

/-- Except in the run which the planner spends in an empty constant phase, the derivative is the mean of the planned velocities before and after the run, scaled by the
ratio of the sampling time and the time which has passed.  In that run it is zero, while the planned velocity is that of the constant phase. -/
theorem derivative_mean : ∃ m : Nat, ∀ (i : Fin (n + 1)) (ts : Nat → Nat) (k : Nat), ts k < ts (k + 1) →
    (¬ (k = m ∧ (move g s start end_).1.c.dT2 = 0) →
      derivative g.dt (move g s start end_).1 start i ts (k + 1) =
        ((outs g.dt (move g s start end_).1 start k i).vel + (outs g.dt (move g s start end_).1 start (k + 1) i).vel) / 2 * (g.dt / period ts k)) ∧
    (k = m ∧ (move g s start end_).1.c.dT2 = 0 →
      derivative g.dt (move g s start end_).1 start i ts (k + 1) = 0 ∧
      (outs g.dt (move g s start end_).1 start k i).vel = (move g s start end_).1.c.c2v i ∧
      (outs g.dt (move g s start end_).1 start (k + 1) i).vel = (move g s start end_).1.c.c2v i) := by
  obtain ⟨_, _, m1, m2, m3, h, _⟩ := move_started g s start end_ hdt hv ha hd hf hne
  generalize (move g s start end_).1 = s0 at *
  have hp : 0 < g.dt := lt_of_lt_of_le eps_pos hdt
  have hm2 : s0.c.dT2 = 0 ↔ m2 = 0 := by rw [h.c]; simp [coef, hp.ne']
  refine ⟨m1, fun i ts k hts => ?_⟩
  rw [derivative_eq _ _ _ _ _ _ hts.ne, hm2]
  refine ⟨fun hk => ?_, fun ⟨hk, h0⟩ => ?_⟩
  · obtain ⟨e1, e2⟩ := h.integrates k hk i
    rw [e2, e1]
    ring
  · subst h0 hk
    obtain ⟨e1, e2⟩ := h.stands i
    have e3 := (h.pv1 k (le_refl _) i).2
    rw [h.val1] at e3
    have hv2 : (outs g.dt s0 start k i).vel = s0.c.c2v i := by
      rw [e3]
      obtain ⟨_, _, p1, _, _⟩ := h.W_pos
      simp only
      rw [h.c]
      rw [div_mul_cancel₀ _ p1.ne', mul_comm]
      rfl
    exact ⟨by rw [e1]; simp, hv2, e2.trans hv2⟩

/-- If every run takes place one sampling time after the one before, the derivative never exceeds the maximum velocity. -/
theorem derivative_within (i : Fin (n + 1)) (ts : Nat → Nat) (k : Nat) (ht : period ts k = g.dt) :
    |derivative g.dt (move g s start end_).1 start i ts (k + 1)| ≤ g.velMax i := by
  have hp : 0 < g.dt := lt_of_lt_of_le eps_pos hdt
  have hts : ts k < ts (k + 1) := by
    have h0 : 0 < period ts k := ht ▸ hp
    unfold period at h0
    have : (ts k : ℝ) < ts (k + 1) := by linarith
    exact_mod_cast this
  obtain ⟨m, hm⟩ := derivative_mean g s start end_ hdt hv ha hd hf hne
  obtain ⟨h1, h2⟩ := hm i ts k hts
  have hvel : ∀ k, |(outs g.dt (move g s start end_).1 start k i).vel| ≤ g.velMax i := by
    intro k
    by_cases h0 : k = 0
    · simp [outs, h0, (hv i).le]
    · rw [outs, if_neg h0]
      exact ((within_limits g s start end_ hdt hv ha hd hf hne k (by omega)).2 i).1
  by_cases hk : k = m ∧ (move g s start end_).1.c.dT2 = 0
  · rw [(h2 hk).1, abs_zero]; exact (hv i).le
  · rw [h1 hk, ht, div_self hp.ne', mul_one, abs_le]
    have a := abs_le.1 (hvel k)
    have b := abs_le.1 (hvel (k + 1))
    constructor <;> linarith [a.1, a.2, b.1, b.2]

/-- In the constant phase the derivative depends on when the planner is run: it exceeds the maximum velocity as soon as a run is early by more than the reserve which
the rounding of the phases to sampling times has left. -/
theorem early_violated (h2 : (move g s start end_).1.c.dT2 ≠ 0) : ∃ k : Nat, ∀ (i : Fin (n + 1)) (ts : Nat → Nat), ts k < ts (k + 1) →
    derivative g.dt (move g s start end_).1 start i ts (k + 1) = (move g s start end_).1.c.c2v i * (g.dt / period ts k) ∧
    (g.velMax i < |derivative g.dt (move g s start end_).1 start i ts (k + 1)| ↔ g.velMax i * period ts k < |(move g s start end_).1.c.c2v i| * g.dt) := by
  obtain ⟨_, _, m1, m2, m3, h, _⟩ := move_started g s start end_ hdt hv ha hd hf hne
  generalize (move g s start end_).1 = s0 at *
  have hp : 0 < g.dt := lt_of_lt_of_le eps_pos hdt
  have hm2 : m2 ≠ 0 := by
    rintro rfl
    exact h2 (by rw [h.c]; simp [coef])
  refine ⟨m1, fun i ts hts => ?_⟩
  have hpos : 0 < period ts m1 := by
    unfold period
    have : (ts m1 : ℝ) < ts (m1 + 1) := by exact_mod_cast hts
    exact div_pos (by linarith) (by norm_num)
  obtain ⟨e1, e2⟩ := h.integrates m1 (fun hc => hm2 hc.2) i
  have a := (h.pv2 (by omega) 0 (Nat.zero_le _) i).2
  have b := (h.pv2 (by omega) 1 (by omega) i).2
  rw [h.val2, Nat.zero_add] at a
  rw [h.val2, Nat.add_comm 1 m1] at b
  have hc : s0.c.c2v i = (end_ i - start i) * W g.dt m1 m2 m3 := by rw [h.c]; exact mul_comm _ _
  have hacc : (outs g.dt s0 start (m1 + 1) i).acc = 0 := by
    rw [a, b] at e1
    have h0 : (outs g.dt s0 start (m1 + 1) i).acc * g.dt = 0 := by linarith
    rcases mul_eq_zero.1 h0 with h0 | h0
    · exact h0
    · exact absurd h0 hp.ne'
  have hd : derivative g.dt s0 start i ts (m1 + 1) = s0.c.c2v i * (g.dt / period ts m1) := by
    rw [derivative_eq _ _ _ _ _ _ hts.ne, e2, a, hc, hacc]
    ring
  refine ⟨hd, ?_⟩
  rw [hd, abs_mul, abs_of_pos (div_pos hp hpos), mul_div_assoc', lt_div_iff₀ hpos]

end

/-! ### The integral of the velocity -/

/-- The sum an integrator forms of the velocities, one sampling time apart. -/
noncomputable def way (dt : ℝ) (s : St n) (start : Vec n) (i : Fin (n + 1)) : Nat → ℝ
  | 0 => 0
  | k + 1 => way dt s start i k + (outs dt s start (k + 1) i).vel * dt

theorem way_eq {g : Cfg n} {s : St n} {start end_ : Vec n} {m1 m2 m3 : Nat} (h : Started g s start end_ m1 m2 m3) (i : Fin (n + 1)) (k : Nat) :
    way g.dt s start i k = (outs g.dt s start k i).pos - start i + (outs g.dt s start k i).vel * g.dt / 2 +
      if m2 = 0 ∧ m1 < k then (outs g.dt s start m1 i).vel * g.dt else 0 := by
  induction k with
  | zero => simp [way, outs]
  | succ k ih =>
    rw [way, ih]
    by_cases hk : k = m1 ∧ m2 = 0
    · obtain ⟨rfl, rfl⟩ := hk
      obtain ⟨e1, e2⟩ := h.stands i
      rw [e1, e2, if_neg (by omega), if_pos (by omega)]
      ring
    · obtain ⟨e1, e2⟩ := h.integrates k hk i
      have : (m2 = 0 ∧ m1 < k + 1) ↔ (m2 = 0 ∧ m1 < k) := by omega
      simp only [this]
      rw [e2, e1]
      ring

/-- What the integrator outputs when the runs are one sampling time apart and its limits are not met. -/
theorem integral_way (I : Integrator.St ℝ) (c : ℝ) (hI : Ready I c) (dt : ℝ) (s : St n) (start : Vec n) (i : Fin (n + 1)) (ts : Nat → Nat)
    (ht : ∀ k, period ts k = dt) (hl : ∀ k, I.lower < c + way dt s start i k ∧ c + way dt s start i k < I.upper) (k : Nat) :
    integral I dt s start i ts k = some (c + way dt s start i k) := by
  have key : ∀ k, Integrator.exec I ((List.range (k + 1)).map fun j => .run (some (outs dt s start j i).vel) (ts j) false) =
      { I with first := false, prev := some (c + way dt s start i k), out := some (c + way dt s start i k), prevTs := ts k } := by
    intro k
    induction k with
    | zero =>
      have h0 := hl 0
      simp only [way, add_zero] at h0
      simp [Integrator.exec, Integrator.step, Integrator.run, Integrator.next, hI.level, hI.enabled, hI.first, hI.prev, h0.1, h0.2, way]
    | succ k ih =>
      rw [List.range_succ, List.map_append, Integrator.exec, List.foldl_append]
      rw [Integrator.exec] at ih
      rw [ih]
      have hs : (Integrator.seconds (ts k) (ts (k + 1)) : ℝ) = dt := by
        rw [← ht k, Integrator.seconds, period]; ring
      have h1 := hl (k + 1)
      simp only [way, ← add_assoc] at h1
      simp [Integrator.step, Integrator.run, Integrator.next, hI.level, hI.enabled, hs, h1.1, h1.2, way, ← add_assoc]
  unfold integral
  rw [key]

/-- At the end of a motion with a constant phase the integral of the velocity output has grown by exactly the distance.  If the constant phase is empty, it has grown by more:
the velocity of one further run. -/
theorem integral_end (g : Cfg n) (s : St n) (start end_ : Vec n) (hdt : eps ≤ g.dt) (hv : ∀ i, 0 < g.velMax i) (ha : ∀ i, 0 < g.acc i) (hd : ∀ i, 0 < g.dec i)
    (hf : s.finished = true) (hne : ∃ i, end_ i ≠ start i) (I : Integrator.St ℝ) (c : ℝ) (hI : Ready I c) (i : Fin (n + 1))
    (hlo : I.lower < c - |end_ i - start i| - 2 * (g.velMax i * g.dt)) (hup : c + |end_ i - start i| + 2 * (g.velMax i * g.dt) < I.upper)
    (ts : Nat → Nat) (ht : ∀ k, period ts k = g.dt) :
    ∃ N, ∀ k, N ≤ k → integral I g.dt (move g s start end_).1 start i ts k =
      some (c + (end_ i - start i) + if (move g s start end_).1.c.dT2 = 0 then (move g s start end_).1.c.c2v i * g.dt else 0) := by
  have hp : 0 < g.dt := lt_of_lt_of_le eps_pos hdt
  have hwl := within_limits g s start end_ hdt hv ha hd hf hne
  obtain ⟨_, _, m1, m2, m3, h, _⟩ := move_started g s start end_ hdt hv ha hd hf hne
  generalize (move g s start end_).1 = s0 at *
  have hm2 : s0.c.dT2 = 0 ↔ m2 = 0 := by rw [h.c]; simp [coef, hp.ne']
  have hvel : ∀ k, |(outs g.dt s0 start k i).vel * g.dt| ≤ g.velMax i * g.dt := by
    intro k
    rw [abs_mul, abs_of_pos hp]
    refine mul_le_mul_of_nonneg_right ?_ hp.le
    by_cases h0 : k = 0
    · simp [outs, h0, (hv i).le]
    · rw [outs, if_neg h0]
      exact ((hwl k (by omega)).2 i).1
  have hpos : ∀ k, |(outs g.dt s0 start k i).pos - start i| ≤ |end_ i - start i| := by
    intro k
    by_cases h0 : k = 0
    · simp [outs, h0]
    · rw [outs, if_neg h0]
      obtain ⟨L, l0, l1, hL⟩ := (hwl k (by omega)).1
      rw [hL i, show start i + L * (end_ i - start i) - start i = L * (end_ i - start i) by ring, abs_mul, abs_of_nonneg l0]
      exact mul_le_of_le_one_left (abs_nonneg _) l1
  have hvd : 0 < g.velMax i * g.dt := mul_pos (hv i) hp
  have hway : ∀ k, |way g.dt s0 start i k| ≤ |end_ i - start i| + 3 / 2 * (g.velMax i * g.dt) := by
    intro k
    rw [way_eq h i k]
    have a := abs_le.1 (hvel k)
    have b := abs_le.1 (hpos k)
    have e := abs_le.1 (hvel m1)
    rw [abs_le]
    split <;> constructor <;> linarith [a.1, a.2, b.1, b.2, e.1, e.2]
  have hl : ∀ k, I.lower < c + way g.dt s0 start i k ∧ c + way g.dt s0 start i k < I.upper := by
    intro k
    have := abs_le.1 (hway k)
    constructor <;> linarith [this.1, this.2]
  refine ⟨total m1 m2 m3, fun k hk => ?_⟩
  rw [integral_way I c hI g.dt s0 start i ts ht hl k, way_eq h i k]
  have hdone := (h.done (k - total m1 m2 m3)).2
  rw [Nat.sub_add_cancel hk] at hdone
  have hk0 : k ≠ 0 := by unfold total at hk; omega
  have hout : outs g.dt s0 start k i = ⟨end_ i, 0, 0⟩ := by rw [outs, if_neg hk0, hdone]
  have hlt : m1 < k := by unfold total at hk; omega
  have hv1 : (outs g.dt s0 start m1 i).vel = s0.c.c2v i := by
    obtain ⟨_, _, p1, _, _⟩ := h.W_pos
    rw [(h.pv1 m1 (le_refl _) i).2, h.val1, h.c]
    simp only
    rw [div_mul_cancel₀ _ p1.ne', mul_comm]
    rfl
  simp only [hout, hm2, hlt, and_true, hv1]
  congr 1
  split <;> ring

/-- The excess is not zero for any element which moves: with an empty constant phase the integral of the velocity ends beyond the end position. -/
theorem integral_excess_violated (g : Cfg n) (s : St n) (start end_ : Vec n) (hdt : eps ≤ g.dt) (hv : ∀ i, 0 < g.velMax i) (ha : ∀ i, 0 < g.acc i) (hd : ∀ i, 0 < g.dec i)
    (hf : s.finished = true) (i : Fin (n + 1)) (hi : start i < end_ i) : 0 < (move g s start end_).1.c.c2v i * g.dt := by
  have hp : 0 < g.dt := lt_of_lt_of_le eps_pos hdt
  obtain ⟨_, _, m1, m2, m3, h, _⟩ := move_started g s start end_ hdt hv ha hd hf ⟨i, hi.ne'⟩
  generalize (move g s start end_).1 = s0 at *
  have hc : s0.c.c2v i = (end_ i - start i) * W g.dt m1 m2 m3 := by rw [h.c]; exact mul_comm _ _
  rw [hc]
  exact mul_pos (mul_pos (sub_pos.2 hi) h.W_pos.1) hp

/-! ### Cases -/

/-- An integrator without limits to speak of, beginning at 0. -/
def intEx : Integrator.St ℝ := { first := true, enabled := true, prev := some 0, prevTs := 0, upper := 100, lower := -100, hasLevel := false, out := none }

theorem intEx_ready : Ready intEx 0 := ⟨rfl, rfl, rfl, rfl⟩

/-- Runs one second apart. -/
def tsEx (k : Nat) : Nat := k * 1000000000

theorem period_tsEx (k : Nat) : period tsEx k = 1 := by
  unfold period tsEx
  push_cast
  ring

/-- Case of `integral_end` and `integral_excess_violated`: with the planner of `stands_still_at_speed`, sampling time 1, from 0 to 1, the velocity output integrates to 2. -/
example : ∃ N, ∀ k, N ≤ k → integral intEx cfgEx.dt (move cfgEx stEx (fun _ => 0) (fun _ => 1)).1 (fun _ => 0) 0 tsEx k = some 2 := by
  obtain ⟨N, hN⟩ := integral_end cfgEx stEx (fun _ => 0) (fun _ => 1) ex_move.dt (fun _ => by norm_num [cfgEx]) (fun _ => by norm_num [cfgEx]) (fun _ => by norm_num [cfgEx])
    rfl ⟨0, by norm_num⟩ intEx 0 intEx_ready 0 (by norm_num [intEx, cfgEx]) (by norm_num [intEx, cfgEx]) tsEx period_tsEx
  refine ⟨N, fun k hk => ?_⟩
  rw [hN k hk, ex_move.c]
  norm_num [coef, cfgEx]

/-- Case of `derivative_mean`: in the run in question the derivative is 0 although the planned velocity is 1 before and after it. -/
example : ∃ m, derivative cfgEx.dt (move cfgEx stEx (fun _ => 0) (fun _ => 1)).1 (fun _ => 0) 0 tsEx (m + 1) = 0 ∧
    (outs cfgEx.dt (move cfgEx stEx (fun _ => 0) (fun _ => 1)).1 (fun _ => 0) m 0).vel = 1 := by
  obtain ⟨m, hm⟩ := derivative_mean cfgEx stEx (fun _ => 0) (fun _ => 1) ex_move.dt (fun _ => by norm_num [cfgEx]) (fun _ => by norm_num [cfgEx])
    (fun _ => by norm_num [cfgEx]) rfl ⟨0, by norm_num⟩
  obtain ⟨h1, h2, -⟩ := (hm 0 tsEx m (by unfold tsEx; omega)).2 ⟨rfl, by rw [ex_move.c]; simp [coef]⟩
  refine ⟨m, h1, h2.trans ?_⟩
  rw [ex_move.c]
  norm_num [coef, cfgEx]

/-- One axis, all limits 1, sampling time 1: from 0 to 2 one run of acceleration, one of constant velocity, one of deceleration. -/
noncomputable def cfg2 : Cfg 0 := ⟨fun _ => 1, fun _ => 1, fun _ => 1, 1⟩

theorem cfg2_move : (move cfg2 stEx (fun _ => 0) (fun _ => 2)).1.c.dT2 = 1 ∧ (move cfg2 stEx (fun _ => 0) (fun _ => 2)).1.c.c2v 0 = 1 := by
  have hn : minNorm (n := 0) (fun _ => (1:ℝ)) (fun _ => 2) = ((1 / 2 : ℝ) : WithTop ℝ) := by
    obtain ⟨i, hi⟩ := minNorm_mem (n := 0) (fun _ => (1:ℝ)) (fun _ => 2)
    rw [hi]
    have : |(1:ℝ) / 2| = 1 / 2 := by norm_num
    rw [norm1, if_neg (by norm_num), this]
  have ht : times (1 / 2) (1 / 2) (1 / 2) = (1, 1, 1) := by
    have : Real.sqrt (2 * (1 / 2 * (1 / 2)) / (1 / 2 + 1 / 2)) = Real.sqrt (1 / 2) := by norm_num
    have hle : (1:ℝ) / 2 ≤ Real.sqrt (1 / 2) := Real.le_sqrt_of_sq_le (by norm_num)
    simp only [times, this]
    rw [if_neg (not_lt.2 hle)]
    norm_num
  have hc : ceilTo 1 1 = 1 := by simp [ceilTo]
  have hmv : (move cfg2 stEx (fun _ => 0) (fun _ => 2)).1.c = coef 1 1 1 (fun _ => 0) (fun _ => 2) := by
    simp only [move, stEx, cfg2, Bool.not_true, Bool.false_eq_true, if_false, sub_zero, forall_const]
    rw [if_neg (by norm_num), hn, WithTop.untopD_coe, ht, hc]
  rw [hmv]
  norm_num [coef]

/-- Case of `early_violated`: the run after the acceleration is half a sampling time early and the derivative is twice the maximum velocity. -/
example : ∃ (k : Nat) (ts : Nat → Nat), derivative cfg2.dt (move cfg2 stEx (fun _ => 0) (fun _ => 2)).1 (fun _ => 0) 0 ts (k + 1) = 2 * cfg2.velMax 0 := by
  obtain ⟨k, hk⟩ := early_violated cfg2 stEx (fun _ => 0) (fun _ => 2) (by norm_num [cfg2, eps]) (fun _ => by norm_num [cfg2]) (fun _ => by norm_num [cfg2])
    (fun _ => by norm_num [cfg2]) rfl ⟨0, by norm_num⟩ (by rw [cfg2_move.1]; norm_num)
  refine ⟨k, fun j => j * 500000000, ?_⟩
  rw [(hk 0 (fun j => j * 500000000) (by show k * 500000000 < (k + 1) * 500000000; omega)).1, cfg2_move.2]
  have : period (fun j => j * 500000000) k = 1 / 2 := by unfold period; push_cast; ring
  rw [this]
  norm_num [cfg2]

/-- Case of `derivative_within` and of `integral_end` with a constant phase. -/
example : |derivative cfg2.dt (move cfg2 stEx (fun _ => 0) (fun _ => 2)).1 (fun _ => 0) 0 tsEx (1 + 1)| ≤ 1 ∧
    ∃ N, ∀ k, N ≤ k → integral intEx cfg2.dt (move cfg2 stEx (fun _ => 0) (fun _ => 2)).1 (fun _ => 0) 0 tsEx k = some 2 := by
  have hdt : eps ≤ cfg2.dt := by norm_num [cfg2, eps]
  have hp : ∀ i : Fin 1, 0 < cfg2.velMax i := fun _ => by norm_num [cfg2]
  refine ⟨derivative_within cfg2 stEx (fun _ => 0) (fun _ => 2) hdt hp (fun _ => by norm_num [cfg2]) (fun _ => by norm_num [cfg2]) rfl ⟨0, by norm_num⟩ 0 tsEx 1
    (period_tsEx 1), ?_⟩
  obtain ⟨N, hN⟩ := integral_end cfg2 stEx (fun _ => 0) (fun _ => 2) hdt hp (fun _ => by norm_num [cfg2]) (fun _ => by norm_num [cfg2])
    rfl ⟨0, by norm_num⟩ intEx 0 intEx_ready 0 (by norm_num [intEx, cfg2]) (by norm_num [intEx, cfg2]) tsEx period_tsEx
  refine ⟨N, fun k hk => ?_⟩
  rw [hN k hk, cfg2_move.1]
  norm_num

end Verif.Planner.Derived
