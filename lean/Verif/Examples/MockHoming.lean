import Verif.Control.Integrator
import Verif.Planner.ConstAcc
import Mathlib.Tactic.Linarith
import Mathlib.Tactic.NormNum
import Mathlib.Tactic.Ring
import Mathlib.Algebra.Order.Ring.Rat
import Mathlib.Algebra.Field.Rat
/-!
C202, C203: the homing of the mock robot (examples/system/MockRobotSequencer.hpp:51-71, MockRobotControlSystem.hpp): the sequence lets both axes move with 0.1 per second and polls the position; an
axis which has reached 1 is stopped.  The time domain and the sequence run in different threads, in any interleaving.  Arithmetic is exact and the limits of the integrator (the largest double) are
not reached; the two calls of `setValue` in `checkExitCondition` are one step.  The time domain has run before the homing starts.
-/
namespace Verif.Examples.MockHoming
open Verif.Control
variable {K : Type} [Field K] [LinearOrder K]

/-- The axes are `false` and `true`. -/
structure St (K : Type) where
  /-- `setpoint.value` -/
  u : Bool → K
  /-- output of the block `setpoint` -/
  c : Bool → K
  /-- output (and state) of the integrator, with its time stamp -/
  x : Bool → K
  ts : Nat
  /-- `val` in `checkExitCondition`, between reading it and its end -/
  seen : Option (Bool → K)
  /-- `homingDone` was triggered -/
  done : Bool

inductive Step where
  /-- `setpoint.run()` -/
  | cRun
  /-- `i.run()`, I.hpp:53-75 -/
  | iRun (ts : Nat)
  /-- `val = cs.i.getOut()...`, MockRobotSequencer.hpp:60 -/
  | read
  /-- the rest of `checkExitCondition`, 61-65 -/
  | write

/-- When `action` (55-58) has returned; `t0`: the last run of the time domain.  MockRobotControlSystem.hpp:19. -/
def init (t0 : Nat) : St K := ⟨fun _ => 1/10, fun _ => 0, fun k => if k then -1/5 else 3/10, t0, none, false⟩

def step (s : St K) : Step → St K
  | .cRun => { s with c := s.u }
  | .iRun ts => { s with x := fun k => s.x k + s.c k * Integrator.seconds s.ts ts, ts := ts }
  | .read => { s with seen := some s.x }
  | .write => match s.seen with
    | some v => { s with u := fun k => if 1 ≤ v k then 0 else s.u k, done := s.done || (decide (1 ≤ v false) && decide (1 ≤ v true)), seen := none }
    | none => s

def exec (s : St K) (l : List Step) : St K := l.foldl step s

/-! ### Specification -/

/-- Time stamps never go back. -/
def Forward : Nat → List Step → Prop
  | _, [] => True
  | t, .iRun ts :: l => t ≤ ts ∧ Forward ts l
  | t, _ :: l => Forward t l

/-- In time: `now` is the time stamp of the last run of the integrator, `r` the one seen by the last complete poll, `p` the one seen by the poll under way; `fresh`: `setpoint` has run since the
integrator has.  No run is later than `P` ns after the last complete poll and than `h` ns after the last run. -/
def InTime (P h : Nat) : (now r : Nat) → (p : Option Nat) → (fresh : Bool) → List Step → Prop
  | _, _, _, _, [] => True
  | now, r, p, _, .cRun :: l => InTime P h now r p true l
  | now, r, p, fresh, .iRun ts :: l => fresh = true ∧ now ≤ ts ∧ ts ≤ now + h ∧ ts ≤ r + P ∧ InTime P h ts r p false l
  | now, r, _, fresh, .read :: l => InTime P h now r (some now) fresh l
  | now, r, p, fresh, .write :: l => InTime P h now (p.getD r) none fresh l

/-! ### Lemmas -/
variable [IsStrictOrderedRing K]

theorem seconds_nonneg {t0 t1 : Nat} (h : t0 ≤ t1) : (0 : K) ≤ Integrator.seconds t0 t1 := by
  have : (t0 : K) ≤ (t1 : K) := by exact_mod_cast h
  unfold Integrator.seconds
  linarith [div_le_div_of_nonneg_right this (by norm_num : (0 : K) ≤ 1000000000)]

theorem seconds_add (a b c : Nat) : (Integrator.seconds a b : K) + Integrator.seconds b c = Integrator.seconds a c := by unfold Integrator.seconds; ring

theorem seconds_self (a : Nat) : (Integrator.seconds a a : K) = 0 := by unfold Integrator.seconds; ring

theorem seconds_le {t0 t1 n : Nat} (h : t1 ≤ t0 + n) : Integrator.seconds t0 t1 ≤ (n : K) / 1000000000 := by
  have : (t1 : K) ≤ (t0 : K) + (n : K) := by exact_mod_cast h
  unfold Integrator.seconds
  have := div_le_div_of_nonneg_right this (by norm_num : (0 : K) ≤ 1000000000)
  rw [add_div] at this
  linarith

/-- Start position of an axis. -/
def x0 (k : Bool) : K := if k then -1/5 else 3/10

/-- An axis is moving since the start or has been stopped at 1 or above; no poll under way has seen more than the position. -/
def Axis (t0 : Nat) (s : St K) (k : Bool) : Prop :=
  ((s.u k = 1/10 ∧ s.c k = 1/10 ∧ s.x k = x0 k + 1/10 * Integrator.seconds t0 s.ts) ∨ (s.u k = 0 ∧ 1 ≤ s.x k ∧ (s.c k = 0 ∨ s.c k = 1/10))) ∧ (∀ v, s.seen = some v → v k ≤ s.x k)

theorem axis_step {t0 : Nat} {s : St K} (h : ∀ k, Axis t0 s k) (e : Step) (he : ∀ ts, e = .iRun ts → s.ts ≤ ts) : ∀ k, Axis t0 (step s e) k := by
  intro k
  obtain ⟨h1, h2⟩ := h k
  cases e with
  | cRun =>
    refine ⟨?_, h2⟩
    rcases h1 with ⟨a, b, c⟩ | ⟨a, b, c⟩
    · exact Or.inl ⟨a, a, c⟩
    · exact Or.inr ⟨a, b, Or.inl a⟩
  | iRun ts =>
    have hd := seconds_nonneg (K := K) (he ts rfl)
    refine ⟨?_, ?_⟩
    · rcases h1 with ⟨a, b, c⟩ | ⟨a, b, c⟩
      · refine Or.inl ⟨a, b, ?_⟩
        simp only [step, b, c]
        rw [← seconds_add t0 s.ts ts]; ring
      · refine Or.inr ⟨a, ?_, c⟩
        simp only [step]
        rcases c with c | c <;> rw [c] <;> linarith
    · intro v hv
      have := h2 v hv
      simp only [step]
      rcases h1 with ⟨-, c, -⟩ | ⟨-, -, c | c⟩ <;> rw [c] <;> linarith
  | read =>
    refine ⟨h1, ?_⟩
    intro v hv
    simp only [step, Option.some.injEq] at hv
    rw [← hv]; exact le_refl _
  | write =>
    cases hs : s.seen with
    | none => simpa [step, hs, Axis] using h1
    | some v =>
      have hv := h2 v hs
      by_cases hk : 1 ≤ v k
      · refine ⟨Or.inr ?_, by simp [step, hs]⟩
        simp only [step, hs, hk, if_true]
        refine ⟨trivial, le_trans hk hv, ?_⟩
        rcases h1 with ⟨-, c, -⟩ | ⟨-, -, c⟩
        · exact Or.inr c
        · exact c
      · refine ⟨?_, by simp [step, hs]⟩
        simp only [step, hs, hk, if_false]
        exact h1

theorem axis_exec {t0 : Nat} (l : List Step) : ∀ {s : St K}, (∀ k, Axis t0 s k) → Forward s.ts l → ∀ k, Axis t0 (exec s l) k := by
  induction l with
  | nil => intro s h _; exact h
  | cons e l ih =>
    intro s h hf
    refine ih (axis_step h e ?_) ?_
    · rintro ts rfl; exact hf.1
    · cases e with
      | cRun => exact hf
      | iRun ts => exact hf.2
      | read => exact hf
      | write => simp only [step]; split <;> exact hf

theorem axis_init (t0 : Nat) (k : Bool) : Axis t0 (exec (init t0 : St K) [.cRun]) k := by
  refine ⟨Or.inl ⟨rfl, rfl, ?_⟩, ?_⟩
  · simp [exec, step, init, x0, seconds_self]
  · intro v hv; simp [exec, step, init] at hv

omit [IsStrictOrderedRing K] in
theorem exec_append (s : St K) (a b : List Step) : exec s (a ++ b) = exec (exec s a) b := by simp [exec]

/-! ### C202 -/

/-- While the homing is not finished no axis moves back, and an axis whose setpoint is 0 is at 1 or above; in any interleaving of the two threads. -/
theorem forward (t0 : Nat) (l : List Step) (hf : Forward t0 l) (ts : Nat) (hts : (exec (init t0 : St K) (.cRun :: l)).ts ≤ ts) (k : Bool) :
    (exec (init t0 : St K) (.cRun :: l)).x k ≤ (exec (init t0 : St K) (.cRun :: l ++ [.iRun ts])).x k ∧
    ((exec (init t0 : St K) (.cRun :: l)).u k = 0 → 1 ≤ (exec (init t0 : St K) (.cRun :: l)).x k) := by
  have h := axis_exec l (axis_init (K := K) t0) hf k
  rw [exec_append]
  change Axis t0 (exec (init t0) (.cRun :: l)) k at h
  obtain ⟨h1, -⟩ := h
  have hd := seconds_nonneg (K := K) hts
  constructor
  · show _ ≤ (exec (init t0 : St K) (.cRun :: l)).x k + (exec (init t0 : St K) (.cRun :: l)).c k * _
    rcases h1 with ⟨-, c, -⟩ | ⟨-, -, c | c⟩ <;> rw [c] <;> linarith
  · intro hu
    rcases h1 with ⟨a, -, -⟩ | ⟨-, b, -⟩
    · rw [a] at hu; norm_num at hu
    · exact b

/-- `homingDone` is triggered only when both axes are at 1 or above and both setpoints are 0. -/
theorem done_stopped (t0 : Nat) (l : List Step) (hf : Forward t0 l) (hd : (exec (init t0 : St K) (.cRun :: l)).done = true) (k : Bool) :
    1 ≤ (exec (init t0 : St K) (.cRun :: l)).x k ∧ (exec (init t0 : St K) (.cRun :: l)).u k = 0 := by
  have key : ∀ (l : List Step) (s : St K), (∀ k, Axis t0 s k) → (s.done = true → ∀ k, s.u k = 0 ∧ 1 ≤ s.x k) → Forward s.ts l → ((exec s l).done = true → ∀ k, (exec s l).u k = 0 ∧ 1 ≤ (exec s l).x k) := by
    intro l
    induction l with
    | nil => intro s _ h _; exact h
    | cons e l ih =>
      intro s ha h hf
      have hts : ∀ ts, e = .iRun ts → s.ts ≤ ts := by rintro ts rfl; exact hf.1
      refine ih _ (axis_step ha e hts) ?_ ?_
      · intro hdone k
        have hax := axis_step ha e hts k
        have hu : (step s e).u k = 0 := by
          cases e with
          | cRun => exact (h hdone k).1
          | iRun ts => exact (h hdone k).1
          | read => exact (h hdone k).1
          | write =>
            cases hs : s.seen with
            | none => simp only [step, hs] at hdone ⊢; exact (h hdone k).1
            | some v =>
              simp only [step, hs] at hdone ⊢
              by_cases hdn : s.done = true
              · rw [(h hdn k).1]; simp
              · simp [hdn] at hdone
                cases k <;> simp [hdone]
        refine ⟨hu, ?_⟩
        rcases hax.1 with ⟨a, -, -⟩ | ⟨-, b, -⟩
        · rw [a] at hu; norm_num at hu
        · exact b
      · cases e with
        | cRun => exact hf
        | iRun ts => exact hf.2
        | read => exact hf
        | write => simp only [step]; split <;> exact hf
  have := key l (exec (init t0) [.cRun]) (axis_init t0) (by simp [exec, step, init]) hf hd k
  exact ⟨this.2, this.1⟩

/-- After that, as soon as the block `setpoint` has run, the robot stands still for ever. -/
theorem rests (t0 : Nat) (l : List Step) (hf : Forward t0 l) (hd : (exec (init t0 : St K) (.cRun :: l)).done = true) (l' : List Step) (k : Bool) :
    (exec (init t0 : St K) (.cRun :: l ++ .cRun :: l')).x k = (exec (init t0 : St K) (.cRun :: l)).x k := by
  have hu := fun k => (done_stopped t0 l hf hd k).2
  rw [exec_append]
  generalize exec (init t0 : St K) (.cRun :: l) = s at hu
  have key : ∀ (l : List Step) (s : St K), (∀ k, s.u k = 0) → (∀ k, s.c k = 0) → (exec s l).x k = s.x k := by
    intro l
    induction l with
    | nil => intro s _ _; rfl
    | cons e l ih =>
      intro s hu hc
      have h1 : (∀ k, (step s e).u k = 0) ∧ (∀ k, (step s e).c k = 0) ∧ (step s e).x k = s.x k := by
        cases e with
        | cRun => exact ⟨hu, hu, rfl⟩
        | iRun ts => exact ⟨hu, hc, by simp [step, hc]⟩
        | read => exact ⟨hu, hc, rfl⟩
        | write =>
          cases hs : s.seen with
          | none => simp only [step, hs]; exact ⟨hu, hc, trivial⟩
          | some v => simp only [step, hs]; exact ⟨fun k => by simp [hu], hc, trivial⟩
      rw [show exec s (e :: l) = exec (step s e) l from rfl, ih _ h1.1 h1.2.1, h1.2.2]
  exact key l' (step s .cRun) hu hu

/-- The homing ends: the first poll which begins 12 s after the start triggers `homingDone`. -/
theorem ends (t0 : Nat) (l : List Step) (hf : Forward t0 l) (hlong : t0 + 12000000000 ≤ (exec (init t0 : St K) (.cRun :: l)).ts) :
    (exec (init t0 : St K) (.cRun :: l ++ [.read, .write])).done = true := by
  have h := axis_exec l (axis_init (K := K) t0) hf
  change ∀ k, Axis t0 (exec (init t0) (.cRun :: l)) k at h
  rw [exec_append]
  generalize exec (init t0 : St K) (.cRun :: l) = s at h hlong
  have hx : ∀ k, 1 ≤ s.x k := by
    intro k
    rcases (h k).1 with ⟨-, -, hx⟩ | ⟨-, hx, -⟩
    · have hs : (12 : K) ≤ Integrator.seconds t0 s.ts := by
        have : ((t0 + 12000000000 : Nat) : K) ≤ (s.ts : K) := by exact_mod_cast hlong
        push_cast at this
        unfold Integrator.seconds
        linarith
      have h0 : (-1/5 : K) ≤ x0 k := by cases k <;> simp [x0] <;> norm_num
      rw [hx]; linarith
    · exact hx
  simp [exec, step, hx]

/-- Nanoseconds in seconds. -/
def sec (n : Nat) : K := (n : K) / 1000000000

theorem sec_nonneg (n : Nat) : (0 : K) ≤ sec n := div_nonneg (Nat.cast_nonneg n) (by norm_num)

/-- The invariant of the overshoot. -/
structure Over (P h : Nat) (s : St K) (r : Nat) (p : Option Nat) (fresh : Bool) : Prop where
  le : r ≤ s.ts
  ltP : s.ts ≤ r + P
  idle : s.seen = none → p = none
  poll : ∀ v, s.seen = some v → ∃ tp, p = some tp ∧ r ≤ tp ∧ tp ≤ s.ts ∧ ∀ k, s.u k = 1/10 → s.x k ≤ v k + 1/10 * Integrator.seconds tp s.ts
  out : ∀ k, s.c k = 0 ∨ s.c k = 1/10
  axis : ∀ k, (s.u k = 1/10 ∧ s.x k < 1 + 1/10 * Integrator.seconds r s.ts) ∨ (s.u k = 0 ∧ s.x k ≤ 1 + 1/10 * sec P) ∨
    (s.u k = 0 ∧ (s.c k = 0 ∨ fresh = false) ∧ s.x k ≤ 1 + 1/10 * (sec P + sec h))

theorem over_exec {P h : Nat} (l : List Step) : ∀ {s : St K} {r : Nat} {p : Option Nat} {fresh : Bool}, Over P h s r p fresh → InTime P h s.ts r p fresh l →
    ∀ k, (exec s l).x k ≤ 1 + 1/10 * (sec P + sec h) := by
  have hh0 := sec_nonneg (K := K) h
  induction l with
  | nil =>
    intro s r p fresh ho _ k
    have hP : Integrator.seconds r s.ts ≤ (sec P : K) := seconds_le ho.ltP
    rcases ho.axis k with ⟨-, b⟩ | ⟨-, b⟩ | ⟨-, -, b⟩ <;> simp only [exec, List.foldl] <;> linarith
  | cons e l ih =>
    intro s r p fresh ho hin
    have hP : Integrator.seconds r s.ts ≤ (sec P : K) := seconds_le ho.ltP
    cases e with
    | cRun =>
      refine ih (s := step s .cRun) (r := r) (p := p) (fresh := true) ⟨ho.le, ho.ltP, ho.idle, ho.poll, ?_, ?_⟩ hin
      · intro k; rcases ho.axis k with ⟨a, -⟩ | ⟨a, -⟩ | ⟨a, -, -⟩
        · exact Or.inr a
        · exact Or.inl a
        · exact Or.inl a
      · intro k; rcases ho.axis k with ⟨a, b⟩ | ⟨a, b⟩ | ⟨a, c, b⟩
        · exact Or.inl ⟨a, b⟩
        · exact Or.inr (Or.inl ⟨a, b⟩)
        · exact Or.inr (Or.inr ⟨a, Or.inl a, b⟩)
    | iRun ts =>
      obtain ⟨hfr, h1, h2, h3, h4⟩ := hin
      have hd := seconds_nonneg (K := K) h1
      have hdh : Integrator.seconds s.ts ts ≤ (sec h : K) := seconds_le h2
      refine ih (s := step s (.iRun ts)) (r := r) (p := p) (fresh := false) ⟨le_trans ho.le h1, h3, ho.idle, ?_, ho.out, ?_⟩ h4
      · intro v hv
        obtain ⟨tp, a, b, c, d⟩ := ho.poll v hv
        refine ⟨tp, a, b, le_trans c h1, fun k hk => ?_⟩
        have := d k hk
        simp only [step]
        rw [← seconds_add tp s.ts ts]
        rcases ho.out k with hc | hc <;> rw [hc] <;> linarith
      · intro k
        simp only [step]
        rcases ho.axis k with ⟨a, b⟩ | ⟨a, b⟩ | ⟨a, c, b⟩
        · refine Or.inl ⟨a, ?_⟩
          rw [← seconds_add r s.ts ts]
          rcases ho.out k with hc | hc <;> rw [hc] <;> linarith
        · refine Or.inr (Or.inr ⟨a, Or.inr trivial, ?_⟩)
          rcases ho.out k with hc | hc <;> rw [hc] <;> linarith
        · have hc : s.c k = 0 := by rcases c with c | c; exact c; rw [hfr] at c; contradiction
          exact Or.inr (Or.inr ⟨a, Or.inr trivial, by rw [hc]; linarith⟩)
    | read =>
      refine ih (s := step s .read) (r := r) (p := some s.ts) (fresh := fresh) ⟨ho.le, ho.ltP, by simp [step], ?_, ho.out, ho.axis⟩ hin
      intro v hv
      simp only [step, Option.some.injEq] at hv
      refine ⟨s.ts, rfl, ho.le, le_refl _, fun k _ => ?_⟩
      rw [← hv, show (step s .read).ts = s.ts from rfl, seconds_self]
      simp [step]
    | write =>
      cases hs : s.seen with
      | none =>
        have hp := ho.idle hs
        subst hp
        have hst : step s .write = s := by simp [step, hs]
        rw [show exec s (.write :: l) = exec (step s .write) l from rfl, hst]
        exact ih ho hin
      | some v =>
        obtain ⟨tp, hp, hrt, htt, hx⟩ := ho.poll v hs
        subst hp
        have hst : step s .write = { s with u := fun k => if 1 ≤ v k then 0 else s.u k, done := s.done || (decide (1 ≤ v false) && decide (1 ≤ v true)), seen := none } := by simp [step, hs]
        rw [show exec s (.write :: l) = exec (step s .write) l from rfl, hst]
        refine ih (r := tp) (p := none) (fresh := fresh) ⟨htt, by show s.ts ≤ tp + P; have := ho.ltP; omega, fun _ => rfl, by simp, ho.out, ?_⟩ hin
        intro k
        by_cases hk : 1 ≤ v k
        · simp only [hk, if_true]
          rcases ho.axis k with ⟨a, b⟩ | ⟨a, b⟩ | ⟨a, c, b⟩
          · exact Or.inr (Or.inl ⟨trivial, by linarith⟩)
          · exact Or.inr (Or.inl ⟨trivial, b⟩)
          · exact Or.inr (Or.inr ⟨trivial, c, b⟩)
        · simp only [hk, if_false]
          rcases ho.axis k with ⟨a, b⟩ | ⟨a, b⟩ | ⟨a, c, b⟩
          · refine Or.inl ⟨a, ?_⟩
            have := hx k a
            have hk' := not_le.1 hk
            linarith
          · exact Or.inr (Or.inl ⟨a, b⟩)
          · exact Or.inr (Or.inr ⟨a, c, b⟩)

/-- If no run of the integrator is later than `P` after the last complete poll and than `h` after the run before, no axis passes 1 by more than 0.1 (P + h): with polls every 100 ms and runs every
10 ms the overshoot is at most about 0.011. -/
theorem overshoot (P h t0 : Nat) (l : List Step) (hin : InTime P h t0 t0 none false (.cRun :: l)) (k : Bool) :
    (exec (init t0 : St K) (.cRun :: l)).x k ≤ 1 + 1/10 * (sec P + sec h) := by
  refine over_exec (.cRun :: l) (r := t0) (p := none) (fresh := false) ⟨le_refl _, by show t0 ≤ t0 + P; omega, fun _ => rfl, by simp [init], fun _ => Or.inl rfl, ?_⟩ hin k
  intro k
  refine Or.inl ⟨rfl, ?_⟩
  rw [show (init t0 : St K).ts = t0 from rfl, seconds_self]
  cases k <;> simp [init] <;> norm_num

example : (exec (init 0 : St ℚ) [.cRun, .cRun, .iRun 0, .read, .write]).x false ≤ 1 + 1/10 * (sec 1000000000 + sec 1000000000) :=
  overshoot 1000000000 1000000000 0 [.cRun, .iRun 0, .read, .write] (by simp [InTime]) false

/-- The planner before the first `move`: finished, `last` is 0 (TrajectoryGenerator.hpp:30-32). -/
def Fresh (s : Planner.ConstAcc.St 1) : Prop := s.finished = true ∧ ∀ i, s.last i = ⟨0, 0, 0⟩

theorem fresh_runs (s : Planner.ConstAcc.St 1) (hs : Fresh s) (dt : ℝ) (n : Nat) : Fresh (Planner.ConstAcc.runs dt n s) := by
  induction n with
  | zero => exact hs
  | succ n ih =>
    obtain ⟨h1, h2⟩ := ih
    simp only [Planner.ConstAcc.runs, Planner.ConstAcc.run]
    simp [Fresh, h1, h2]

/-- C203 (partial): before its first trajectory the planner does not move. -/
theorem planner_stands_partial (s : Planner.ConstAcc.St 1) (hs : Fresh s) (dt : ℝ) (n : Nat) (i : Fin 2) : ((Planner.ConstAcc.runs dt n s).last i).pos = (s.last i).pos := by
  rw [(fresh_runs s hs dt n).2 i, hs.2 i]

/-- C203 is violated: when the homing is done the robot is switched to the planner (MockRobotSequencer.hpp:92) whose position is still 0.  Both coordinates of the position jump back by at least 1,
however often the planner has run and whatever the periods are. -/
theorem switch_jumps_violated (t0 : Nat) (l : List Step) (hf : Forward t0 l) (hd : (exec (init t0 : St ℝ) (.cRun :: l)).done = true)
    (s : Planner.ConstAcc.St 1) (hs : Fresh s) (dt : ℝ) (n : Nat) (k : Bool) (i : Fin 2) :
    ((Planner.ConstAcc.runs dt n s).last i).pos - (exec (init t0 : St ℝ) (.cRun :: l)).x k ≤ -1 := by
  have h1 := (done_stopped t0 l hf hd k).1
  rw [(fresh_runs s hs dt n).2 i]
  linarith

/-- Case: a run every second, polls in between; both axes are stopped and done after 12 s. -/
def sample : List Step := (List.range 13).flatMap (fun k => [.cRun, .iRun (k * 1000000000), .read, .write])

example : (exec (init 0 : St ℚ) (.cRun :: sample)).done = true ∧ (exec (init 0 : St ℚ) (.cRun :: sample)).x false = 1 ∧ (exec (init 0 : St ℚ) (.cRun :: sample)).x true = 1 := by decide +kernel

example : Forward 0 sample := by simp [sample, Forward, List.range_succ]

example : InTime 1000000000 1000000000 0 0 none false (.cRun :: sample) := by simp [sample, InTime, List.range_succ]

/-- Case: polls every 3 s only; the first axis goes to 6/5. -/
example : (exec (init 0 : St ℚ) (.cRun :: (List.range 5).flatMap (fun k => [.cRun, .iRun (k * 3000000000), .read, .write]))).x false = 6/5 := by decide +kernel

end Verif.Examples.MockHoming
