import Verif.Control.RaceVars
/-!
The data races of `Verif/Control/BlockRaces.lean` variable by variable: for every class with races the complete table of the members on
which `run` races with a method called by another thread.  `racing` is the table as a reader of the code would write it; the theorems say that
the executions have races on exactly these members.

The path planners are different: `move` leaves the trajectory alone as long as `finished` is not set.  The model of the races does not follow
the values, so here only the safe direction is stated for the members behind that test.
-/
namespace Verif.Control.BlockRaceVars
open Verif.Common.Race Verif.Control.BlockRaces Verif.Control.RaceVars

namespace Gain
open BlockRaces.Gain BlockRaces.Gain.Var

/-- The members on which the method `m` races with `run`. -/
def racing : M → List Var
  | .enable => [enabled]
  | .disable => [enabled]
  | .enableSmoothChange => [smoothChange]
  | .enableParabolicGain => [parabolic]
  | .print => [gain]
  | _ => []

set_option maxHeartbeats 1000000 in
/-- Gain: the three flags, which are written without the mutex, and the gain itself when the block is printed. -/
theorem vars_violated (m : M) (hm : m ≠ .run) (v : Var) : FreeOn (cls.two .run m) v ↔ v ∉ racing m := by
  rw [two_on_iff cls bal]
  cases m <;> first | exact absurd rfl hm | (cases v <;> decide +kernel)

end Gain

namespace Saturation
open BlockRaces.Saturation BlockRaces.Saturation.Var

/-- The members on which the method `m` races with `run`. -/
def racing : M → List Var
  | .enable => [enabled]
  | .disable => [enabled]
  | .setLimit => [lowerLimit, upperLimit]
  | _ => []

/-- Saturation: both limits and the flag. -/
theorem vars_violated (m : M) (hm : m ≠ .run) (v : Var) : FreeOn (cls.two .run m) v ↔ v ∉ racing m := by
  rw [two_on_iff cls bal]
  cases m <;> first | exact absurd rfl hm | (cases v <;> decide +kernel)

end Saturation

namespace RateLimiter
open BlockRaces.RateLimiter BlockRaces.RateLimiter.Var

/-- The members on which the method `m` races with `run`. -/
def racing : M → List Var
  | .enable => [enabled]
  | .disable => [enabled]
  | _ => []

/-- RateLimiter: the flag only. -/
theorem vars_violated (m : M) (hm : m ≠ .run) (v : Var) : FreeOn (cls.two .run m) v ↔ v ∉ racing m := by
  rw [two_on_iff cls bal]
  cases m <;> first | exact absurd rfl hm | (cases v <;> decide +kernel)

end RateLimiter

namespace WrapAround
open BlockRaces.WrapAround BlockRaces.WrapAround.Var

/-- The members on which the method `m` races with `run`. -/
def racing : M → List Var
  | .enable => [enabled]
  | .disable => [enabled]
  | _ => []

/-- WrapAround: the flag only. -/
theorem vars_violated (m : M) (hm : m ≠ .run) (v : Var) : FreeOn (cls.two .run m) v ↔ v ∉ racing m := by
  rw [two_on_iff cls bal]
  cases m <;> first | exact absurd rfl hm | (cases v <;> decide +kernel)

end WrapAround

namespace Integrator
open BlockRaces.Integrator BlockRaces.Integrator.Var

/-- The members on which the method `m` races with `run`. -/
def racing : M → List Var
  | .enable => [enabled]
  | .disable => [enabled]
  | .setInitCondition => [prev]
  | .setLimit => [upperLimit, lowerLimit, prev]
  | .print => [enabled]
  | _ => []

/-- I: the state, the limits and the flag; printing reads the flag which `run` may write, when an active level is set. -/
theorem vars_violated (m : M) (hm : m ≠ .run) (v : Var) : FreeOn (cls.two .run m) v ↔ v ∉ racing m := by
  rw [two_on_iff cls bal]
  cases m <;> first | exact absurd rfl hm | (cases v <;> decide +kernel)

end Integrator

namespace Switch
open BlockRaces.Switch BlockRaces.Switch.Var

/-- The members on which the method `m` races with `run`. -/
def racing : M → List Var
  | .switchToInput => [currentInput]
  | .getCurrentInput => [currentInput]
  | .registerSafetyEvent => [safetySystem, safetyEvent]
  | .setCondition => [switchLevel, delta, nextInput]
  | .arm => [armed, switched]
  | .triggered => [switched]
  | .combine => [c, currentInput]
  | _ => []

/-- Switch: everything but the active level. -/
theorem vars_violated (m : M) (hm : m ≠ .run) (v : Var) : FreeOn (cls.two .run m) v ↔ v ∉ racing m := by
  rw [two_on_iff cls bal]
  cases m <;> first | exact absurd rfl hm | (cases v <;> decide +kernel)

end Switch

namespace Trace
open BlockRaces.Trace BlockRaces.Trace.Var

/-- The members on which the method `m` races with `run`. -/
def racing : M → List Var
  | .getTrace => [index, cycle, buf]
  | .getTimestampTrace => [index, cycle, timeBuf]
  | .enable => [running]
  | .disable => [running]
  | _ => []

/-- Trace: the two getters on the position in the buffer, the flag for a full buffer and their own buffer. -/
theorem vars_violated (m : M) (hm : m ≠ .run) (v : Var) : FreeOn (cls.two .run m) v ↔ v ∉ racing m := by
  rw [two_on_iff cls bal]
  cases m <;> first | exact absurd rfl hm | (cases v <;> decide +kernel)

end Trace

namespace Safety
open BlockRaces.Safety BlockRaces.Safety.Var

/-- The members on which the method `m` races with `run`. -/
def racing : M → List Var
  | .triggerEvent => [currentLevel, nextLevel, nofActivations]
  | .getCurrentLevel => [currentLevel]
  | _ => []

/-- SafetySystem: an event races with `run` on all three members, the getter on the current level. -/
theorem vars_violated (m : M) (hm : m ≠ .run) (v : Var) : FreeOn (cls.two .run m) v ↔ v ∉ racing m := by
  rw [two_on_iff cls bal]
  cases m <;> first | exact absurd rfl hm | (cases v <;> decide +kernel)

end Safety

/-- Transition from a slow to a fast time domain: the flag `refresh` and nothing else. -/
theorem transition_vars_violated (mode : Transition.Mode) (v : Transition.Var) :
    FreeOn ((Transition.cls mode).two .inBlock .outBlock) v ↔ ¬ (mode = .up ∧ v = .refresh) := by
  rw [two_on_iff _ (Transition.bal mode)]
  cases mode <;> cases v <;> decide +kernel

/-- Two threads which trigger events race on the next level and nothing else. -/
theorem trigger_vars_violated (v : BlockRaces.Safety.Var) : FreeOn (BlockRaces.Safety.cls.two .triggerEvent .triggerEvent) v ↔ v ≠ .nextLevel := by
  rw [two_on_iff _ BlockRaces.Safety.bal]
  cases v <;> decide +kernel

/-- Path planner with constant acceleration: the range, the time and the limits never race with `run`, the last position only when it is the
start of a motion; the flag `finished` does. -/
theorem planner_acc_vars_violated (m : PlannerAcc.M) (hm : m ≠ .run) (v : PlannerAcc.Var) :
    (¬ FreeOn (PlannerAcc.cls.two .run m) v →
      (m = .move ∨ m = .moveFromLast) ∧ v ∈ [PlannerAcc.Var.finished, .endPos, .dT, .coeff] ∨ m = .moveFromLast ∧ v = .last) ∧
    (m = .move ∨ m = .moveFromLast → ¬ FreeOn (PlannerAcc.cls.two .run m) .finished) := by
  rw [two_on_iff _ PlannerAcc.bal, two_on_iff _ PlannerAcc.bal]
  revert hm
  cases m <;> cases v <;> decide +kernel

/-- Path planner with constant jerk: the same. -/
theorem planner_jerk_vars_violated (m : PlannerJerk.M) (hm : m ≠ .run) (v : PlannerJerk.Var) :
    (¬ FreeOn (PlannerJerk.cls.two .run m) v →
      (m = .move ∨ m = .moveFromLast) ∧ v ∈ [PlannerJerk.Var.finished, .endPos, .dT, .coeff] ∨ m = .moveFromLast ∧ v = .last) ∧
    (m = .move ∨ m = .moveFromLast → ¬ FreeOn (PlannerJerk.cls.two .run m) .finished) := by
  rw [two_on_iff _ PlannerJerk.bal, two_on_iff _ PlannerJerk.bal]
  revert hm
  cases m <;> cases v <;> decide +kernel

/-- Path planner of cubic pieces: the flag `finished`, for a motion also the coefficients; everything else is used by `run` alone or not by
`run`. -/
theorem planner_cubic_vars_violated (m : PlannerCubic.M) (hm : m ≠ .run) (v : PlannerCubic.Var) :
    (¬ FreeOn (PlannerCubic.cls.two .run m) v →
      m ≠ .init ∧ (v = .finished ∨ v = .coeff ∧ (m = .move ∨ m = .moveScaled))) ∧
    (m ≠ .init → ¬ FreeOn (PlannerCubic.cls.two .run m) .finished) := by
  rw [two_on_iff _ PlannerCubic.bal, two_on_iff _ PlannerCubic.bal]
  revert hm
  cases m <;> cases v <;> decide +kernel

/-! ### Examples -/

/-- A switch is armed while it runs. -/
example : ∃ s : St Switch.Var Unit Nat, Reach (BlockRaces.Switch.cls.two .run .arm) s ∧ RaceOn s .switched := by
  have h := mt (Switch.vars_violated .arm (by decide) .switched).1 (by decide)
  unfold FreeOn at h
  push Not at h
  exact h
/-- Printing a gain races on the gain, not on its limits. -/
example : ¬ FreeOn (BlockRaces.Gain.cls.two .run .print) .gain ∧ FreeOn (BlockRaces.Gain.cls.two .run .print) .maxGain :=
  ⟨mt (Gain.vars_violated .print (by decide) .gain).1 (by decide), (Gain.vars_violated .print (by decide) .maxGain).2 (by decide)⟩
example : ¬ FreeOn ((Transition.cls .up).two .inBlock .outBlock) .refresh ∧ FreeOn ((Transition.cls .up).two .inBlock .outBlock) .inp :=
  ⟨fun h => (transition_vars_violated .up .refresh).1 h ⟨rfl, rfl⟩, (transition_vars_violated .up .inp).2 (by decide)⟩
example : FreeOn (PlannerAcc.cls.two .run .move) .range := by
  by_contra h
  rcases (planner_acc_vars_violated .move (by decide) .range).1 h with ⟨_, h⟩ | ⟨h, _⟩ <;> revert h <;> decide

end Verif.Control.BlockRaceVars
