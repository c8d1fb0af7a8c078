import Verif.Core.Statistics
import Mathlib.Algebra.Order.Floor.Defs
/-!
Model of `src/core/PeriodicCounter.cpp`.  Times are exact numbers of seconds; the readings of the clock are inputs.
-/
namespace Verif.Core.PeriodicCounter

open Verif.Core.Statistics (add reset)

variable {K : Type} [Field K] [LinearOrder K]

/-- PeriodicCounter.hpp:36-54.  `reset_counter` is never read; see `resetCounter`. -/
structure St (K : Type) where
  period : Statistics.St K
  jitter : Statistics.St K
  run : Statistics.St K
  counterPeriod : K
  first : Bool
  start : K
  last : K
  /-- one entry per call of the monitors: the value of `period.last` they see, newest first -/
  monitored : List K

/-- Constructor, 6-12 (`M` as in `Statistics`); `last` is set by the first tick. -/
def init (M T now : K) : St K :=
  { period := reset M, jitter := reset M, run := reset M, counterPeriod := T, first := true, start := now, last := now,
    monitored := [] }

inductive Op (K : Type) where
  /-- `tick()` reads the clock -/
  | tick (now : K)
  /-- `tock()` reads the clock -/
  | tock (now : K)
  | setPeriod (T : K)
  | reset

/-- 27-30, 32-49, 14-17, 51-56. -/
def step (M : K) (s : St K) : Op K → St K
  | .tick now => { s with last := s.start, start := now }
  | .tock now =>
    let s1 := { s with run := add s.run (now - s.start) }
    if s.first then { s1 with first := false }
    else
      let newPeriod := s.start - s.last
      { s1 with period := add s.period newPeriod, jitter := add s.jitter (newPeriod - s.counterPeriod),
                monitored := newPeriod :: s.monitored }
  | .setPeriod T => { s with counterPeriod := T, period := reset M, jitter := reset M, run := reset M }
  | .reset => { s with period := reset M, jitter := reset M, run := reset M }

def exec (M : K) (s : St K) (ops : List (Op K)) : St K := ops.foldl (step M) s

/-- `addDefaultMonitor`, 84-97: whether a warning is logged for the last period `t`. -/
def warns (period tolerance t : K) : Bool :=
  let tmin := period * (1 - tolerance)
  let tmax := period * (1 + tolerance)
  decide (t < tmin ∨ t > tmax)

/-- The conversion in line 55, `(int)(reset_after / counter_period)`: `none` if it is undefined, that is for a quotient
outside the range of `int` and for a period of zero (infinity; NaN if `reset_after` is zero too). -/
def resetCounter [FloorRing K] (resetAfter counterPeriod : K) : Option Int :=
  if counterPeriod = 0 then none
  else
    let q := resetAfter / counterPeriod
    let k := if 0 ≤ q then ⌊q⌋ else -⌊-q⌋
    if -2147483648 ≤ k ∧ k ≤ 2147483647 then some k else none

end Verif.Core.PeriodicCounter
