/-
Model of `control::PathPlannerCubic` (`/repo/includes/eeros/control/PathPlannerCubic.hpp`), in exact arithmetic over an
ordered field.  `init` takes the rows; how they are read from the file (55-90, `file >> string`) is in `CubicFile.lean`.  Time stamps are left out.
The mutex is held by `run` and by the assignment of the scaled table (98, 299), so a history is a sequence of calls; that `finished` and
the unscaled table are written without the mutex (167, 184-196) is not modelled.
-/
import Mathlib.Algebra.Order.Field.Basic
import Mathlib.Algebra.Order.Floor.Ring

namespace Verif.Planner.Cubic
variable {K : Type} [Field K] [LinearOrder K]

/-- One line of the table (64-88): duration, and jerk, acceleration, velocity and position at its beginning. -/
structure Row (K : Type) where
  time : K
  jerk : K
  acc : K
  vel : K
  pos : K
deriving DecidableEq

/-- Values of the four outputs. -/
structure Y (K : Type) where
  jerk : K
  acc : K
  vel : K
  pos : K
deriving DecidableEq

/-- The members 308-314.  `t` and `prevJerk` are not initialised by the constructor (37-43): `none`.  `out` are the values of the outputs,
`none` (NaN) before the first `run`. -/
structure St (K : Type) where
  dt : K
  finished : Bool
  interval : K
  t : Option K
  index : Nat
  first : Bool
  prevJerk : Option K
  prevAcc : K
  prevVel : K
  prevPos : K
  raw : List (Row K)
  coef : List (Row K)
  out : Option (Y K)

/-- Constructor (37-43). -/
def new (dt : K) : St K :=
  { dt := dt, finished := true, interval := -dt, t := none, index := 0, first := true
    prevJerk := none, prevAcc := 0, prevVel := 0, prevPos := 0, raw := [], coef := [], out := none }

/-- `init` (55-90) with a readable file: `clear` (244-255), then the rows. -/
def init (s : St K) (rows : List (Row K)) : St K := { s with raw := rows, coef := [] }

/-- 130-139. -/
def write (s : St K) (t : K) (y : Y K) : St K :=
  { s with t := some (t + s.dt), prevPos := y.pos, prevVel := y.vel, prevAcc := y.acc, prevJerk := some y.jerk, out := some y }

/-- `run` (95-146); `none`: an uninitialised member is read.  In the idle branch the uninitialised `prevJerk` is only copied by the code (128); its
value 0 here stands for any. -/
def run (s : St K) : Option (St K) :=
  if s.finished = false ∧ 0 < s.coef.length ∧ s.index < s.coef.length then
    match s.t, s.coef[s.index]? with
    | some t, some row =>
      if t ≤ s.interval + s.dt / 2 then
        some (write s t
          { jerk := row.jerk
            acc := s.prevAcc + row.jerk * s.dt
            vel := s.prevVel + s.prevAcc * s.dt + row.jerk / 2 * s.dt * s.dt
            pos := s.prevPos + s.prevVel * s.dt + s.prevAcc / 2 * s.dt * s.dt + row.jerk / 6 * s.dt * s.dt * s.dt })
      else if s.first then
        match s.coef[0]? with
        | some r => some (write { s with index := 0, interval := r.time, first := false } t ⟨r.jerk, r.acc, r.vel, r.pos⟩)
        | none => none
      else if s.index + 1 = s.coef.length then some { s with index := s.index + 1, finished := true }
      else match s.coef[s.index + 1]? with
        | some r => some (write { s with index := s.index + 1, interval := s.interval + r.time } t ⟨r.jerk, r.acc, r.vel, r.pos⟩)
        | none => none
    | _, _ => none
  else
    some (write { s with index := 0, interval := -s.dt, first := true } 0 ⟨s.prevJerk.getD 0, s.prevAcc, s.prevVel, s.prevPos⟩)

/-- `move(startPos)` (181-198): `none` if it throws `Fault`. -/
def moveRaw (s : St K) (startPos : K) : Option (St K × Bool) :=
  if !s.finished then some (s, false)
  else if s.raw.length = 0 then none
  else some ({ s with coef := s.raw.map (fun r => { r with pos := r.pos + startPos }), finished := false }, true)

/-- The C function `round`: to the nearest integer, halves away from zero. -/
def cround [FloorRing K] (x : K) : K := if 0 ≤ x then (⌊x + 1 / 2⌋ : K) else -(⌊-x + 1 / 2⌋ : K)

/-- The loop 288-297: the rows from the second on, given the time and jerk of all of them and the state at the beginning. -/
def integrate : List (K × K) → K → K → K → List (Row K)
  | [], _, _, _ => []
  | (t, j) :: rest, a, v, p =>
    { time := t, jerk := j, acc := a, vel := v, pos := p } ::
      integrate rest (a + j * t) (v + a * t + j * t * t / 2) (p + v * t + a * t * t / 2 + j * t * t * t / 6)

/-- `scalePath` (257-305).  A division by zero (total time or last position zero) gives 0 here and infinity or NaN in the code. -/
def scalePath [FloorRing K] (dt time deltaPos : K) (raw : List (Row K)) : List (Row K) :=
  let timeTotal := (raw.map Row.time).sum
  let timeScale := time / timeTotal
  let timeRounded := raw.map (fun r => cround (r.time * timeScale / dt) * dt)
  let timeTotalRounded := timeRounded.sum
  let timeScale := timeTotalRounded / timeTotal
  let posScale := deltaPos / (match raw.getLast? with | some r => r.pos | none => 0)
  let jerkRounded := raw.map (fun r => r.jerk * posScale / (timeScale * timeScale * timeScale))
  integrate (timeRounded.zip jerkRounded) 0 0 0

/-- `move(time, startPos, deltaPos)` (160-169): `none` if it throws `Fault`. -/
def moveScaled [FloorRing K] (s : St K) (time startPos deltaPos : K) : Option (St K × Bool) :=
  if !s.finished then some (s, false)
  else if s.raw.length = 0 then none
  else some ({ s with coef := (scalePath s.dt time deltaPos s.raw).map (fun r => { r with pos := r.pos + startPos }),
                      finished := false }, true)

/-- `reset` (211-213). -/
def reset (s : St K) : St K := { s with finished := true }

/-- `k` calls of `run`. -/
def runs : Nat → St K → Option (St K)
  | 0, s => some s
  | k + 1, s => (runs k s).bind run

end Verif.Planner.Cubic
