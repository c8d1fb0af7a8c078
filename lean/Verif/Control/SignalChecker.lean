import Verif.Common.XVal
import Mathlib.Algebra.Order.Field.Basic
/-!
Model of `SignalChecker` (includes/eeros/control/SignalChecker.hpp).  The checked number is the scalar signal, or the norm of a vector
signal when `checkNorm` is set (174-192); limits are finite.
-/
namespace Verif.Control.SignalChecker
variable {K : Type} [LinearOrder K]

/-- 163-171. `registered`: safety system and event are set (145-149 sets both). -/
structure St (K : Type) where
  lower : K
  upper : K
  fired : Bool
  registered : Bool
  hasLevel : Bool
  offRange : Bool

/-- Constructor, 57-65. -/
def new (lower upper : K) (offRange : Bool) : St K := ⟨lower, upper, false, false, false, offRange⟩

/-- `withinLimits`, 184-192. -/
def within (s : St K) (v : XVal K) : Bool := XVal.lt (.fin s.lower) v && XVal.lt v (.fin s.upper)
/-- `limitsExceeded`, 174-182. -/
def exceeded (s : St K) (v : XVal K) : Bool := !(XVal.lt (.fin s.lower) v && XVal.lt v (.fin s.upper))

/-- `run`, 83-114; the second component tells whether the event is triggered.  `reached`: current level >= active level. -/
def run (s : St K) (v : XVal K) (reached : Bool) : St K × Bool :=
  if !s.fired then
    if s.offRange then
      if within s v then
        if s.registered then
          if !s.hasLevel || (s.hasLevel && reached) then ({ s with fired := true }, true) else (s, false)
        else (s, false)
      else (s, false)
    else
      if exceeded s v then
        if s.registered then
          if !s.hasLevel || (s.hasLevel && reached) then ({ s with fired := true }, true) else (s, false)
        else (s, false)
      else (s, false)
  else (s, false)

inductive Op (K : Type) where
  | run (v : XVal K) (reached : Bool)
  | setLimits (lower upper : K)
  | reset
  | register
  | setActiveLevel

/-- 123-160. -/
def step (s : St K) : Op K → St K × Bool
  | .run v r => run s v r
  | .setLimits l u => ({ s with lower := l, upper := u }, false)
  | .reset => ({ s with fired := false }, false)
  | .register => ({ s with registered := true }, false)
  | .setActiveLevel => ({ s with hasLevel := true }, false)

/-- Which calls triggered the event, in order. -/
def trace : St K → List (Op K) → List Bool
  | _, [] => []
  | s, op :: ops => (step s op).2 :: trace (step s op).1 ops

def exec (s : St K) (ops : List (Op K)) : St K := ops.foldl (fun s op => (step s op).1) s

end Verif.Control.SignalChecker
