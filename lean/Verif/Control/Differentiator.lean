import Mathlib.Algebra.Order.Field.Basic
/-!
Model of the differentiator `D` (includes/eeros/control/D.hpp) with exact arithmetic.  Time stamps are unbounded; the sum of two
`uint64_t` time stamps in line 52 does not overflow for stamps below 2^63 ns (292 years).
-/
namespace Verif.Control.Differentiator
variable {K : Type} [Field K] [LinearOrder K]

structure Sample (K : Type) where
  val : K
  ts : Nat

/-- 68-72.  Before the first run `valOut` and `timeOut` are uninitialised and `prev` is a signal that was never written; neither is
read (42 copies `prev` into unused locals): `none`. -/
structure St (K : Type) where
  prev : Option (Sample K)
  valOut : K
  timeOut : Nat

def new : St K := { prev := none, valOut := 0, timeOut := 0 }

/-- `run`, 37-59; `prev = none` is `first = true`.  The published signal is `(valOut, timeOut)` of the new state. -/
def run (s : St K) (sig : Sample K) : St K :=
  match s.prev with
  | none => { prev := some sig, valOut := 0, timeOut := sig.ts }
  | some p =>
    let tin : K := (sig.ts : K) / 1000000000
    let tprev : K := (p.ts : K) / 1000000000
    if tin ≠ tprev then
      { prev := some sig, valOut := (sig.val - p.val) / (tin - tprev), timeOut := (sig.ts + p.ts) / 2 }
    else { s with prev := some sig }

def runs (s : St K) (xs : List (Sample K)) : St K := xs.foldl run s

end Verif.Control.Differentiator
