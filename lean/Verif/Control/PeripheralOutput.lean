import Verif.Common.XVal
import Verif.Control.TimeDomain
/-!
Model of `includes/eeros/control/PeripheralOutput.hpp` (run 46-58) for `T = double`.

The hardware object is the list of values passed to `systemOutput->set`, newest last.  Time stamps and
the lock are not modelled (`run` holds the lock throughout).  `safe` is the public member of
`hal::Output<T>` (Output.hpp 28), which `JsonParser` sets to NaN unless the channel has a key `safe`
(JsonParser.cpp 47, 141, 184-186, 405).
-/
namespace Verif.Control.PeripheralOutput
open TimeDomain (Outcome)

/-- The block and its hardware output. -/
structure St (K : Type) where
  /-- `val`, readable with `getValue` (65-68); unset (arbitrary) before the first run -/
  val : XVal K
  /-- `systemOutput->safe` -/
  safe : XVal K
  /-- values written to the hardware -/
  written : List (XVal K) := []
deriving Repr

/-- `std::isnan(val) || std::isinf(val)`, line 50. -/
def bad {K : Type} : XVal K → Bool
  | .fin _ => false
  | _ => true

/-- `run`, 46-58.  The input is `none` when it is not connected: `getSignal()` throws
`NotConnectedFault` before anything else happens (line 48). -/
def run {K : Type} (s : St K) (input : Option (XVal K)) : St K × Outcome :=
  match input with
  | none => (s, .notConnected)
  | some v =>
    let isSafe := bad v
    let val := if isSafe then s.safe else v
    ({ s with val := val, written := s.written ++ [val] }, if isSafe then .nanOutput else .ok)

/-- Cycles of one block: each element is the value at the input. -/
def runs {K : Type} (s : St K) : List (Option (XVal K)) → St K
  | [] => s
  | i :: is => runs (run s i).1 is

/-- One cycle of a time domain (TimeDomain.cpp 28) whose blocks are peripheral outputs: blocks after
the first exception are not run and keep their state. -/
def cycle {K : Type} : List (St K × Option (XVal K)) → List (St K)
  | [] => []
  | (s, i) :: bs =>
    match run s i with
    | (s', .ok) => s' :: cycle bs
    | (s', _) => s' :: bs.map (·.1)

end Verif.Control.PeripheralOutput
