import Mathlib.Algebra.Order.Field.Basic
/-!
Model of the source blocks `Step` (`includes/eeros/control/Step.hpp` 42-101) and `Constant`
(`includes/eeros/control/Constant.hpp` 30-63).
-/
namespace Verif.Control.Sources
variable {K : Type} [Field K] [LinearOrder K]

/-- Members of `Step` (110-115) and its output signal.  `out` is NaN before the first run (`none`). -/
structure StepSt (K : Type) where
  initValue : K
  stepHeight : K
  delayTime : K
  time : K
  stepDone : Bool
  first : Bool
  out : Option K

/-- Constructor (42-44): `time` is uninitialised, it is not read before it is set. -/
def mkStep (initValue stepHeight delayTime garbage : K) : StepSt K :=
  ⟨initValue, stepHeight, delayTime, garbage, false, true, none⟩

/-- `run` (54-65).  `t₁`, `t₂` are the results of the two calls of `System::getTime()`. -/
def StepSt.run (s : StepSt K) (t₁ t₂ : K) : StepSt K :=
  let s := if s.first then { s with time := s.delayTime + t₁, out := some s.initValue, first := false } else s
  if !s.stepDone && decide (s.time ≤ t₂) then
    { s with out := some (s.initValue + s.stepHeight), stepDone := true }
  else s

/-- `reset` (71-74). -/
def StepSt.reset (s : StepSt K) : StepSt K := { s with stepDone := false, first := true }

/-- A sequence of runs. -/
def StepSt.runs (s : StepSt K) : List (K × K) → StepSt K
  | [] => s
  | (t₁, t₂) :: ts => (s.run t₁ t₂).runs ts

/-- Members of `Constant` and its output signal. -/
structure ConstSt (V : Type) where
  value : V
  out : V

inductive ConstOp (V : Type) where
  | set (v : V)     -- 60-63
  | run             -- 49-53

def ConstSt.step {V : Type} (s : ConstSt V) : ConstOp V → ConstSt V
  | .set v => { s with value := v }
  | .run => { s with out := s.value }

end Verif.Control.Sources
