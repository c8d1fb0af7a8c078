import Verif.Control.Differentiator
import Verif.Control.Integrator
import Verif.Control.Delay
import Verif.Control.Filters
import Verif.Control.Saturation
import Verif.Control.Sources
import Verif.Control.VectorCmp
import Mathlib.Data.Rat.Floor
/-!
The unit tests of the project for control blocks (/repo/test/control), replayed on the models: what the tests expect of the code the models do.
These are checks that the models fit the code, not proofs of properties; no claim refers to them.  Where a test waits or reads the clock, the
time stamps are chosen as the test intends.
-/
namespace Verif.Tests.Blocks
open Verif.Control

/-! ### test/control/D.cpp -/
section D
open Differentiator

/-- 64-88: `running1`, with 1 ms between the first runs and 20 ms before the step. -/
example : ((List.range 7).map fun k => (runs (new : St ℚ) ([⟨1, 1000000⟩, ⟨1, 2000000⟩, ⟨1, 3000000⟩, ⟨0, 23000000⟩, ⟨0, 23000000⟩, ⟨0, 24000000⟩].take k)).valOut).tail =
    [0, 0, 0, -50, -50, 0] := by decide +kernel
/-- 77, 81, 84: the time stamp, 10 ms after the one before. -/
example : (runs (new : St ℚ) [⟨1, 1000000⟩, ⟨1, 2000000⟩, ⟨1, 3000000⟩]).timeOut = 2500000 ∧
    (runs (new : St ℚ) [⟨1, 1000000⟩, ⟨1, 2000000⟩, ⟨1, 3000000⟩, ⟨0, 23000000⟩]).timeOut = 2500000 + 10500000 ∧
    (runs (new : St ℚ) [⟨1, 1000000⟩, ⟨1, 2000000⟩, ⟨1, 3000000⟩, ⟨0, 23000000⟩, ⟨0, 23000000⟩]).timeOut = 2500000 + 10500000 := by decide +kernel
/-- 69: the first time stamp is that of the input. -/
example : (run (new : St ℚ) ⟨1, 1234⟩).timeOut = 1234 := by decide +kernel
end D

/-! ### test/control/I.cpp -/
section I
open Integrator

/-- 65-85: `running`.  The input is NaN in the first two runs. -/
example : (exec (new (1000 : ℚ)) [.run none 0 true]).out = none ∧ (exec (new (1000 : ℚ)) [.run none 0 true, .run none 0 true]).out = none ∧
    (exec (new (1000 : ℚ)) [.run none 0 true, .run none 0 true, .run (some 1) 5 true]).out = none ∧
    (exec (new (1000 : ℚ)) [.run none 0 true, .run none 0 true, .run (some 1) 5 true, .run (some 1) 5 true, .setInit (5/2), .run (some 1) 5 true]).out = some (5/2) := by
  decide +kernel
/-- 109-121: `limit`, with 1 ms between the runs: within 0.15 of 5.6, then of -3.2. -/
def ramp (x : ℚ) (t0 : Nat) : List (Op ℚ) := (List.range 100).map fun k => .run (some x) (t0 + 1000000 * k) true
example : (exec (new (1000 : ℚ)) ([.enable, .setInit (-1/5), .setLimit (56/10) (-32/10)] ++ ramp 100 5)).out = some (55/10) ∧
    (exec (new (1000 : ℚ)) ([.enable, .setInit (-1/5), .setLimit (56/10) (-32/10)] ++ ramp 100 5 ++ ramp (-100) 100000005)).out = some (-31/10) := by
  decide +kernel
/-- 138-147: `defaultLimit`, with 10 ms between the runs. -/
example : (exec (new (1000 : ℚ)) ([.enable, .setInit (-1/5)] ++ (List.range 10).map fun k => .run (some 10) (7 + 10000000 * k) true)).out = some (7/10) ∧
    (exec (new (1000 : ℚ)) ([.enable, .setInit (-1/5)] ++ ((List.range 10).map fun k => .run (some 10) (7 + 10000000 * k) true) ++
      (List.range 10).map fun k => .run (some (-10)) (100000007 + 10000000 * k) true)).out = some (-3/10) := by decide +kernel

open VectorCmp in
/-- 123-135: `limit` of two elements: the first stops below its limit, since the second has reached its own. -/
example : integrates ![-32/10, -32/10] ![56/10, 53/10] (num ![(-1/2 : ℚ), 1/2]) ((num ![100, 100], 0) :: List.replicate 99 (num ![100, 100], 1/1000)) =
      num ![(42/10 : ℚ), 52/10] ∧
    integrates ![-32/10, -32/10] ![56/10, 53/10] (num ![(-1/2 : ℚ), 1/2]) (List.replicate 100 (num ![-100, -100], 1/1000)) =
      num ![(-31/10 : ℚ), -21/10] := by decide +kernel
open VectorCmp in
/-- 149-161: `defaultLimit` of two elements. -/
example : integrates ![-1000, -1000] ![1000, 1000] (num ![(-1/2 : ℚ), 1/2]) ((num ![10, 10], 0) :: List.replicate 9 (num ![10, 10], 1/100)) = num ![(4/10 : ℚ), 14/10] ∧
    integrates ![-1000, -1000] ![1000, 1000] (num ![(-1/2 : ℚ), 1/2]) (List.replicate 10 (num ![-10, -10], 1/100)) = num ![(-15/10 : ℚ), -5/10] := by decide +kernel
end I

/-! ### test/control/Delay.cpp -/
section Delay
open Delay

/-- 26-33: a delay shorter than the sampling time is refused. -/
example : (new (S := ℚ) (3/2 : ℚ) 5 matches .fault) = true := by decide +kernel
/-- 36-59 (the values) and 62-95 with two elements. -/
example : (match new (S := ℚ) (3/2 : ℚ) (1/2) with | .ok s => (runs s [2/10, 2/10, 2/10, 2/10, -3/10, -3/10, -3/10]).map (·.2) | _ => none) =
    some [none, none, some (2/10), some (2/10), some (2/10), some (2/10), some (-3/10)] := by decide +kernel
example : (match new (S := ℚ × ℚ) (3/2 : ℚ) (1/2) with
      | .ok s => (runs s [(10, 20), (10, 20), (10, 20), (10, 20), (56/10, -23), (56/10, -23), (56/10, -23)]).map (·.2) | _ => none) =
    some [none, none, some (10, 20), some (10, 20), some (10, 20), some (10, 20), some (56/10, -23)] := by decide +kernel
end Delay

/-! ### test/control/LowPassFilter.cpp -/
section LowPass
open Filters.LowPass

/-- 31-49: `doubleLPFilter`. -/
example : outs (new (1/2 : ℚ)) [.run 2, .run 2, .run 3, .run 3, .run 3] = [some 2, some 2, some (5/2), some (11/4), some (2875/1000)] := by decide +kernel
/-- 52-70: `enableDisable`. -/
example : outs (new (1/2 : ℚ)) [.disable, .run 5, .run 10, .enable, .run 10, .run 10] = [some 5, some 10, some 10, some 10] := by decide +kernel
/-- 73-95: `vectorLPFilter`, element by element. -/
example : [1, 2, 3].map (fun x => outs (new (1/2 : ℚ)) [.run x, .run (x + 1), .run (x + 1)]) =
    [[some 1, some (15/10), some (175/100)], [some 2, some (25/10), some (275/100)], [some 3, some (35/10), some (375/100)]] := by decide +kernel
end LowPass

/-! ### test/control/Saturation.cpp -/
section Saturation
open Saturation

/-- A number. -/
def q (x : ℚ) : XVal ℚ := .fin x
/-- 42-80: `double`. -/
example : run (new (q 0) (q 0)) (q 1) = q 0 := by decide +kernel
example : run (step (new (q 0) (q 0)) .disable) (q 1) = q 1 := by decide +kernel
example : run (newSym XVal.neg (q (1/2))) (q 1) = q (1/2) := by decide +kernel
example : run (step (newSym XVal.neg (q (1/2))) .disable) (q 1) = q 1 := by decide +kernel
example : run (step (newSym XVal.neg (q (1/2))) .disable) (q (-1)) = q (-1) := by decide +kernel
example : run (step (step (newSym XVal.neg (q (1/2))) .disable) .enable) (q (-1)) = q (-1/2) := by decide +kernel
example : run (new (q (-2/10)) (q (3/10))) (q 1) = q (3/10) := by decide +kernel
example : run (step (new (q (-2/10)) (q (3/10))) .disable) (q 1) = q 1 := by decide +kernel
example : run (step (new (q (-2/10)) (q (3/10))) .disable) (q (-1)) = q (-1) := by decide +kernel
example : run (step (step (new (q (-2/10)) (q (3/10))) .disable) .enable) (q (-1)) = q (-2/10) := by decide +kernel
/-- 83-90: `vector`. -/
example : runVec (new ![q (-5/10), q (-8/10)] ![q (11/10), q (5/10)]) ![q 1, q (-25/10)] = ![q 1, q (-8/10)] := by decide +kernel
end Saturation

/-! ### test/control/Step.cpp -/
section Step
open Sources

/-- 58-67: `run`; the clock shows 3 s at the beginning and 100 ms later more than that. -/
example : (StepSt.run (mkStep (1/2 : ℚ) 1 (1/10) 77) 3 3).out = some (1/2) ∧
    (StepSt.runs (mkStep (1/2 : ℚ) 1 (1/10) 77) [(3, 3), (3, 3 + 1/1000)]).out = some (1/2) ∧
    (StepSt.runs (mkStep (1/2 : ℚ) 1 (1/10) 77) [(3, 3), (3, 3 + 1/1000), (3, 3 + 102/1000)]).out = some (15/10) := by decide +kernel
end Step

end Verif.Tests.Blocks
