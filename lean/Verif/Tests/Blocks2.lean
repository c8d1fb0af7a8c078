import Verif.Control.Algebra
import Verif.Control.Filters
import Verif.Control.Gain
import Verif.Control.Inputs
import Verif.Control.Switch
import Verif.Control.SignalChecker
import Verif.Control.Transition
import Verif.Control.WrapAround
import Verif.Control.VectorCmp
import Verif.Math.Matrix
import Mathlib.Data.Rat.Floor
import Mathlib.Data.List.Sort
import Mathlib.Data.Matrix.Mul
/-!
Further unit tests of the project for control blocks (/repo/test/control), replayed on the models: what the tests expect of the code the models do.
These are checks that the models fit the code, not proofs of properties; no claim refers to them.
-/
namespace Verif.Tests.Blocks2
open Verif.Control

/-! ### test/control/Gain.cpp -/
section Gain
open Gain

/-- The outputs of the runs. -/
def outs (s : St ℚ) : List (Op ℚ) → List ℚ
  | [] => []
  | op :: ops => (step s op).2.toList ++ outs (step s op).1 ops
def times (n : Nat) (x : ℚ) : List (Op ℚ) := List.replicate n (.run x)
/-- Without limits (the largest double). -/
def free (c : ℚ) : St ℚ := new c (10 ^ 308) (-10 ^ 308)

/-- 28-48: `simpleDoubleGain`. -/
example : outs (free (25/10)) [.run (13/10), .enable false, .setGain 4, .run (13/10), .enable true, .run (13/10)] = [325/100, 13/10, 52/10] := by decide +kernel
/-- 51-71: `simpleIntGain`. -/
example : outs (free 2) [.run 1, .enable false, .setGain 4, .run 1, .enable true, .run 1] = [2, 1, 4] := by decide +kernel
/-- 74-105: `smoothChangingDoubleGain`. -/
example : outs (free 1) ([.setGain (18/10)] ++ times 1 (31/10) ++ [.smooth true] ++ times 2 (31/10) ++ [.setGain (15/10)] ++ times 3 (31/10) ++ [.setDiff (5/10)] ++ times 1 (31/10)) =
    [558/100, 558/100, 558/100, 558/100, 558/100, 558/100, 465/100] := by decide +kernel
/-- 108-138: `smoothChangingIntGain`. -/
example : outs (free 1) ([.setGain 3] ++ times 1 3 ++ [.smooth true] ++ times 2 3 ++ [.setGain 1] ++ times 3 3 ++ [.setDiff 1] ++ times 1 3) = [9, 9, 9, 9, 9, 9, 6] := by decide +kernel
/-- 141-173: `smoothChangingDoubleGainRealWorldTest`. -/
example : let o := outs (free (56/10)) ([.smooth true, .setGain (15/10), .setDiff (1/100)] ++ times 3 (14/10) ++ [.setGain (55/10)] ++ times 8 (14/10) ++ [.setGain (56/10)] ++ times 11 (14/10))
    (o[2]?, o[9]?, o[10]?, o[20]?, o[21]?) = (some (7798/1000), some (77/10), some (77/10), some (784/100), some (784/100)) := by decide +kernel
/-- 176-203: `minMaxDoubleGain`. -/
example : outs (free (25/10)) [.setMax 1000, .setGain 10000, .run (13/10), .setMin (-1000), .setGain (-10000), .run (13/10), .setMax 100000, .setGain 10000, .run (13/10),
    .setMin (-100000), .setGain (-10000), .run (13/10)] = [325/100, 325/100, 13000, -13000] := by decide +kernel
/-- 206-233: `minMaxIntGain`. -/
example : outs (free 3) [.setMax 1000, .setGain 10000, .run 1, .setMin (-1000), .setGain (-10000), .run 1, .setMax 100000, .setGain 10000, .run 1,
    .setMin (-100000), .setGain (-10000), .run 1] = [3, 3, 10000, -10000] := by decide +kernel
/-- 236-263: `smoothChangingDoubleGainMinMaxLimits`. -/
example : let o := outs (free (85/10)) ([.smooth true, .setGain 1, .setDiff (1/10), .setMin 8] ++ times 10 (52/10) ++ [.setGain 10, .setDiff (1/10), .setMax (85/10)] ++ times 10 (52/10))
    (o[9]?, o[19]?) = (some (416/10), some (442/10)) := by decide +kernel

open VectorCmp in
/-- 350-420: `smoothChangingMatrixGainRealWorldTest`: the gains (the elements in the order of the initialiser, `setGain` without limits). -/
example : gains (fun _ => -1000) (fun _ => 1000) ![2, 3, 4, 5, 6, 7, 11, 10, 9] (fun _ => 1/10) 3 ![(1 : ℚ), 2, 3, 4, 5, 6, 10, 9, 8] = ![13/10, 23/10, 33/10, 43/10, 53/10, 63/10, 103/10, 93/10, 83/10] ∧
    gains (fun _ => -1000) (fun _ => 1000) ![2, 3, 4, 5, 6, 7, 11, 10, 9] (fun _ => 1/10) 11 ![(1 : ℚ), 2, 3, 4, 5, 6, 10, 9, 8] = ![2, 3, 4, 5, 6, 7, 11, 10, 9] ∧
    gains (fun _ => -1000) (fun _ => 1000) ![1, 2, 3, 4, 5, 6, 10, 9, 8] (fun _ => 1/10) 11 ![(2 : ℚ), 3, 4, 5, 6, 7, 11, 10, 9] = ![1, 2, 3, 4, 5, 6, 10, 9, 8] := by decide +kernel
open VectorCmp in
/-- 423-455: `smoothChangingMatrixGainMinMaxLimits`. -/
example : gains (fun _ => -1000) ![2, 3, 4, 5] (fun _ => 100) (fun _ => 1/2) 10 ![(1 : ℚ), 2, 3, 4] = ![2, 3, 4, 5] ∧
    gains ![-2, -1, 0, 1] ![2, 3, 4, 5] (fun _ => -100) (fun _ => 1/2) 10 ![(2 : ℚ), 3, 4, 5] = ![-2, -1, 0, 1] := by decide +kernel

/-- 458-497: `parabolicDouble`. -/
example : parabolic 5 2 1 = 5 ∧ parabolic 5 2 (-1) = -5 ∧ parabolic 5 2 0 = 0 ∧ parabolic 5 2 2 = 10 := by
  norm_num [parabolic, abs_of_pos, abs_of_neg]
example : parabolic 5 2 5 = 20 ∧ parabolic 5 2 (-5) = -20 ∧ parabolic (-5) 2 1 = -5 ∧ parabolic (-5) 2 (-1) = 5 ∧ parabolic (-5) 2 5 = -20 ∧ parabolic (-5) 2 (-5) = 20 := by
  have h : Real.sqrt 16 = 4 := by rw [show (16 : ℝ) = 4 * 4 by norm_num, Real.sqrt_mul_self (by norm_num)]
  norm_num [parabolic, abs_of_pos, abs_of_neg, h]
end Gain

/-! ### test/control/MedianFilter.cpp -/
section Median
open Filters.Median

/-- The output of the enabled filter after the values `xs` and `x`. -/
def after (N : Nat) (xs : List ℚ) (x : ℚ) : Option ℚ := (run (exec (new N) (xs.map .run)) x).2
/-- The sorted window in a form that computes. -/
theorem out_eq (s : St ℚ) (x : ℚ) (h : s.enabled = true) : (run s x).2 = ((values (run s x).1).insertionSort (· ≤ ·))[s.N / 2]? := by
  show (if s.enabled then _ else _) = _
  rw [if_pos h, List.mergeSort_eq_insertionSort]
  rfl
/-- 26-52: `intMedianFilter`. -/
example : after 5 [2, 5, 1, 4] 3 = some 3 := by rw [after, out_eq _ _ (by decide +kernel)]; decide +kernel
/-- 55-77: `doubleMedianFilter1`. -/
example : after 51 [7.67,-71.15,81.36,-38.97,4.05,35.45,-50.42,-83.72,13.17,-77.11,-38.02,-30.35,
    -77.1,52.63,-25.39,-41.61,5.47,40.19,-30.31,23.45,55.34,-59.2,-82.25,95.06,62.63,34.6,-17.78,
    -90.11,41.06,-29.87,-24.69,-2.42,-94,56.52,-44.9,91.15,-63.42,8.89,92.44,-79.48,-51.74,63.32,
    -22.6,-62.83,74.55,-57.16,-57.91,-23.36,76.63,-65.12] (-84.94) = some (-24.69) := by rw [after, out_eq _ _ (by decide +kernel)]; decide +kernel
/-- 182-189, shortened: the disabled filter outputs its input and remembers it. -/
example : (step (exec (new 5 : St ℚ) [.disable, .run 9]) (.run 8)).2 = some (some 8) ∧
    (run (exec (new 5 : St ℚ) [.disable, .run 9, .run 8, .run 7, .run 6, .enable]) 1).2 = some 7 := by
  rw [out_eq _ 1 (by decide +kernel)]; decide +kernel
/-- 250-300: `vector2MedianFilter3`. -/
example : after 5 [1, 60, 37, 49332] 284 = some 60 ∧ after 5 [10, 99999, 1252, 5] 342 = some 342 := by
  rw [after, after, out_eq _ 284 (by decide +kernel), out_eq _ 342 (by decide +kernel)]; decide +kernel
/-- 303-322: `printMedianFilter`. -/
example : after 3 [2, 3] 1 = some 2 := by rw [after, out_eq _ _ (by decide +kernel)]; decide +kernel
end Median

/-! ### test/control/MovingAverageFilter.cpp -/
section MovingAverage
open Filters.MovingAverage

def maOuts (s : St ℚ) : List (Op ℚ) → List ℚ
  | [] => []
  | op :: ops => (step s op).2.toList ++ maOuts (step s op).1 ops
/-- 32-54: `doubleMAFilter`. -/
example : maOuts (new 2 fun _ => 1/2) [.run 2, .run 2, .run 2, .run 2, .run 2] = [1, 2, 2, 2, 2] := by decide +kernel
/-- 57-79: `enableDisable`. -/
example : maOuts (new 2 fun _ => 1/2) [.disable, .run 5, .run 5, .enable, .run 5, .run 5] = [5, 5, 5, 5] := by decide +kernel
/-- 82-114: `vectorMAFilter`, element by element. -/
example : [1, 2, 3].map (fun x => maOuts (new 4 fun k => (k + 1) / 10) [.run x, .run x, .run x, .run x]) =
    [[4/10, 7/10, 9/10, 1], [8/10, 14/10, 18/10, 2], [12/10, 21/10, 27/10, 3]] := by decide +kernel
end MovingAverage

/-! ### test/control/Sum.cpp, Mul.cpp, Mux.cpp, DeMux.cpp -/
section Algebra
open Algebra

/-- The value of the sum after negating inputs. -/
def sumOf {N : Nat} (neg : List Nat) (xs : Fin (N + 1) → ℚ) : Except Err ℚ := do
  let s ← neg.foldlM (fun s i => Algebra.Sum.negate s i) (Algebra.Sum.new (N + 1) : Algebra.Sum (N + 1) ℚ)
  let r ← s.run (fun i => some ⟨xs i, 3⟩)
  .ok r.2.val
/-- 54-75: `index`. -/
example : (getPort 2 2 matches .error .index) = true ∧ (getPort 2 1 matches .ok 1) = true ∧ (sumOf [0, 1, 2] ![10, 10] matches .error .index) = true ∧
    (sumOf [0, 1] ![10, 10] matches .ok _) = true := by decide +kernel
/-- 77-90: `int`. -/
example : (sumOf [] ![10, -325]).toOption = some (-315) ∧ (sumOf [0] ![10, -325]).toOption = some (-335) ∧ (sumOf [0, 1] ![10, -325]).toOption = some 315 := by decide +kernel
/-- 92-110: `double`. -/
example : (sumOf [] ![2.5, -3.5, 10.1]).toOption = some 9.1 ∧ (sumOf [0] ![2.5, -3.5, 10.1]).toOption = some 4.1 ∧ (sumOf [0, 1] ![2.5, -3.5, 10.1]).toOption = some 11.1 ∧
    (sumOf [0, 1, 2] ![2.5, -3.5, 10.1]).toOption = some (-9.1) := by decide +kernel
/-- 20-52: an unconnected input. -/
example : (match (Algebra.Sum.new 2 : Algebra.Sum 2 ℚ).run ![none, none] with | .error .notConnected => true | _ => false) = true := by decide +kernel
/-- Mul.cpp:54-80. -/
example : ((mulRun (some ⟨(10 : ℤ), 1⟩) (some ⟨(-325 : ℤ), 2⟩) : Except Err (Sig ℤ)).toOption = some ⟨-3250, 1⟩) ∧
    ((mulRun (some ⟨(1.3 : ℚ), 1⟩) (some ⟨(-0.5 : ℚ), 2⟩) : Except Err (Sig ℚ)).toOption = some ⟨-0.65, 1⟩) := by decide +kernel
/-- Mux.cpp:48-71, DeMux.cpp:48-69. -/
example : ((muxRun ![some (⟨1, 5⟩ : Sig ℚ), some ⟨2, 6⟩]).toOption.map fun s => (s.val 0, s.val 1, s.ts)) = some (1, 2, 5) ∧
    ((muxRun ![some (⟨(1.1, 1.2), 5⟩ : Sig (ℚ × ℚ)), some ⟨(2.1, 2.2), 6⟩]).toOption.map fun s => (s.val 0, s.val 1)) = some ((1.1, 1.2), (2.1, 2.2)) ∧
    ((demuxRun (some (⟨![1.1, 1.2], 5⟩ : Sig (Fin 2 → ℚ)))).toOption.map fun s => ((s 0).val, (s 1).val)) = some (1.1, 1.2) := by decide +kernel
end Algebra

/-! ### test/control/Switch.cpp -/
section Switch
open Switch

/-- 37-69: `combined`: the switches 1, 2 and 3. -/
def world (a b c : Nat) (cs : Nat → List Nat) : Combined.World := ⟨fun i => if i = 1 then a else if i = 2 then b else c, cs⟩
def shows (w : Option Combined.World) : Option (Nat × Nat × Nat) := w.map fun w => (w.pos 1, w.pos 2, w.pos 3)
def sw (i p : Nat) (w : Option Combined.World) : Option Combined.World := w.bind fun w => (Combined.switchTo 2 9 w i p).map (·.1)
def comb (i j : Nat) (w : Option Combined.World) : Option Combined.World := w.bind fun w => Combined.combine 2 9 w i j
example : let w1 := sw 1 1 (some (world 0 0 1 fun _ => []))
    let w2 := comb 1 2 w1
    let w3 := sw 1 0 w2
    let w4 := comb 1 3 w3
    let w5 := sw 1 1 w4
    let w6 := sw 2 0 w5
    let w7 := sw 1 0 w6
    [w1, w2, w3, w4, w5, w6, w7].map shows = [some (1, 0, 1), some (1, 1, 1), some (0, 0, 1), some (0, 0, 0), some (1, 1, 1), some (1, 0, 1), some (0, 0, 0)] := by decide +kernel

/-- 72-104: `switching`: output and current input after each run. -/
def ins (a b : ℚ) : Nat → Option (XVal ℚ) := fun i => if i = 0 then some (.fin a) else some (.fin b)
def traceS (s : St ℚ) : List (Op ℚ) → List (Res ℚ × Nat)
  | [] => []
  | .run i r :: ops => ((run 2 s i r).res, (run 2 s i r).st.cur) :: traceS (run 2 s i r).st ops
  | op :: ops => traceS (step 2 s op).1 ops
example : traceS (new 0) [.run (ins 1 2) true, .switchTo 1, .run (ins 1 2) true, .setCondition (3/2) (1/10) 0, .run (ins 1 2) true, .run (ins 1 1.55) true, .run (ins 1 2) true, .arm,
    .run (ins 1 2) true, .run (ins 1 1.55) true] =
    [(.out (.fin 1), 0), (.out (.fin 2), 1), (.out (.fin 2), 1), (.out (.fin 1.55), 1), (.out (.fin 2), 1), (.out (.fin 2), 1), (.out (.fin 1), 0)] := by decide +kernel
/-- 23-34: not connected. -/
example : (run 2 (new 0 : St ℚ) (fun _ => none) true).res = .notConnected := by decide +kernel
end Switch

/-! ### test/control/SignalChecker.cpp -/
section SignalChecker
open SignalChecker

/-- 38-81: `limitsDouble`; the runs trigger the event as the level of the safety system shows. -/
example : trace (new (0.5 : ℚ) 1 false) [.run (.fin 2) false, .register, .run (.fin 2) true, .run (.fin 2) true, .reset, .run (.fin 2) true, .setActiveLevel, .run (.fin 2) false, .setActiveLevel, .reset,
    .run (.fin 2) true, .reset, .run (.fin 0.7) true] = [false, false, true, false, false, true, false, false, false, false, true, false, false] := by decide +kernel
/-- 170-215: `offRangeDouble`. -/
example : trace (new (0.5 : ℚ) 1 true) [.run (.fin 0.8) false, .register, .run (.fin 0.8) true, .run (.fin 0.8) true, .reset, .run (.fin 0.8) true, .setActiveLevel, .run (.fin 0.8) false, .setActiveLevel,
    .reset, .run (.fin 0.8) true, .reset, .run (.fin 1.2) true] = [false, false, true, false, false, true, false, false, false, false, true, false, false] := by decide +kernel
/-- 125-168: `limitsMatrixNorm`, with the norms given in the comments of the test. -/
example : trace (new (0.5 : ℚ) 1 false) [.run (.fin 1.00003) false, .register, .run (.fin 1.00003) true, .reset, .run (.fin 1.000001) true, .reset, .run (.fin 0.999393) true, .run (.fin 0.433013) true] =
    [false, false, true, false, true, false, false, true] := by decide +kernel
/-- 257-289: `offRangeMatrixNorm`. -/
example : trace (new (0.5 : ℚ) 1 true) [.run (.fin 0.99) false, .register, .run (.fin 0.99) true, .reset, .run (.fin 1.00005) true, .run (.fin 0.5477) true] =
    [false, false, true, false, false, true] := by decide +kernel
open VectorCmp in
/-- 84-123: `limitsMatrix`, 217-255: `offRangeMatrix`; each time after a reset. -/
example : ([![2, 2], ![0.7, 2], ![-0.1, -0.99], ![-1.1, 3.2]].map fun v => (checker ![-1, -1] ![1, 1] false false (num (v : Fin 2 → ℚ))).2) = [true, true, false, true] ∧
    ([![-0.2, 0.5], ![0.7, 0.9], ![-2, -1.1], ![-0.9, 0]].map fun v => (checker ![-1, -1] ![1, 1] true false (num (v : Fin 2 → ℚ))).2) = [true, true, false, true] := by decide +kernel
end SignalChecker

/-! ### test/control/Transition.cpp -/
section Transition
open Transition

/-- 45-72: `simple`, the way up: 20 ms between two samples. -/
example : (exec (new (5 : ℚ) false) [.inp ⟨some 0, 1000000⟩, .inp ⟨some 1, 21000000⟩, .out 0, .out 0, .out 0, .out 0, .out 0, .out 0]).map (·.2) =
    some [⟨some 0, 1000000⟩, ⟨some 0.2, 5000000⟩, ⟨some 0.4, 9000000⟩, ⟨some 0.6, 13000000⟩, ⟨some 0.8, 17000000⟩, ⟨some 1, 21000000⟩] := by decide +kernel
/-- The way down: the time of the slow domain is 10 ms after the first sample.  (`1/5` in the test is an integer division.) -/
example : (exec (new (0 : ℚ) false) [.inp ⟨some 0.2, 5000000⟩, .inp ⟨some 0.4, 9000000⟩, .inp ⟨some 0.6, 13000000⟩, .inp ⟨some 0.8, 17000000⟩, .inp ⟨some 1, 21000000⟩, .out 11000000]).map (·.2) =
    some [⟨some 0.4, 9000000⟩] := by decide +kernel
/-- 104-130: `steady`. -/
example : (exec (new (5 : ℚ) true) [.inp ⟨some 0, 1000000⟩, .inp ⟨some 1, 6000000⟩, .out 0, .out 0, .out 0]).map (·.2) = some (List.replicate 3 ⟨some 1, 6000000⟩) ∧
    (exec (new (0 : ℚ) true) [.inp ⟨some 1, 6000000⟩, .inp ⟨some 1, 6000000⟩, .out 0]).map (·.2) = some [⟨some 1, 6000000⟩] := by decide +kernel
/-- 24-29: NaN before the first sample (the way up). -/
example : (exec (new (1 : ℚ) false) [.out 0]).map (fun r => r.2.map Sig.val) = some [none] := by decide +kernel
end Transition

/-! ### test/control/WrapAround.cpp -/
section WrapAround
open WrapAround

/-- 46-70: `run1`; 72-87: `run2`; 89-104: `run3`. -/
example : ([2, 4.5, 1, 1.5, 3.5].map (run (new (1.5 : ℚ) 3.5))) = [2, 2.5, 3, 1.5, 3.5] ∧ ([0, 1.5, -1.5].map (run (new (-1 : ℚ) 1))) = [0, -0.5, 0.5] ∧
    ([-0.9, -1.5, -2.1].map (run (new (-2 : ℚ) (-1)))) = [-1.9, -1.5, -1.1] := by decide +kernel
/-- 106-123: `run4`; 125-146: `run5`, element by element. -/
example : ([2, 3.1, -0.1].map (run (new (1 : ℚ) 3))) = [2, 1.1, 1.9] ∧ ([2, 3.1, 4, -0.1].map (run (new (1 : ℚ) 3))) = [2, 1.1, 2, 1.9] ∧
    ([2, 3.1, 4, -0.1].map (run (new (1.5 : ℚ) 3.5))) = [2, 3.1, 2, 1.9] := by decide +kernel
end WrapAround

end Verif.Tests.Blocks2
