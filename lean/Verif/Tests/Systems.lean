import Verif.Core.RingBuffer
import Verif.Safety.Model
import Verif.Planner.Cubic
import Verif.Config.Config
import Mathlib.Data.Rat.Floor
/-!
Unit tests of the project for the safety system, the ring buffer, the cubic path planner and configuration files (/repo/test), replayed on the models: what the
tests expect of the code the models do.  These are checks that the models fit the code, not proofs of properties; no claim refers to them.
-/
namespace Verif.Tests.Systems

/-! ### test/core/RingBufferTest.cpp -/
section RingBuffer
open Core.RingBuffer

/-- 68-102: the calls (the length is asked after each) and their results. -/
def calls : List (Op Nat) := [.length, .push 0, .length, .push 1, .length, .push 2, .length, .push 3, .length, .pop, .length, .pop, .length, .pop, .length, .push 4, .length, .push 5, .length,
  .push 6, .length, .push 7, .pop, .length, .pop, .length, .pop, .length, .pop, .length, .pop]
def results : List (Res Nat) := [.length 0, .pushed true, .length 1, .pushed true, .length 2, .pushed true, .length 3, .pushed true, .length 4, .popped 0, .length 3, .popped 1, .length 2,
  .popped 2, .length 1, .pushed true, .length 2, .pushed true, .length 3, .pushed true, .length 4, .pushed false, .popped 3, .length 3, .popped 4, .length 2, .popped 5, .length 1, .popped 6,
  .length 0, .empty]
example : exec 4 init calls = results := by decide +kernel
end RingBuffer

/-! ### test/safety/LevelTest.cpp -/
section Safety
open Safety

/-- Levels without actions. -/
def none' : Properties Bool := { lvl := fun _ => { id := -1 } }
/-- 9-34: the levels 1 to 5, the events 1 to 4. -/
def test1 : Properties Bool :=
  let p := [1, 2, 3, 4, 5].foldl Properties.addLevel none'
  let p := p.addEventToLevel 1 1 2 .pub
  let p := p.addEventToLevel 1 2 4 .pub
  let p := p.addEventToLevel 1 4 5 .pub
  let p := p.addEventToLevel 2 1 3 .pub
  let p := p.addEventToLevelAndAbove 3 3 1 .pub
  let p := p.addEventToAllLevelsBetween 4 5 1 2 .pub
  { p with entryLevel := some 1 }
/-- The environment of a run: nothing but what the level action triggers. -/
def quiet (act : List Trig) : Env Bool := { read := fun _ => false, act := act, beforeIn := fun _ => [], beforeOut := fun _ => [] }
/-- The level after `triggerEvent(e); run()` for each event. -/
def levelsAfter (p : Properties Bool) (s : Sys) : List EventId → List (Option LevelRef)
  | [] => []
  | e :: es => match exec p s [.trigger e, .run (quiet [])] with
    | .ok r => r.1.cur :: levelsAfter p r.1 es
    | .error _ => [none]
def start (p : Properties Bool) : Sys := match construct p (fun _ => 0) with
  | .ok s => s
  | .error _ => ⟨none, none, fun _ => 0⟩
/-- 38-42: `order`. -/
example : (test1.lvl 1).id < (test1.lvl 2).id ∧ (test1.lvl 5).id ≥ (test1.lvl 2).id := by decide +kernel
/-- 45-88: `trigger`. -/
example : (start test1).cur = some 1 ∧ levelsAfter test1 (start test1) [1, 3, 2, 1, 1, 3, 2, 3, 4, 3, 2, 1] =
    [2, 2, 2, 3, 3, 1, 4, 1, 5, 1, 4, 2].map some := by decide +kernel

/-- The class `ScaraSafetyProperties`.
  The levels are numbered in the order of `addLevel`: off 0, notinit_emergency 1, notinit_waitingForApproval 2, notinit_systemOn 3, manualParking3 4, manualParking2 5, manualParking1 6, manualParking0 7, robotParked 8, homing3 9, homing2 10, homing1 11, homing0 12, robotHomed 13, emergency 14, resetEmergency 15, waitingForApproval 16, systemOn 17, powerOn 18, goingToReady 19, ready 20, set_moving 21, moving 22, set_moving_joystick 23, moving_joystick 24, set_autoParking 25, autoParking_shutdown3 26, autoParking_shutdown2 27, autoParking_shutdown1 28, autoParking_shutdown0 29;
the events in the order of their first use: notinit_goToWaitingForApproval 0, ev1 1, approvalIsOn 2, doManualParking 3, doOff 4, ev2 5, manualParkingDone3 6, manualParkingDone2 7, manualParkingDone1 8, manualParkingDone0 9, doHoming 10, homingDone3 11, homingDone2 12, homingDone1 13, homingDone0 14, doSystemOn 15, doResetEmergency 16, resetEmergencyDone 17, doPowerUp 18, doPowerDown 19, goToReady 20, isReady 21, doSetMoving_joystick 22, doSetMoving 23, doAutoParking_shutdown 24, doStartMoving 25, doStopMoving 26, doStartMoving_joystick 27, doStopMoving_joystick 28, doStartAutoParking 29, autoParking_shutdownDone3 30, autoParking_shutdownDone2 31, autoParking_shutdownDone1 32, autoParking_shutdownDone0 33, doEmergency 34. -/
def scara : Properties Bool :=
  let p := (List.range 30).foldl Properties.addLevel none'
  let p := p.addEventToLevel 0 0 2 .pub
  let p := p.addEventToLevel 0 1 9 .pub
  let p := p.addEventToLevel 2 2 3 .pub
  let p := p.addEventToLevel 3 3 4 .pub
  let p := p.addEventToLevel 1 4 0 .priv
  let p := p.addEventToLevel 1 5 22 .pub
  let p := p.addEventToLevel 4 6 5 .priv
  let p := p.addEventToLevel 5 7 6 .priv
  let p := p.addEventToLevel 6 8 7 .priv
  let p := p.addEventToLevel 7 9 8 .priv
  let p := p.addEventToLevel 8 10 9 .pub
  let p := p.addEventToLevel 9 11 10 .priv
  let p := p.addEventToLevel 10 12 11 .priv
  let p := p.addEventToLevel 11 13 12 .priv
  let p := p.addEventToLevel 12 14 13 .priv
  let p := p.addEventToLevel 13 15 17 .pub
  let p := p.addEventToLevel 14 16 15 .pub
  let p := p.addEventToLevel 15 17 16 .priv
  let p := p.addEventToLevel 16 2 17 .pub
  let p := p.addEventToLevel 17 4 0 .pub
  let p := p.addEventToLevel 17 18 18 .pub
  let p := p.addEventToLevel 18 19 17 .pub
  let p := p.addEventToLevel 18 20 19 .pub
  let p := p.addEventToLevel 19 21 20 .pub
  let p := p.addEventToLevel 20 22 23 .pub
  let p := p.addEventToLevel 20 23 21 .pub
  let p := p.addEventToLevel 20 24 25 .pub
  let p := p.addEventToLevel 21 25 22 .pub
  let p := p.addEventToLevel 22 26 20 .pub
  let p := p.addEventToLevel 23 27 24 .pub
  let p := p.addEventToLevel 24 28 20 .pub
  let p := p.addEventToLevel 25 29 26 .priv
  let p := p.addEventToLevel 26 30 27 .priv
  let p := p.addEventToLevel 27 31 28 .priv
  let p := p.addEventToLevel 28 32 29 .priv
  let p := p.addEventToLevel 29 33 0 .priv
  let p := p.addEventToAllLevelsBetween 0 13 34 1 .pub
  let p := p.addEventToAllLevelsBetween 15 29 34 14 .pub
  let p := [0, 1, 9, 22].foldl (fun p r => p.setLvl r { p.lvl r with hasAction := true }) p
  { p with entryLevel := some 0 }
/-- The level actions: `homing3` triggers `doEmergency`, `moving` after two activations. -/
def actions (s : Sys) : List Trig :=
  let l := s.next
  if l = some 9 then [⟨34, true⟩] else if l = some 22 ∧ s.nofAct 22 + 1 > 2 then [⟨34, true⟩] else []
def go (s : Sys) : Option EventId → Sys
  | some e => match step scara s (.trigger e) with | .ok r => r.1 | .error _ => s
  | none => match step scara s (.run (quiet (actions s))) with | .ok r => r.1 | .error _ => ⟨none, none, fun _ => 0⟩
/-- `trigger2`. -/
example : (start scara).cur = some 0 ∧
    let a := [some 1, none, none].foldl go (start scara)
    let b := [some 5, none].foldl go a
    let c := [none, none].foldl go b
    (a.cur, b.cur, c.cur) = (some 1, some 22, some 14) := by decide +kernel

/-! ### test/safety/CriticalInputTest.cpp -/

/-- Two levels, the input 1 and the output 1; `a` and `b` are the tests of the input in the first and in the second level. -/
def critical {V : Type} (a b : InTest V) : Properties V :=
  let p : Properties V := { lvl := fun _ => { id := -1 } }
  let p := (p.addLevel 1).addLevel 2
  let p := (p.addEventToLevel 1 1 2 .pub).addEventToLevel 2 2 1 .pub
  let p := p.setLvl 1 { p.lvl 1 with inputAction := [some ⟨1, a⟩], outputAction := [some 1] }
  let p := p.setLvl 2 { p.lvl 2 with inputAction := [some ⟨1, b⟩], outputAction := [some 1] }
  { p with entryLevel := some 1, criticalInputs := [1], criticalOutputs := [1] }
/-- The level after the runs with the given values of the input. -/
def levelWith {V : Type} [CppVal V] (p : Properties V) (vs : List V) : Option LevelRef :=
  match construct p (fun _ => 0) with
  | .error _ => none
  | .ok s => match exec p s (vs.map fun v => .run { read := fun _ => v, act := [], beforeIn := fun _ => [], beforeOut := fun _ => [] }) with
    | .ok r => r.1.cur
    | .error _ => none
/-- `digitalInput`: the simulated input keeps its value between the writes of the test. -/
example : let p := critical (V := Bool) (.check false 1) (.check true 2)
    levelWith p [false, false] = some 1 ∧ levelWith p [false, false, true, true] = some 2 ∧ levelWith p [false, false, true, true, true] = some 2 ∧
    levelWith p [false, false, true, true, true, false] = some 1 ∧ levelWith p [false, false, true, true, true, false, false, false] = some 1 := by decide +kernel
def d (x : ℚ) : XVal ℚ := .fin x
/-- `analogInput`. -/
example : let p := critical (.range (d 0.9) (d 1.1) 1 false) (.range (d 2.9) (d 3.1) 2 false)
    levelWith p [d 1] = some 1 ∧ levelWith p [d 1, d 3, d 3] = some 2 ∧ levelWith p [d 1, d 3, d 3, d 3] = some 2 ∧ levelWith p [d 1, d 3, d 3, d 3, d 1] = some 1 ∧
    levelWith p [d 1, d 3, d 3, d 3, d 1, d 1, d 1] = some 1 := by decide +kernel
/-- `analogInputOffRange`. -/
example : let p := critical (.range (d 1.5) (d 3.5) 1 true) (.range (d 2.9) (d 3.1) 2 false)
    levelWith p [d 1] = some 1 ∧ levelWith p [d 1, d 3, d 3] = some 2 ∧ levelWith p [d 1, d 3, d 3, d 3] = some 2 ∧ levelWith p [d 1, d 3, d 3, d 3, d 1] = some 1 ∧
    levelWith p [d 1, d 3, d 3, d 3, d 1, d 1, d 1] = some 1 := by decide +kernel
end Safety

/-! ### test/control/PathPlannerCubic.cpp -/
section Cubic
open Planner.Cubic

/-- test/control/path1.txt. -/
def path1 : List (Row ℚ) := [⟨0.08, 0, 0, 0, 0⟩, ⟨0.24, 10000, 0, 0, 0⟩, ⟨0.08, 0, 2400, 288, 23.04⟩, ⟨0.24, -10000, 2400, 480, 53.76⟩, ⟨0.72, 0, 0, 768, 215.04⟩,
  ⟨0.24, -10000, 0, 768, 768⟩, ⟨0.08, 0, -2400, 480, 929.28⟩, ⟨0.24, 10000, -2400, 288, 960⟩, ⟨0.08, 0, 0, 0, 983.04⟩]
/-- The tests call `move` before the first `run`: `t`, which the constructor does not initialise, must be 0 for them to pass. -/
def planner (dt : ℚ) : St ℚ := { init (new dt) path1 with t := some 0 }
def outs (s : Option (St ℚ × Bool)) (k : Nat) : Option (ℚ × ℚ × ℚ × ℚ) := (s.bind fun s => runs k s.1).bind fun s => s.out.map fun y => (y.jerk, y.acc, y.vel, y.pos)
/-- 28-44: `init`. -/
example : outs (moveScaled (planner 0.1) 10 200 1000) 1 = some (0, 0, 0, 200) ∧ outs (moveScaled (planner 0.1) 10 200 1000) 102 = some (0, 0, 0, 1200) := by decide +kernel
/-- 46-75: `pos`. -/
example : let s := moveRaw (planner 0.08) 200
    outs s 1 = some (0, 0, 0, 200) ∧ outs s 2 = some (0, 0, 0, 200) ∧ outs s 3 = some (10000, 0, 0, 200) ∧ outs s 4 = some (10000, 800, 32, 200 + 10000 / 6 * 0.08 ^ 3) ∧
    outs s 104 = some (0, 0, 0, 1183.04) := by decide +kernel
end Cubic

/-! ### test/config/FileConfig.cpp -/
section Config
open Config

def name (s : String) : List Char := s.toList
/-- The members of `TestConfig` (without `value2`). -/
def cfg (v : Int) (s : String) : Props := [(name "value1", .int v), (name "str", .str (name s))]
def after (file : List Char) (ps : Props) : Props := match load file ps with | .ok ps => ps | .error _ => []
/-- 35-49: `integer`, 51-67: `string`. -/
example : after (save (cfg 17 "test string")) (cfg 0 "") = cfg 17 "test string" ∧ after (save (cfg 17 "test string")) (cfg 27 "test string 1") = cfg 17 "test string" ∧
    after (save (cfg 27 "test string 1")) (cfg 17 "test string") = cfg 27 "test string 1" := by decide +kernel
end Config

end Verif.Tests.Systems
