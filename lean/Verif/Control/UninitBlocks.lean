import Verif.Common.Uninit
/-!
Members of the blocks of the control system which are read before they are written (C254).

For each class the members which matter are listed, together with what the constructors and the methods do to them; the theorem beside it says
which of them some sequence of calls reads too early, for sequences of calls of any length.  Reading an output by a connected block is a call
of its own, `[rd …]`.  `Signal()` leaves value and time stamp as they are in memory (includes/eeros/control/Signal.hpp:30-32 makes no assignment to
them), and so does `Output()` (includes/eeros/control/Output.hpp:25,32); a class must clear its outputs itself, and `Blockio` does it for its own
(includes/eeros/control/Blockio.hpp).  Value and time stamp are separate members here (suffix `T` for the time stamp) where they are written apart.

Arrays whose elements are written one after the other (`Delay::buf`, `Trace::buf`, `Sum::initVal`) are not listed; the models of these classes follow
the elements one by one.
-/
namespace Verif.Control.UninitBlocks
open Verif.Common.Uninit Act

/-- Lists all members and flags, explores the states and compares the result for each member. -/
macro "table " vs:term ", " fs:term ", " n:term : tactic => `(tactic|
  (intro m
   rw [bad_iff (vs := $vs) (fs := $fs) (by intro v; cases v <;> decide) (by intro f; cases f <;> decide) _ $n (by decide +kernel)]
   cases m <;> decide +kernel))

/-- A class without flags. -/
inductive NoFlag where
deriving DecidableEq

/-! ### Gain -/

inductive GainV where | gain | maxGain | minGain | targetGain | gainDiff | switchPoint | out
deriving DecidableEq
inductive GainF where | enabled | smooth | parabolic
deriving DecidableEq

/-- includes/eeros/control/Gain.hpp:73-79 (constructor), 107-142 (`run`: change of the gain, limits, then one of three results), 155-271, 392-399
(output to a stream).  The output is cleared by `Blockio`. -/
def gain : Cls GainV GainF where
  init := [.gain, .maxGain, .minGain, .targetGain, .gainDiff, .out]
  set := [.enabled]
  paths :=
    ([[need .smooth true, rd .gain, rd .targetGain, rd .gainDiff, wr .gain], [need .smooth false]].flatMap fun a =>
      [[need .enabled true, need .parabolic true, rd .switchPoint, rd .gain, wr .out],
       [need .enabled true, need .parabolic false, rd .gain, wr .out],
       [need .enabled false, wr .out]].map fun b => a ++ [rd .gain, rd .maxGain, rd .minGain] ++ b) ++
    [[put .enabled true], [put .enabled false], [put .smooth true], [put .smooth false], [put .parabolic true], [put .parabolic false],
     [rd .maxGain, rd .minGain, need .smooth true, wr .targetGain], [rd .maxGain, rd .minGain, need .smooth false, wr .gain],
     [wr .maxGain], [wr .minGain], [wr .gainDiff], [wr .switchPoint],
     [rd .gain, rd .minGain, rd .maxGain, rd .targetGain, rd .gainDiff, rd .switchPoint], [rd .out]]

/-- **C254, Gain.** `enableParabolicGain(true)` and `run` before `setParabolicGainParams` use a switch point which nobody has set; so does the output
to a stream.  It is the only such member. -/
theorem gain_violated : ∀ m, Bad gain m ↔ m = .switchPoint := by
  table [.gain, .maxGain, .minGain, .targetGain, .gainDiff, .switchPoint, .out], [.enabled, .smooth, .parabolic], 4

/-! ### Switch -/

inductive SwitchV where | currentInput | nextInput | switchLevel | delta | out
deriving DecidableEq
inductive SwitchF where | armed | switched
deriving DecidableEq

/-- includes/eeros/control/Switch.hpp:41-46 (constructor), 56-77 (`run`: not armed or already switched; condition not met, or the level too low;
switching), 85-92 (`switchToInput`, which may be refused), 99-101, 143-147 (`setCondition`), 153-156 (`arm`), 175-178 (`combine`). -/
def switch : Cls SwitchV SwitchF where
  init := [.currentInput, .out]
  set := []
  paths :=
    [[rd .currentInput, need .armed false, wr .out],
     [rd .currentInput, need .armed true, need .switched true, wr .out],
     [rd .currentInput, need .armed true, need .switched false, rd .switchLevel, rd .delta, wr .out],
     [rd .currentInput, need .armed true, need .switched false, rd .switchLevel, rd .delta, rd .nextInput, wr .currentInput, put .switched true,
      put .armed false, rd .currentInput, wr .out],
     [wr .currentInput], [], [rd .currentInput], [wr .switchLevel, wr .delta, wr .nextInput], [put .armed true, put .switched false], [rd .out]]

/-- **C254, Switch.** `arm` before `setCondition` lets `run` compare with a level and a tolerance which nobody has set, and switch to an input which
nobody has chosen. -/
theorem switch_violated : ∀ m, Bad switch m ↔ m ∈ [.nextInput, .switchLevel, .delta] := by
  table [.currentInput, .nextInput, .switchLevel, .delta, .out], [.armed, .switched], 4

/-! ### Trace -/

inductive TraceV where | size | index | maxBufLen
deriving DecidableEq
inductive TraceF where | cycle | running
deriving DecidableEq

/-- includes/eeros/control/Trace.hpp:20-23 (constructor), 38-48 (`run`), 49-63 and 64-78 (`getTrace`, `getTimestampTrace`), 79 (`getSize`), 80-81. -/
def trace : Cls TraceV TraceF where
  init := [.index, .maxBufLen]
  set := []
  paths :=
    [[need .running false], [need .running true, rd .index, wr .index, rd .maxBufLen],
     [need .running true, rd .index, wr .index, rd .maxBufLen, wr .index, put .cycle true],
     [need .cycle true, rd .maxBufLen, wr .size, rd .index], [need .cycle false, rd .index, wr .size],
     [rd .size], [put .running true], [put .running false]]

/-- **C254, Trace.** `getSize` before the first `getTrace` or `getTimestampTrace` returns a size which nobody has set, even if the trace has recorded
values. -/
theorem trace_violated : ∀ m, Bad trace m ↔ m = .size := by
  table [.size, .index, .maxBufLen], [.cycle, .running], 4

/-! ### PeripheralOutput -/

inductive PeriphOutV where | val
deriving DecidableEq

/-- includes/eeros/control/PeripheralOutput.hpp:33-36 (constructor), 46-58 (`run`), 65-68 (`getValue`). -/
def periphOut : Cls PeriphOutV NoFlag where
  init := []
  set := []
  paths :=
    [[wr .val, rd .val], [wr .val, rd .val, wr .val, rd .val], [rd .val]]

/-- **C254, PeripheralOutput.** `getValue` before the first `run` returns a value which was never put out. -/
theorem periphOut_violated : ∀ m, Bad periphOut m ↔ m = .val := by
  table [.val], [], 2

/-! ### MedianFilter -/

inductive MedianV where | values | medianValue | out
deriving DecidableEq
inductive MedianF where | enabled
deriving DecidableEq

/-- includes/eeros/control/filter/MedianFilter.hpp:43-45, 111 (the window is cleared), 62-77 (`run`), 87-101, 136-148 (output to a stream). -/
def median : Cls MedianV MedianF where
  init := [.values, .out]
  set := [.enabled]
  paths :=
    [[rd .values, wr .values, need .enabled true, rd .values, wr .medianValue, rd .medianValue, wr .out],
     [rd .values, wr .values, need .enabled false, wr .out], [put .enabled true], [put .enabled false], [rd .medianValue, rd .values], [rd .out]]

/-- **C254, MedianFilter.** Printing the filter before its first enabled run prints a median which was never computed. -/
theorem median_violated : ∀ m, Bad median m ↔ m = .medianValue := by
  table [.values, .medianValue, .out], [.enabled], 3

/-! ### ZTransferFunction, order 1 -/

inductive ZTransferV where | in0 | in1 | out0 | out1 | out
deriving DecidableEq

/-- includes/eeros/control/ZTransferFunction.hpp:17-21 (the constructors set the fraction only), 61-76 (`run`).  The last pass of the loop 72-75 writes
the elements 0 from the elements −1, outside of the arrays; that is claimed elsewhere. -/
def zTransfer : Cls ZTransferV NoFlag where
  init := [.out]
  set := []
  paths :=
    [[wr .in0, rd .in0, wr .out0, rd .in1, rd .out1, rd .out0, wr .out0, rd .out0, wr .out0, rd .out0, wr .out, rd .in0, wr .in1, rd .out0, wr .out1,
      wr .in0, wr .out0], [rd .out]]

/-- **C254, ZTransferFunction.** The first `run` uses the previous input and the previous output, which nobody has set: the first result is
arbitrary. -/
theorem zTransfer_violated : ∀ m, Bad zTransfer m ↔ m ∈ [.in1, .out1] := by
  table [.in0, .in1, .out0, .out1, .out], [], 2

/-! ### CANopenReceive -/

inductive CanRecvOpenV where | out | dig | digT | status | scale | nofPDO
deriving DecidableEq
inductive CanRecvOpenF where | enabled
deriving DecidableEq

/-- includes/eeros/control/can/CANopenReceive.hpp:60-67 (constructor), 80-119 (`run`: nothing; no message; analogue value 101-104; digital value
106-109; status 110), 128-142, 153-155, 162-164 (`getStatus`), 203-206 with 211 (the digital outputs, which are not cleared).  One node, with one digital
value (`P = 1`). -/
def canRecvOpen : Cls CanRecvOpenV CanRecvOpenF where
  init := [.out, .scale]
  set := []
  paths :=
    [[need .enabled false], [need .enabled true, rd .nofPDO], [need .enabled true, rd .nofPDO, rd .out, wr .out],
     [need .enabled true, rd .nofPDO, rd .dig, wr .dig, wr .digT], [need .enabled true, rd .nofPDO, wr .status],
     [wr .nofPDO, put .enabled true], [put .enabled false], [wr .scale], [rd .status], [rd .out], [rd .dig], [rd .digT]]

/-- **C254, CANopenReceive.** The digital outputs and the status of a node are read before they are written: by a connected block, by `getStatus` before
the first status message, and by `run` itself, which changes one element of a digital value and keeps the others.  The number of PDOs, though not
initialised, is never read too early. -/
theorem canRecvOpen_violated : ∀ m, Bad canRecvOpen m ↔ m ∈ [.dig, .digT, .status] := by
  table [.out, .dig, .digT, .status, .scale, .nofPDO], [.enabled], 4

/-! ### CANopenSend -/

inductive CanSendOpenV where | ctrl | scale
deriving DecidableEq
inductive CanSendOpenF where | enabled
deriving DecidableEq

/-- includes/eeros/control/can/CANopenSend.hpp:55-62 (constructor), 76-107 (`run`: analogue value 92-93, digital value 95-96, control word 98),
116-129, 140-142, 150-152 (`setCtrl`). -/
def canSendOpen : Cls CanSendOpenV CanSendOpenF where
  init := [.scale]
  set := []
  paths :=
    [[need .enabled false], [need .enabled true], [need .enabled true, rd .scale], [need .enabled true, rd .ctrl], [put .enabled true],
     [put .enabled false], [wr .scale], [wr .ctrl]]

/-- **C254, CANopenSend.** An enabled block sends a control word to the drive which nobody has set, if `setCtrl` was not called before. -/
theorem canSendOpen_violated : ∀ m, Bad canSendOpen m ↔ m = .ctrl := by
  table [.ctrl, .scale], [.enabled], 3

/-! ### CANsend and CANreceive -/

inductive CanSendV where | scale | speed
deriving DecidableEq
inductive CanSendF where | enabled
deriving DecidableEq

/-- includes/eeros/control/can/CANsend.hpp:34-40 (constructor), 54-69 (`run`), 78-91, 100-102 (`setSpeed`), 113-115. -/
def canSend : Cls CanSendV CanSendF where
  init := [.scale]
  set := []
  paths :=
    [[need .enabled false], [need .enabled true, rd .scale, rd .speed], [put .enabled true], [put .enabled false], [wr .scale], [wr .speed]]

/-- **C254, CANsend.** An enabled block sends a speed to the drive which nobody has set, if `setSpeed` was not called before. -/
theorem canSend_violated : ∀ m, Bad canSend m ↔ m = .speed := by
  table [.scale, .speed], [.enabled], 3

inductive CanRecvV where | scale | out
deriving DecidableEq
inductive CanRecvF where | enabled
deriving DecidableEq

/-- includes/eeros/control/can/CANreceive.hpp:35-41, 55-68, 77-103. -/
def canRecv : Cls CanRecvV CanRecvF where
  init := [.scale, .out]
  set := []
  paths :=
    [[need .enabled false], [need .enabled true, rd .scale, wr .out], [put .enabled true], [put .enabled false], [wr .scale], [rd .out]]

/-- **C254, CANreceive.** Nothing is read too early. -/
theorem canRecv_ok : ∀ m, ¬ Bad canRecv m := by
  table [.scale, .out], [.enabled], 3

/-! ### Transition -/

inductive TransV where | inp | prevIn | oIn | oPrevIn | dVal | dTime | count | out
deriving DecidableEq
inductive TransF where | refresh
deriving DecidableEq

/-- includes/eeros/control/Transition.hpp:42-54 (constructor), 112 (the out block clears its copies), 82-101 and 114-150 (`run` of the two blocks)
for the transition to a faster domain which is not steady. -/
def transUp : Cls TransV TransF where
  init := [.inp, .prevIn, .oIn, .oPrevIn, .count, .out]
  set := []
  paths :=
    [[rd .inp, wr .prevIn, wr .inp, put .refresh true],
     [need .refresh true, rd .prevIn, wr .oPrevIn, rd .inp, wr .oIn, put .refresh false, wr .count, rd .oIn, rd .oPrevIn, wr .dVal, wr .dTime,
      rd .oPrevIn, rd .dVal, rd .count, wr .out, rd .dTime, wr .count],
     [need .refresh false, rd .oPrevIn, rd .dVal, rd .count, wr .out, rd .dTime, wr .count], [rd .out]]

/-- The steady transition to a faster domain (`ratio ≥ 1`). -/
def transSteadyUp : Cls TransV TransF where
  init := [.inp, .prevIn, .oIn, .oPrevIn, .count, .out]
  set := []
  paths := [[wr .inp], [rd .inp, wr .out], [rd .out]]

/-- The steady transition to a slower domain (`ratio < 1`): the constructor clears nothing (49-53). -/
def transSteadyDown : Cls TransV TransF where
  init := [.oIn, .oPrevIn, .count, .out]
  set := []
  paths := [[wr .inp], [rd .inp, wr .out], [rd .out]]

/-- **C254, Transition upwards.** The out block which runs before the in block has delivered a value interpolates with increments which nobody
has set. -/
theorem transUp_violated : ∀ m, Bad transUp m ↔ m ∈ [.dVal, .dTime] := by
  table [.inp, .prevIn, .oIn, .oPrevIn, .dVal, .dTime, .count, .out], [.refresh], 4

/-- **C254, steady Transition.** To a faster domain nothing is read too early, … -/
theorem transSteadyUp_ok : ∀ m, ¬ Bad transSteadyUp m := by
  table [.inp, .prevIn, .oIn, .oPrevIn, .dVal, .dTime, .count, .out], [.refresh], 2

/-- … to a slower domain the value itself is. -/
theorem transSteadyDown_violated : ∀ m, Bad transSteadyDown m ↔ m = .inp := by
  table [.inp, .prevIn, .oIn, .oPrevIn, .dVal, .dTime, .count, .out], [.refresh], 2

/-! ### Path planners -/

inductive CubicV where | t | interval | prevJerk | prevAcc | prevVel | prevPos | out
deriving DecidableEq
inductive CubicF where | finished | table | raw
deriving DecidableEq

/-- includes/eeros/control/PathPlannerCubic.hpp:37-43 (constructor), 55-90 (`init`: the file may be empty), 95-146 (`run`: standing; table lost during
the motion; within a row; next row; after the last row), 160-198 (`move`, refused or thrown without effect otherwise), 211-213 (`reset`).  Flags: `finished`, a
table in use, a table read from a file. -/
def cubic : Cls CubicV CubicF where
  init := [.interval, .prevAcc, .prevVel, .prevPos, .out]
  set := [.finished]
  paths :=
    [[need .finished true, wr .t, wr .interval, rd .prevPos, rd .prevVel, rd .prevAcc, rd .prevJerk, rd .t, wr .t, wr .prevPos, wr .prevVel, wr .prevAcc,
      wr .prevJerk, wr .out],
     [need .finished false, need .table false, wr .t, wr .interval, rd .prevPos, rd .prevVel, rd .prevAcc, rd .prevJerk, rd .t, wr .t, wr .prevPos,
      wr .prevVel, wr .prevAcc, wr .prevJerk, wr .out],
     [need .finished false, need .table true, rd .t, rd .interval, rd .prevAcc, rd .prevVel, rd .prevPos, rd .t, wr .t, wr .prevPos, wr .prevVel,
      wr .prevAcc, wr .prevJerk, wr .out],
     [need .finished false, need .table true, rd .t, rd .interval, wr .interval, rd .t, wr .t, wr .prevPos, wr .prevVel, wr .prevAcc, wr .prevJerk,
      wr .out],
     [need .finished false, need .table true, rd .t, rd .interval, put .finished true],
     [put .table false, put .raw true], [put .table false, put .raw false],
     [need .finished true, need .raw true, put .table true, put .finished false], [put .finished true], [rd .out]]

/-- **C254, PathPlannerCubic.** The jerk put out by the first `run` of a standing planner is one which nobody has set; and a motion which is started
before the first `run` begins at a time which nobody has set. -/
theorem cubic_violated : ∀ m, Bad cubic m ↔ m ∈ [.t, .prevJerk] := by
  table [.t, .interval, .prevJerk, .prevAcc, .prevVel, .prevPos, .out], [.finished, .table, .raw], 6

inductive ConstAccV where | t | dt | dT | range | coef | endPos | last | out
deriving DecidableEq
inductive ConstAccF where | finished
deriving DecidableEq

/-- includes/eeros/control/PathPlannerConstAcc.hpp:46-51 (constructor), 73-136 (`run`: standing, or one of the cases of a motion), 154-222 (`move`: refused;
no distance; motion), 231-235 (`setStart`), includes/eeros/control/TrajectoryGenerator.hpp:31-33.  `dT` are the three durations, `coef` the coefficients.
The same holds for includes/eeros/control/PathPlannerConstJerk.hpp, which has the same structure. -/
def constAcc : Cls ConstAccV ConstAccF where
  init := [.dt, .last, .out]
  set := [.finished]
  paths :=
    [[need .finished true, rd .last, rd .t, rd .dt, wr .t, wr .out],
     [need .finished false, rd .last, rd .t, rd .dt, wr .t, rd .range, rd .t, rd .dT, rd .coef, wr .last, wr .out],
     [need .finished false, rd .last, rd .t, rd .dt, wr .t, rd .range, rd .t, rd .dT, rd .coef, wr .range, wr .t, wr .last, wr .out],
     [need .finished false, rd .last, rd .t, rd .dt, wr .t, rd .range, put .finished true, rd .endPos, wr .last, wr .out],
     [need .finished false], [need .finished true, wr .endPos],
     [need .finished true, wr .endPos, wr .dT, rd .dT, rd .dt, wr .coef, put .finished false, wr .range, wr .t],
     [wr .last, put .finished true], [rd .out]]

/-- **C254, PathPlannerConstAcc and PathPlannerConstJerk.** A standing planner advances a clock which nobody has set; it is the only such member, and
a motion sets it to zero before it uses it. -/
theorem constAcc_violated : ∀ m, Bad constAcc m ↔ m = .t := by
  table [.t, .dt, .dT, .range, .coef, .endPos, .last, .out], [.finished], 4

/-! ### KalmanFilter -/

inductive KalmanV where | x | p | eye | gq | d | u | y | k | cp | dy | out | outT
deriving DecidableEq
inductive KalmanF where | first
deriving DecidableEq

/-- includes/eeros/control/filter/KalmanFilter.hpp:102-168 (the three constructors agree on these members), 212-224 (`prediction`), 229-256
(`correction`), 260-275; `Blockio<0,0>` clears no outputs. -/
def kalman : Cls KalmanV KalmanF where
  init := [.x, .p, .eye, .gq, .d]
  set := [.first]
  paths :=
    [[wr .u, rd .x, rd .u, wr .x, rd .x, wr .out, wr .outT, rd .p, rd .gq, wr .p],
     [need .first true, rd .x, wr .out, wr .outT, put .first false],
     [need .first false, wr .y, wr .u, rd .p, wr .cp, rd .cp, wr .k, rd .y, rd .x, rd .d, rd .u, wr .dy, rd .k, rd .dy, wr .x, rd .x, wr .out, wr .outT,
      rd .eye, rd .k, rd .p, wr .p],
     [rd .out], [rd .outT]]

/-- **C254, KalmanFilter.** A block which reads a state of the filter before the first prediction or correction reads a value and a time which nobody
has set.  The inner matrices are never read too early. -/
theorem kalman_violated : ∀ m, Bad kalman m ↔ m ∈ [.out, .outT] := by
  table [.x, .p, .eye, .gq, .d, .u, .y, .k, .cp, .dy, .out, .outT], [.first], 4

/-! ### Devices -/

inductive MouseInV where | pos | out | outT | button | buttonT
deriving DecidableEq
inductive MouseInF where | first
deriving DecidableEq

/-- src/control/MouseInput.cpp:8-28 (constructors), 30-65 (`run`), 71-85 (`setInitPos`, `reset`). -/
def mouseIn : Cls MouseInV MouseInF where
  init := [.pos, .out, .outT]
  set := [.first]
  paths :=
    [[need .first true, wr .pos, put .first false, rd .pos, wr .pos, rd .pos, wr .out, wr .outT, wr .button, wr .buttonT],
     [need .first false, rd .pos, wr .pos, rd .pos, wr .out, wr .outT, wr .button, wr .buttonT],
     [wr .pos, wr .out], [wr .pos], [rd .out], [rd .outT], [rd .button], [rd .buttonT]]

/-- **C254, MouseInput.** The buttons and their time stamp are not set before the first `run`; the position is. -/
theorem mouseIn_violated : ∀ m, Bad mouseIn m ↔ m ∈ [.button, .buttonT] := by
  table [.pos, .out, .outT, .button, .buttonT], [.first], 3

inductive XboxInV where | out | outT | button | buttonT
deriving DecidableEq

/-- src/control/XBoxInput.cpp:6-12, 16-40, 46-48. -/
def xboxIn : Cls XboxInV NoFlag where
  init := [.out, .outT]
  set := []
  paths :=
    [[wr .out, wr .outT, wr .button, wr .buttonT], [wr .out], [rd .out], [rd .outT], [rd .button], [rd .buttonT]]

/-- **C254, XBoxInput.** As for the mouse. -/
theorem xboxIn_violated : ∀ m, Bad xboxIn m ↔ m ∈ [.button, .buttonT] := by
  table [.out, .outT, .button, .buttonT], [], 2

inductive SpaceNavV where | axis | rotAxis | keys | out | outT | rot | rotT | button | buttonT
deriving DecidableEq

/-- src/hal/SpaceNavigator.cpp:13-22 (the constructor leaves out `rotAxis`), 91-208 (the thread: one event each), and src/control/SpaceNavigatorInput.cpp:6-8
(constructor), 12-31 (`run`), 41-43. -/
def spaceNav : Cls SpaceNavV NoFlag where
  init := [.axis, .keys, .out, .outT]
  set := []
  paths :=
    [[wr .axis], [wr .rotAxis], [wr .axis, wr .rotAxis], [wr .keys], [rd .keys],
     [rd .axis, wr .out, wr .outT, rd .rotAxis, wr .rot, wr .rotT, rd .keys, wr .button, wr .buttonT], [wr .out],
     [rd .out], [rd .outT], [rd .rot], [rd .rotT], [rd .button], [rd .buttonT]]

/-- **C254, SpaceNavigator and SpaceNavigatorInput.** The rotation put out before the first rotation event is one which nobody has set, even after
`run`; rotation, buttons and their time stamps are not set before the first `run`. -/
theorem spaceNav_violated : ∀ m, Bad spaceNav m ↔ m ∈ [.rotAxis, .rot, .rotT, .button, .buttonT] := by
  table [.axis, .rotAxis, .keys, .out, .outT, .rot, .rotT, .button, .buttonT], [], 3

inductive LidarV where | angles | ranges | intensities | out
deriving DecidableEq

/-- src/hal/RPLidar.cpp:5-49 (constructor), 66-76, 78-125 (the thread: a scan, or an error), includes/eeros/control/sensor/RPLidarInput.hpp:45-50. -/
def lidar : Cls LidarV NoFlag where
  init := [.out]
  set := []
  paths :=
    [[wr .ranges, wr .intensities, wr .angles], [], [rd .angles], [rd .ranges], [rd .intensities], [rd .angles, wr .out, rd .ranges, wr .out], [rd .out]]

/-- **C254, RPLidar.** Before the first complete scan the block puts out angles and ranges which nobody has measured. -/
theorem lidar_violated : ∀ m, Bad lidar m ↔ m ∈ [.angles, .ranges, .intensities] := by
  table [.angles, .ranges, .intensities, .out], [], 2

inductive Om70V where | tabReg | distance | out
deriving DecidableEq

/-- src/hal/BaumerOM70.cpp:5-20 (constructor), 29-46 (`getMeasurements`: the result of the read is not looked at, so the registers may stay as they are),
58-75, 77-79 (`getDistance`), 81-87, includes/eeros/control/sensor/BaumerOM70Input.hpp:49-52. -/
def om70 : Cls Om70V NoFlag where
  init := [.out]
  set := []
  paths :=
    [[wr .tabReg, rd .tabReg, wr .distance], [rd .tabReg, wr .distance], [wr .tabReg, rd .tabReg], [], [rd .distance], [rd .distance, wr .out], [rd .out]]

/-- **C254, BaumerOM70.** The distance put out before the first measurement is one which nobody has measured; and after a failed first read it is computed
from registers which nobody has read. -/
theorem om70_violated : ∀ m, Bad om70 m ↔ m ∈ [.tabReg, .distance] := by
  table [.tabReg, .distance, .out], [], 2

/-! ### Sensor blocks with outputs of their own

`PixyCamInput` (includes/eeros/control/sensor/PixyCamInput.hpp:34, 99-115, 119-122), `SBGEllipseAInput`
(includes/eeros/control/sensor/SBGEllipseAInput.hpp:33, 43-57, 105-107), `RealsenseT265Input` (includes/eeros/control/sensor/RealsenseT265Input.hpp:32,
43-59, 116-117), `ElmoInput` (includes/eeros/control/ethercat/ElmoInput.hpp:30, 35-43, 91-92) and `RosSubscriberLaserScan`
(includes/eeros/control/ros/RosSubscriberLaserScan.hpp:20-21, 23-54, 71-82) have outputs beside those of `Blockio`, clear none of them, and write them in
`run`. -/

/-- A block with the outputs `outs`, not cleared, of which `run` writes `done`. -/
def sensor {V : Type} [DecidableEq V] (outs done : List V) : Cls V NoFlag where
  init := []
  set := []
  paths := done.map wr :: outs.map fun v => [rd v]

/-- **C254, further outputs.** Whatever the number of the outputs: every one of them can be read before it is written. -/
theorem sensor_violated {V : Type} [DecidableEq V] (outs done : List V) (v : V) : Bad (sensor outs done) v ↔ v ∈ outs := by
  have hw : ∀ (l : List V) (s : St V NoFlag), early (l.map wr) s = [] := by
    intro l
    induction l with
    | nil => intro s; rfl
    | cons a l ih => intro s; exact ih _
  constructor
  · rintro ⟨s, p, s', _, hp, _, he⟩
    simp only [sensor, List.mem_cons, List.mem_map] at hp
    rcases hp with rfl | ⟨w, hw', rfl⟩
    · rw [hw] at he; cases he
    · simp only [early] at he
      split at he
      · cases he
      · simp only [List.mem_singleton] at he
        exact he ▸ hw'
  · intro h
    refine ⟨start (sensor outs done), [rd v], start (sensor outs done), .start, ?_, rfl, ?_⟩
    · simp only [sensor, List.mem_cons, List.mem_map]
      exact Or.inr ⟨v, h, rfl⟩
    · simp [early, start, sensor]

/-- **C254, outputs which stay unset.** An output (or a time stamp) which `run` does not write is unset for ever. -/
theorem sensor_never {V : Type} [DecidableEq V] (outs done : List V) (v : V) (hv : v ∉ done) (s : St V NoFlag) (hs : Reach (sensor outs done) s) :
    s.written v = false := by
  have hw : ∀ (l : List V) (s s' : St V NoFlag), v ∉ l → run (l.map wr) s = some s' → s'.written v = s.written v := by
    intro l
    induction l with
    | nil => intro s s' _ h; cases h; rfl
    | cons a l ih =>
      intro s s' hn h
      simp only [List.mem_cons, not_or] at hn
      rw [ih _ s' hn.2 h]
      simp [upd, hn.1]
  induction hs with
  | start => simp [start, sensor]
  | call s p s' _ hp hr ih =>
    simp only [sensor, List.mem_cons, List.mem_map] at hp
    rcases hp with rfl | ⟨w, _, rfl⟩
    · rw [hw done s s' hv hr, ih]
    · simp only [run, Option.some.injEq] at hr
      rw [← hr, ih]

inductive LaserV where | angleMin | angleMinT | ranges | rangesT | intensities | intensitiesT
deriving DecidableEq

/-- `RosSubscriberLaserScan`, one of its seven plain outputs and the two lists: the callback sets the time stamps of the plain outputs only
(includes/eeros/control/ros/RosSubscriberLaserScan.hpp:26-53). -/
def laser : Cls LaserV NoFlag :=
  sensor [.angleMin, .angleMinT, .ranges, .rangesT, .intensities, .intensitiesT] [.angleMinT, .angleMin, .ranges, .intensities]

/-- **C254, RosSubscriberLaserScan.** After any number of scans the time stamps of the ranges and of the intensities are still unset. -/
theorem laser_stamps_violated (s : St LaserV NoFlag) (h : Reach laser s) : s.written .rangesT = false ∧ s.written .intensitiesT = false :=
  ⟨sensor_never _ _ _ (by decide) s h, sensor_never _ _ _ (by decide) s h⟩

/-- The time stamp of a plain output is set by the first scan. -/
example : ∃ s, Reach laser s ∧ s.written .angleMinT = true ∧ s.written .rangesT = false :=
  ⟨_, .call _ _ _ .start (List.mem_cons_self ..) rfl, by decide, by decide⟩

/-! ### Classes in which nothing is read too early -/

inductive DiffV where | prev | valOut | timeOut | out
deriving DecidableEq
inductive DiffF where | first
deriving DecidableEq

/-- includes/eeros/control/D.hpp:21-23 (constructor), 37-59 (`run`: the first; equal times; different times), 69-72. -/
def diff : Cls DiffV DiffF where
  init := [.prev, .out]
  set := [.first]
  paths :=
    [[rd .prev, need .first true, wr .prev, wr .valOut, wr .timeOut, put .first false, rd .valOut, rd .timeOut, wr .out, wr .prev],
     [rd .prev, need .first false, rd .valOut, rd .timeOut, wr .out, wr .prev],
     [rd .prev, need .first false, rd .prev, wr .valOut, wr .timeOut, rd .valOut, rd .timeOut, wr .out, wr .prev], [rd .out]]

/-- **C254, D.** The value and the time which the constructor leaves unset are set by the first `run`. -/
theorem diff_ok : ∀ m, ¬ Bad diff m := by
  table [.prev, .valOut, .timeOut, .out], [.first], 3

inductive IntegV where | prev | upper | lower | out
deriving DecidableEq
inductive IntegF where | first | enabled
deriving DecidableEq

/-- includes/eeros/control/I.hpp:34-37, 53-75, 84-138. -/
def integ : Cls IntegV IntegF where
  init := [.prev, .upper, .lower, .out]
  set := [.first]
  paths :=
    [[rd .prev, put .first false, rd .prev, need .enabled true, rd .upper, rd .lower, wr .out, rd .out, wr .prev],
     [rd .prev, put .first false, rd .prev, need .enabled false, wr .out, rd .out, wr .prev],
     [put .enabled true], [put .enabled false], [wr .prev], [wr .upper, wr .lower, rd .prev, wr .prev], [rd .out]]

/-- **C254, I.** -/
theorem integ_ok : ∀ m, ¬ Bad integ m := by
  table [.prev, .upper, .lower, .out], [.first, .enabled], 4

inductive StepV where | initValue | stepHeight | delayTime | time | out
deriving DecidableEq
inductive StepF where | first | stepDone
deriving DecidableEq

/-- includes/eeros/control/Step.hpp:31-44 (constructors), 54-65 (`run`), 71-101. -/
def step : Cls StepV StepF where
  init := [.initValue, .stepHeight, .delayTime, .out]
  set := [.first]
  paths :=
    ([[need .first true, rd .delayTime, wr .time, rd .initValue, wr .out, put .first false], [need .first false]].flatMap fun a =>
      [[need .stepDone true], [need .stepDone false, rd .time], [need .stepDone false, rd .time, rd .initValue, rd .stepHeight, wr .out,
        put .stepDone true]].map fun b => a ++ b) ++
    [[put .stepDone false, put .first true], [wr .initValue], [wr .stepHeight], [wr .delayTime], [rd .out]]

/-- **C254, Step.** The time of the step is set by the first `run`. -/
theorem step_ok : ∀ m, ¬ Bad step m := by
  table [.initValue, .stepHeight, .delayTime, .time, .out], [.first, .stepDone], 4

inductive RateLimV where | outPrev | falling | rising | out
deriving DecidableEq
inductive RateLimF where | enabled
deriving DecidableEq

/-- includes/eeros/control/RateLimiter.hpp:47-63, 79-93, 102-127, 143-150. -/
def rateLim : Cls RateLimV RateLimF where
  init := [.outPrev, .falling, .rising, .out]
  set := []
  paths :=
    [[rd .outPrev, need .enabled false, wr .outPrev, wr .out], [rd .outPrev, need .enabled true, rd .outPrev, rd .rising, rd .falling, wr .outPrev, wr .out],
     [put .enabled true], [put .enabled false], [wr .falling, wr .rising], [rd .falling, rd .rising], [rd .out]]

/-- **C254, RateLimiter.** -/
theorem rateLim_ok : ∀ m, ¬ Bad rateLim m := by
  table [.outPrev, .falling, .rising, .out], [.enabled], 3

inductive LowPassV where | alpha | prev | out
deriving DecidableEq
inductive LowPassF where | first | enabled
deriving DecidableEq

/-- includes/eeros/control/filter/LowPassFilter.hpp:42-44, 58-72, 81-94. -/
def lowPass : Cls LowPassV LowPassF where
  init := [.alpha, .prev, .out]
  set := [.first, .enabled]
  paths :=
    [[rd .prev, put .first false, need .enabled true, rd .alpha, wr .out, rd .out, wr .prev], [rd .prev, put .first false, need .enabled false, wr .out, rd .out,
      wr .prev], [put .enabled true], [put .enabled false], [rd .alpha], [rd .out]]

/-- **C254, LowPassFilter.** -/
theorem lowPass_ok : ∀ m, ¬ Bad lowPass m := by
  table [.alpha, .prev, .out], [.first, .enabled], 4

/-! ### What would have to be initialised

For each class above, initialising the listed members makes it right; for two of them in full. -/

/-- **C254, repaired Switch.** -/
theorem switch_repaired : ∀ m, ¬ Bad (initAlso [.nextInput, .switchLevel, .delta] switch) m := by
  intro m h
  rw [bad_initAlso, switch_violated] at h
  exact h.2 h.1

/-- **C254, the half repaired CANopenReceive.** With the status cleared and the digital outputs left as they are, these remain. -/
theorem canRecvOpen_half : ∀ m, Bad (initAlso [.status] canRecvOpen) m ↔ m ∈ [.dig, .digT] := by
  intro m
  rw [bad_initAlso, canRecvOpen_violated]
  cases m <;> decide

/-- The witness behind `gain_violated`: enable, run. -/
example : ∃ s s', Reach gain s ∧ run [need .smooth false, rd .gain, rd .maxGain, rd .minGain, need .enabled true, need .parabolic true,
    rd .switchPoint, rd .gain, wr .out] s = some s' ∧ s.written .switchPoint = false :=
  ⟨_, _, .call _ [put .parabolic true] _ .start (by decide) rfl, rfl, by decide⟩

end Verif.Control.UninitBlocks
