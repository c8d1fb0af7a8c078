import Verif.Control.BlockRaces
/-!
Data races between the thread of a device and the threads which use the device, class by class, in the notation of
`Verif/Control/BlockRaces.lean`.

No class in includes/eeros/hal has a mutex.  The ODrive classes keep their data in `std::atomic` members, which cannot race and are
left out, all others in ordinary members.  The flags `starting` and `running` are atomic in BaumerOM70, RPLidar, PixyCam, RealsenseT265,
SBGEllipseA and the ODrive classes, ordinary in Keyboard, Mouse, XBox and SpaceNavigator.  A vector or an array is one variable.
`thread` is one iteration of the loop of the device thread, `block` the `run` method of the block which reads the device from its time
domain, `digIn` the `get` method of the inputs which the safety system reads, `destroy` what the destructor does before it joins the thread.
-/
namespace Verif.Hal.DeviceRaces
open Verif.Common.Race Verif.Control.BlockRaces

/-! ### BaumerOM70 (src/hal/BaumerOM70.cpp) -/
namespace Baumer

inductive Var | tabReg | distance
deriving DecidableEq
inductive M | thread | getDistance | switchOnLaser | switchOffLaser | destroy
deriving DecidableEq
open Var

/-- `run` with `getMeasurements` (81-87, 29-36), `getDistance` (77-79), `switchOnLaser` (58-66), `switchOffLaser` (68-75); the
connection `ctx` of libmodbus is left out. -/
def cls : Cls Var M where
  code
    | .thread => acc [wr tabReg, rd tabReg, wr distance]
    | .getDistance => acc [rd distance]
    | .switchOnLaser => seq [acc [wr tabReg], opt (acc [rd tabReg])]
    | .switchOffLaser => seq [acc [wr tabReg], opt (acc [rd tabReg])]
    | .destroy => acc []
  only
    | .thread => some 1
    | _ => none

theorem bal : cls.Bal := by intro m; cases m <;> decide +kernel

/-- **Every method races with the thread of the device**, only the destructor does not. -/
theorem thread_violated (m : M) (hm : m ≠ .thread) : RaceFree (cls.two .thread m) ↔ m = .destroy := by
  rw [two_iff cls bal]
  cases m <;> first | exact absurd rfl hm | decide +kernel

/-- Among themselves only the two methods which switch the laser race: they use the registers of the measurement. -/
theorem others_violated (a b : M) (ha : a ≠ .thread) (hb : b ≠ .thread) : RaceFree (cls.two a b) ↔
    ¬ (a ∈ [M.switchOnLaser, .switchOffLaser] ∧ b ∈ [M.switchOnLaser, .switchOffLaser]) := by
  rw [two_iff cls bal]
  cases a <;> cases b <;> first | exact absurd rfl ha | exact absurd rfl hb | decide +kernel

end Baumer

/-! ### RPLidar (src/hal/RPLidar.cpp) -/
namespace RPLidar

inductive Var | bufSize | angles | ranges | intensities
deriving DecidableEq
inductive M | thread | getAngles | getRanges | getIntensities | getScanFrequency | block | destroy
deriving DecidableEq
open Var

/-- `run` (81-124), `getAngles` (66-68), `getRanges` (70-72), `getIntensities` (74-76), `getScanFrequency` (60-64),
RPLidarInput.hpp:45-50. -/
def cls : Cls Var M where
  code
    | .thread => seq [acc [wr bufSize], opt (acc [wr ranges, wr intensities, wr ranges, wr intensities, wr angles])]
    | .getAngles => acc [rd angles]
    | .getRanges => acc [rd ranges]
    | .getIntensities => acc [rd intensities]
    | .getScanFrequency => acc []
    | .block => acc [rd angles, rd ranges]
    | .destroy => acc []
  only
    | .thread => some 1
    | .block => some 0
    | _ => none

theorem bal : cls.Bal := by intro m; cases m <;> decide +kernel

/-- **Every method which reads the scan races with the thread**, the block too. -/
theorem thread_violated (m : M) (hm : m ≠ .thread) : RaceFree (cls.two .thread m) ↔ m = .getScanFrequency ∨ m = .destroy := by
  rw [two_iff cls bal]
  cases m <;> first | exact absurd rfl hm | decide +kernel

/-- Any number of threads may read at the same time as long as the device thread does not run. -/
theorem readers_free : Usable cls [.getAngles, .getRanges, .getIntensities, .getScanFrequency, .block] := by
  apply usable_of cls bal
  decide +kernel

end RPLidar

/-! ### PixyCam (includes/eeros/hal/PixyCam.hpp) -/
namespace Pixy

inductive Var | nofBlocks | pos | height | markersInRange | valid | first | prev | output | outputRaw
deriving DecidableEq
inductive M | thread | getPos | getPosRaw | getDots | getHeight | isDataValid | getNofBlocks | block | destroy
deriving DecidableEq
open Var

/-- `run` (117-209), the getters (63-100), PixyCamInput.hpp:99-115 (`block`). -/
def cls : Cls Var M where
  code
    | .thread => seq [acc [wr nofBlocks, wr pos, rd pos, wr height, rd pos, wr markersInRange, rd height],
        opt (acc [rd markersInRange]), acc [wr valid, rd pos, rd first], alt (acc [wr first]) (acc [rd prev]),
        acc [wr prev, wr outputRaw, wr output]]
    | .getPos => acc [rd output]
    | .getPosRaw => acc [rd outputRaw]
    | .getDots => acc [rd pos]
    | .getHeight => acc [rd height]
    | .isDataValid => acc [rd valid]
    | .getNofBlocks => acc [rd nofBlocks]
    | .block => acc [rd output, rd outputRaw, rd pos, rd height, rd valid]
    | .destroy => acc []
  only
    | .thread => some 1
    | .block => some 0
    | _ => none

theorem bal : cls.Bal := by intro m; cases m <;> decide +kernel

/-- **Every getter races with the thread.** -/
theorem thread_violated (m : M) (hm : m ≠ .thread) : RaceFree (cls.two .thread m) ↔ m = .destroy := by
  rw [two_iff cls bal]
  cases m <;> first | exact absurd rfl hm | decide +kernel

theorem readers_free : Usable cls [.getPos, .getPosRaw, .getDots, .getHeight, .isDataValid, .getNofBlocks, .block] := by
  apply usable_of cls bal
  decide +kernel

end Pixy

/-! ### RealsenseT265 (src/hal/RealsenseT265.cpp) -/
namespace Realsense

inductive Var | translation | velocity | acceleration | quaternion | angVelocity | angAcceleration
deriving DecidableEq
inductive M | thread | block | destroy
deriving DecidableEq
open Var

/-- `run` (18-45), RealsenseT265Input.hpp:43-60 (`block`). -/
def cls : Cls Var M where
  code
    | .thread => acc [wr translation, wr velocity, wr acceleration, wr quaternion, wr angVelocity, wr angAcceleration]
    | .block => acc [rd translation, rd velocity, rd acceleration, rd angVelocity, rd angAcceleration, rd quaternion]
    | .destroy => acc []
  only
    | .thread => some 1
    | .block => some 0
    | _ => none

theorem bal : cls.Bal := by intro m; cases m <;> decide +kernel

theorem thread_violated (m : M) (hm : m ≠ .thread) : RaceFree (cls.two .thread m) ↔ m = .destroy := by
  rw [two_iff cls bal]
  cases m <;> first | exact absurd rfl hm | decide +kernel

end Realsense

/-! ### SBGEllipseA (includes/eeros/hal/SBGEllipseA.hpp) -/
namespace SBG

inductive Var | euler | accel | gyro | quat | tsEuler | tsAcc | tsGyro | tsQuat | count | count0 | countEuler | countQuat | countImu
deriving DecidableEq
inductive M | thread | block | destroy
deriving DecidableEq
open Var

/-- `run` (90-97) with the callback `onLogReceived` (148-191): one of the four messages or another one.  SBGEllipseAInput.hpp:43-57
(`block`).  All data is in static members: this is also the table of two devices, whose threads share it (`two_devices_violated`). -/
def cls : Cls Var M where
  code
    | .thread => alt (acc []) (seq [acc [rd count, wr count],
        [[wr euler, wr tsEuler, rd countEuler, wr countEuler],
         [wr quat, wr tsQuat, rd countQuat, wr countQuat],
         [wr accel, wr tsAcc, wr gyro, wr tsGyro, rd countImu, wr countImu],
         [wr accel, wr tsAcc, wr gyro, wr tsGyro],
         [rd count0, wr count0]]])
    | .block => acc [rd euler, rd quat, rd accel, rd gyro, rd tsEuler]
    | .destroy => acc []
  only
    | .block => some 0
    | _ => none

theorem bal : cls.Bal := by intro m; cases m <;> decide +kernel

theorem thread_violated (m : M) (hm : m ≠ .thread) : RaceFree (cls.two .thread m) ↔ m = .destroy := by
  rw [two_iff cls bal]
  cases m <;> first | exact absurd rfl hm | decide +kernel

/-- The threads of two such devices race with each other, as their data is static. -/
theorem two_devices_violated : ¬ RaceFree (cls.two .thread .thread) := by
  rw [two_iff cls bal]
  decide +kernel

end SBG

/-! ### Keyboard (src/hal/Keyboard.cpp, includes/eeros/hal/KeyList.hpp) -/
namespace Keyboard

inductive Var | running | nofKeys | key | asciiCode | state | event
deriving DecidableEq
inductive M | thread | block | reset | digIn | construct | destroy
deriving DecidableEq
open Var

/-- `run` (24-33, for one key of the list), KeyboardInput.hpp:54-61 (`block`), 81-86 (`reset`), KeyboardDigIn.hpp `get` (`digIn`),
the constructor KeyboardInput.hpp:36-44 with KeyList.hpp:40-49, whose body runs when the thread has already been started by the
constructor of the member `k`. -/
def cls : Cls Var M where
  code
    | .thread => seq [acc [rd running, rd nofKeys], opt (seq [acc [rd asciiCode], opt (acc [wr state, wr event])])]
    | .block => seq [acc [rd nofKeys], opt (acc [rd state])]
    | .reset => seq [acc [rd nofKeys], opt (acc [wr state])]
    | .digIn => seq [acc [rd nofKeys], opt (seq [acc [rd key], opt (acc [rd event, wr event])])]
    | .construct => seq [acc [wr nofKeys], opt (acc [rd nofKeys, wr key, wr asciiCode, wr state, wr event, rd nofKeys, wr nofKeys]),
        acc [rd nofKeys], opt (acc [rd key])]
    | .destroy => acc [wr running]
  only
    | .thread => some 1
    | .block => some 0
    | _ => none

theorem bal : cls.Bal := by intro m; cases m <;> decide +kernel

/-- **Everything races with the thread of the keyboard**, including the constructor of the block and the destructor. -/
theorem thread_violated (m : M) (hm : m ≠ .thread) : ¬ RaceFree (cls.two .thread m) := by
  rw [two_iff cls bal]
  cases m <;> first | exact absurd rfl hm | decide +kernel

/-- The block and the inputs of the safety system use different vectors: these two do not race. -/
theorem block_digIn : RaceFree (cls.two .block .digIn) := by
  rw [two_iff cls bal]
  decide +kernel

/-- But two threads with `reset`, or a thread with `reset` and the block, do, and so do two inputs read by two threads. -/
theorem others_violated : ¬ RaceFree (cls.two .block .reset) ∧ ¬ RaceFree (cls.two .reset .reset) ∧ ¬ RaceFree (cls.two .digIn .digIn) := by
  refine ⟨?_, ?_, ?_⟩ <;> rw [two_iff cls bal] <;> decide +kernel

end Keyboard

/-! ### Mouse (src/hal/Mouse.cpp) -/
namespace Mouse

inductive Var | running | left | middle | right | x | y | z | r | last | eventAction | buttonAction | axisAction
deriving DecidableEq
inductive M | thread | block | digIn | onEvent | onButton | onAxis | destroy
deriving DecidableEq
open Var

/-- `run` (76-104), src/control/MouseInput.cpp:30-65 (`block`), MouseDigIn.hpp `get`, `on_event` (59-61), `on_button` (63-65),
`on_axis` (67-69). -/
def cls : Cls Var M where
  code
    | .thread => seq [acc [rd running], opt (seq [
        [[], [wr left, rd buttonAction], [wr middle, rd buttonAction], [wr right, rd buttonAction], [rd x, wr x, rd axisAction],
         [rd y, wr y, rd axisAction], [rd z, wr z, rd axisAction], [rd r, wr r, rd axisAction]],
        acc [rd eventAction, rd left, rd middle, rd right, rd x, rd y, rd z, rd r, wr last]])]
    | .block => acc [rd x, rd y, rd z, rd r, rd left, rd middle, rd right]
    | .digIn => [[rd left], [rd middle], [rd right], []]
    | .onEvent => acc [wr eventAction]
    | .onButton => acc [wr buttonAction]
    | .onAxis => acc [wr axisAction]
    | .destroy => acc [wr running]
  only
    | .thread => some 1
    | .block => some 0
    | _ => none

theorem bal : cls.Bal := by intro m; cases m <;> decide +kernel

theorem thread_violated (m : M) (hm : m ≠ .thread) : ¬ RaceFree (cls.two .thread m) := by
  rw [two_iff cls bal]
  cases m <;> first | exact absurd rfl hm | decide +kernel

theorem readers_free : Usable cls [.block, .digIn] := by
  apply usable_of cls bal
  decide +kernel

end Mouse

/-! ### XBox (src/hal/XBox.cpp) -/
namespace XBox

inductive Var | running | axis | buttonState | buttonUp | buttonDown | last | eventAction | buttonAction | axisAction
deriving DecidableEq
inductive M | thread | block | digIn | onEvent | onButton | onAxis | destroy
deriving DecidableEq
open Var

/-- `run` (82-117), src/control/XBoxInput.cpp:16-40 (`block`), XBoxDigIn.hpp `get`, `on_event` (65-67), `on_button` (69-71),
`on_axis` (73-75). -/
def cls : Cls Var M where
  code
    | .thread => seq [acc [rd running], [[], [wr buttonState, rd buttonState, rd last, wr buttonUp, rd buttonState, rd last, wr buttonDown],
        [wr buttonState, rd buttonState, rd last, wr buttonUp, rd buttonState, rd last, wr buttonDown, rd buttonAction],
        [wr axis], [wr axis, rd axisAction], [wr axis, rd axisAction, rd axis]],
        acc [rd eventAction, rd axis, rd buttonState, rd buttonUp, rd buttonDown, wr last]]
    | .block => acc [rd axis, rd buttonState]
    | .digIn => [[rd buttonState], []]
    | .onEvent => acc [wr eventAction]
    | .onButton => acc [wr buttonAction]
    | .onAxis => acc [wr axisAction]
    | .destroy => acc [wr running]
  only
    | .thread => some 1
    | .block => some 0
    | _ => none

theorem bal : cls.Bal := by intro m; cases m <;> decide +kernel

theorem thread_violated (m : M) (hm : m ≠ .thread) : ¬ RaceFree (cls.two .thread m) := by
  rw [two_iff cls bal]
  cases m <;> first | exact absurd rfl hm | decide +kernel

theorem readers_free : Usable cls [.block, .digIn] := by
  apply usable_of cls bal
  decide +kernel

end XBox

/-! ### SpaceNavigator (src/hal/SpaceNavigator.cpp) -/
namespace SpaceNav

inductive Var | running | axis | rotAxis | button
deriving DecidableEq
inductive M | thread | block | digIn | destroy
deriving DecidableEq
open Var

/-- `run` (97-135 raw, 138-206 events), src/control/SpaceNavigatorInput.cpp:12-31 (`block`), SpaceNavigatorDigIn.hpp `get`. -/
def cls : Cls Var M where
  code
    | .thread => seq [acc [rd running], [[], [wr axis, wr rotAxis], [wr button], [wr axis], [wr rotAxis]]]
    | .block => acc [rd axis, rd rotAxis, rd button]
    | .digIn => [[rd button], []]
    | .destroy => acc [wr running]
  only
    | .thread => some 1
    | .block => some 0
    | _ => none

theorem bal : cls.Bal := by intro m; cases m <;> decide +kernel

theorem thread_violated (m : M) (hm : m ≠ .thread) : ¬ RaceFree (cls.two .thread m) := by
  rw [two_iff cls bal]
  cases m <;> first | exact absurd rfl hm | decide +kernel

theorem readers_free : Usable cls [.block, .digIn] := by
  apply usable_of cls bal
  decide +kernel

end SpaceNav

/-! ### ODriveUSB (includes/eeros/hal/ODriveUSB.hpp) -/
namespace ODriveUSB

inductive Var | startCalibrationCmd | calibrated
deriving DecidableEq
inductive M | thread | getEncoderVel | setRefVel | startCalibration | isEndstopActive | isCalibrated | getCurrentSetpoint
  | getCurrentMeasured | destroy
deriving DecidableEq
open Var

/-- `run` (483-493) with the calibration (387), `startCalibration` (230-232), `isCalibrated` (243-245); the other methods use atomic members
only (205-281). -/
def cls : Cls Var M where
  code
    | .thread => seq [acc [rd startCalibrationCmd], opt (acc [wr calibrated, rd calibrated])]
    | .startCalibration => acc [wr startCalibrationCmd]
    | .isCalibrated => acc [rd calibrated]
    | .getEncoderVel | .setRefVel | .isEndstopActive | .getCurrentSetpoint | .getCurrentMeasured | .destroy => acc []
  only
    | .thread => some 1
    | _ => none

theorem bal : cls.Bal := by intro m; cases m <;> decide +kernel

/-- **Exactly the two methods of the calibration race with the thread.** -/
theorem thread_violated (m : M) (hm : m ≠ .thread) : RaceFree (cls.two .thread m) ↔ m ≠ .startCalibration ∧ m ≠ .isCalibrated := by
  rw [two_iff cls bal]
  cases m <;> first | exact absurd rfl hm | decide +kernel

/-- The velocities, the currents and the end switches may be used by any number of threads while the device runs. -/
theorem race_free : Usable cls [.thread, .getEncoderVel, .setRefVel, .isEndstopActive, .getCurrentSetpoint, .getCurrentMeasured, .destroy] := by
  apply usable_of cls bal
  decide +kernel

end ODriveUSB

/-! ### Examples -/

/-- The execution behind `Keyboard.thread_violated` for the destructor: the loop tests `running` while it is being set. -/
example : ∃ s : St Keyboard.Var Unit Nat, Reach (Keyboard.cls.two .thread .destroy) s ∧ RaceIn s := by
  have h := Keyboard.thread_violated .destroy (by decide)
  unfold RaceFree at h
  push Not at h
  exact h

example : RaceFree (RPLidar.cls.two .getRanges .getRanges) := (two_iff _ RPLidar.bal _ _).2 (by decide +kernel)
example : ¬ RaceFree (Pixy.cls.two .thread .block) := fun h => absurd ((Pixy.thread_violated .block (by decide)).1 h) (by decide)

/-- Case of `others_violated`. -/
example : ¬ RaceFree (Baumer.cls.two .switchOnLaser .switchOffLaser) := fun h => absurd ((Baumer.others_violated .switchOnLaser .switchOffLaser (by decide) (by decide)).1 h) (by decide)

end Verif.Hal.DeviceRaces
