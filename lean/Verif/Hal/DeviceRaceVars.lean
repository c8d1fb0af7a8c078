import Verif.Control.RaceVars
import Verif.Hal.DeviceRaces
/-!
The data races of `Verif/Hal/DeviceRaces.lean` variable by variable: for every device class the complete table of the members on which the
thread of the device races with a method.  `racing` is the table as a reader of the code would write it; the theorems say that the
executions have races on exactly these members.
-/
namespace Verif.Hal.DeviceRaceVars
open Verif.Common.Race Verif.Control.BlockRaces Verif.Control.RaceVars Verif.Hal.DeviceRaces

namespace Baumer
open DeviceRaces.Baumer DeviceRaces.Baumer.Var

/-- The members on which the method `m` races with the thread of the device. -/
def racing : M → List Var
  | .getDistance => [distance]
  | .switchOnLaser => [tabReg]
  | .switchOffLaser => [tabReg]
  | _ => []

/-- BaumerOM70: the distance for the getter, the registers for the methods which switch the laser. -/
theorem vars_violated (m : M) (hm : m ≠ .thread) (v : Var) : FreeOn (cls.two .thread m) v ↔ v ∉ racing m := by
  rw [two_on_iff cls bal]
  cases m <;> first | exact absurd rfl hm | (cases v <;> decide +kernel)

end Baumer

namespace RPLidar
open DeviceRaces.RPLidar DeviceRaces.RPLidar.Var

/-- The members on which the method `m` races with the thread of the device. -/
def racing : M → List Var
  | .getAngles => [angles]
  | .getRanges => [ranges]
  | .getIntensities => [intensities]
  | .block => [angles, ranges]
  | _ => []

/-- RPLidar: the vectors of the scan; the block reads two of them. -/
theorem vars_violated (m : M) (hm : m ≠ .thread) (v : Var) : FreeOn (cls.two .thread m) v ↔ v ∉ racing m := by
  rw [two_on_iff cls bal]
  cases m <;> first | exact absurd rfl hm | (cases v <;> decide +kernel)

end RPLidar

namespace Pixy
open DeviceRaces.Pixy DeviceRaces.Pixy.Var

/-- The members on which the method `m` races with the thread of the device. -/
def racing : M → List Var
  | .getPos => [output]
  | .getPosRaw => [outputRaw]
  | .getDots => [pos]
  | .getHeight => [height]
  | .isDataValid => [valid]
  | .getNofBlocks => [nofBlocks]
  | .block => [output, outputRaw, pos, height, valid]
  | _ => []

/-- PixyCam: each getter on its own member, the block on five of them. -/
theorem vars_violated (m : M) (hm : m ≠ .thread) (v : Var) : FreeOn (cls.two .thread m) v ↔ v ∉ racing m := by
  rw [two_on_iff cls bal]
  cases m <;> first | exact absurd rfl hm | (cases v <;> decide +kernel)

end Pixy

namespace Realsense
open DeviceRaces.Realsense DeviceRaces.Realsense.Var

/-- The members on which the method `m` races with the thread of the device. -/
def racing : M → List Var
  | .block => [translation, velocity, acceleration, quaternion, angVelocity, angAcceleration]
  | _ => []

/-- RealsenseT265: all six members. -/
theorem vars_violated (m : M) (hm : m ≠ .thread) (v : Var) : FreeOn (cls.two .thread m) v ↔ v ∉ racing m := by
  rw [two_on_iff cls bal]
  cases m <;> first | exact absurd rfl hm | (cases v <;> decide +kernel)

end Realsense

namespace SBG
open DeviceRaces.SBG DeviceRaces.SBG.Var

/-- The members on which the method `m` races with the thread of the device. -/
def racing : M → List Var
  | .block => [euler, quat, accel, gyro, tsEuler]
  | _ => []

/-- SBGEllipseA: the four vectors and the time stamp of the Euler angles; the other time stamps are not read by the block. -/
theorem vars_violated (m : M) (hm : m ≠ .thread) (v : Var) : FreeOn (cls.two .thread m) v ↔ v ∉ racing m := by
  rw [two_on_iff cls bal]
  cases m <;> first | exact absurd rfl hm | (cases v <;> decide +kernel)

end SBG

namespace Keyboard
open DeviceRaces.Keyboard DeviceRaces.Keyboard.Var

/-- The members on which the method `m` races with the thread of the device. -/
def racing : M → List Var
  | .block => [state]
  | .reset => [state]
  | .digIn => [event]
  | .construct => [nofKeys, asciiCode, state, event]
  | .destroy => [running]
  | _ => []

/-- Keyboard: the list of the keys is written by the constructor of the block, the states and events by the thread. -/
theorem vars_violated (m : M) (hm : m ≠ .thread) (v : Var) : FreeOn (cls.two .thread m) v ↔ v ∉ racing m := by
  rw [two_on_iff cls bal]
  cases m <;> first | exact absurd rfl hm | (cases v <;> decide +kernel)

end Keyboard

namespace Mouse
open DeviceRaces.Mouse DeviceRaces.Mouse.Var

/-- The members on which the method `m` races with the thread of the device. -/
def racing : M → List Var
  | .block => [x, y, z, r, left, middle, right]
  | .digIn => [left, middle, right]
  | .onEvent => [eventAction]
  | .onButton => [buttonAction]
  | .onAxis => [axisAction]
  | .destroy => [running]
  | _ => []

/-- Mouse: the axes and the buttons, for the inputs of the safety system the buttons only. -/
theorem vars_violated (m : M) (hm : m ≠ .thread) (v : Var) : FreeOn (cls.two .thread m) v ↔ v ∉ racing m := by
  rw [two_on_iff cls bal]
  cases m <;> first | exact absurd rfl hm | (cases v <;> decide +kernel)

end Mouse

namespace XBox
open DeviceRaces.XBox DeviceRaces.XBox.Var

/-- The members on which the method `m` races with the thread of the device. -/
def racing : M → List Var
  | .block => [axis, buttonState]
  | .digIn => [buttonState]
  | .onEvent => [eventAction]
  | .onButton => [buttonAction]
  | .onAxis => [axisAction]
  | .destroy => [running]
  | _ => []

/-- XBox: the axes and the state of the buttons; nobody else reads the two vectors of the edges. -/
theorem vars_violated (m : M) (hm : m ≠ .thread) (v : Var) : FreeOn (cls.two .thread m) v ↔ v ∉ racing m := by
  rw [two_on_iff cls bal]
  cases m <;> first | exact absurd rfl hm | (cases v <;> decide +kernel)

end XBox

namespace SpaceNav
open DeviceRaces.SpaceNav DeviceRaces.SpaceNav.Var

/-- The members on which the method `m` races with the thread of the device. -/
def racing : M → List Var
  | .block => [axis, rotAxis, button]
  | .digIn => [button]
  | .destroy => [running]
  | _ => []

/-- SpaceNavigator: the axes, the rotations and the buttons. -/
theorem vars_violated (m : M) (hm : m ≠ .thread) (v : Var) : FreeOn (cls.two .thread m) v ↔ v ∉ racing m := by
  rw [two_on_iff cls bal]
  cases m <;> first | exact absurd rfl hm | (cases v <;> decide +kernel)

end SpaceNav

namespace ODriveUSB
open DeviceRaces.ODriveUSB DeviceRaces.ODriveUSB.Var

/-- The members on which the method `m` races with the thread of the device. -/
def racing : M → List Var
  | .startCalibration => [startCalibrationCmd]
  | .isCalibrated => [calibrated]
  | _ => []

/-- ODriveUSB: the two flags of the calibration. -/
theorem vars_violated (m : M) (hm : m ≠ .thread) (v : Var) : FreeOn (cls.two .thread m) v ↔ v ∉ racing m := by
  rw [two_on_iff cls bal]
  cases m <;> first | exact absurd rfl hm | (cases v <;> decide +kernel)

end ODriveUSB

/-! ### Between two devices and between two users -/

/-- Two SBGEllipseA share all their data: their threads race on every member. -/
theorem sbg_two_devices_violated (v : SBG.Var) : ¬ FreeOn (SBG.cls.two .thread .thread) v := by
  rw [two_on_iff _ SBG.bal]
  cases v <;> decide +kernel

/-- Two readers of the keyboard race on the states when one of them is `reset`, and on the events when both are inputs of the safety
system; on nothing else. -/
theorem keyboard_users_violated (a b : Keyboard.M) (ha : a ∈ [Keyboard.M.block, .reset, .digIn]) (hb : b ∈ [Keyboard.M.block, .reset, .digIn])
    (v : Keyboard.Var) : ¬ FreeOn (Keyboard.cls.two a b) v ↔
      (v = .state ∧ ((a = .reset ∧ b ≠ .digIn) ∨ (b = .reset ∧ a ≠ .digIn))) ∨ (v = .event ∧ a = .digIn ∧ b = .digIn) := by
  rw [two_on_iff _ Keyboard.bal]
  revert ha hb
  cases a <;> cases b <;> cases v <;> decide +kernel

/-! ### Examples -/

/-- The right button of the mouse is read by an input of the safety system while the thread writes it. -/
example : ∃ s : St Mouse.Var Unit Nat, Reach (DeviceRaces.Mouse.cls.two .thread .digIn) s ∧ RaceOn s .right := by
  have h := mt (Mouse.vars_violated .digIn (by decide) .right).1 (by decide)
  unfold FreeOn at h
  push Not at h
  exact h
/-- The block of the lidar does not use the intensities. -/
example : FreeOn (DeviceRaces.RPLidar.cls.two .thread .block) .intensities :=
  (RPLidar.vars_violated .block (by decide) .intensities).2 (by decide)
/-- The block of the inertial unit reads the time stamp of the Euler angles while the thread writes it, the other time stamps are safe. -/
example : ¬ FreeOn (DeviceRaces.SBG.cls.two .thread .block) .tsEuler ∧ FreeOn (DeviceRaces.SBG.cls.two .thread .block) .tsQuat :=
  ⟨mt (SBG.vars_violated .block (by decide) .tsEuler).1 (by decide), (SBG.vars_violated .block (by decide) .tsQuat).2 (by decide)⟩
example : ¬ FreeOn (DeviceRaces.Keyboard.cls.two .digIn .digIn) .event :=
  (keyboard_users_violated .digIn .digIn (by decide) (by decide) .event).2 (Or.inr ⟨rfl, rfl, rfl⟩)

end Verif.Hal.DeviceRaceVars
