/-
Model of `control::ODriveUSBInput` (`/repo/includes/eeros/control/drive/ODriveUSBInput.hpp` 45-69) with `ODriveUSB::getEncoderVel` and `setRefVel`
(`/repo/includes/eeros/hal/ODriveUSB.hpp` 205-218), and of `control::ODriveUARTInput` (`/repo/includes/eeros/control/drive/ODriveUARTInput.hpp` 42-50).

Numbers are exact (ordered field `K`), with the results of a division by zero (`XVal`).  The drive works in turns per second, the blocks in radians per second: `1/6.28` turns are one radian.
Both functions of the drive take the number of turns as an `int`.
-/
import Verif.Common.XVal
import Mathlib.Algebra.Order.Floor.Ring
import Mathlib.Algebra.Order.Field.Basic

namespace Verif.Control.ODriveBlock

variable {K : Type} [Field K] [LinearOrder K] [IsStrictOrderedRing K] [FloorRing K]

/-- Conversion of a `double` to `int`: towards zero. -/
def trunc (x : K) : Int := if 0 ≤ x then ⌊x⌋ else ⌈x⌉

/-- The argument `1/6.28` of lines 47, 48, 50 and 51, as the functions get it. -/
def turnsPerRad (K : Type) [Field K] [LinearOrder K] [FloorRing K] : Int := trunc (1 / (628 / 100) : K)

/-- Division of a floating point number by an integer. -/
def divInt (v : K) (n : Int) : XVal K := if n = 0 then (if 0 < v then .pinf else if v < 0 then .ninf else .nan) else .fin (v / n)

/-- The variables of the drive which the block reads and writes, for two motors. -/
structure Drive (K : Type) where
  refVel : Nat → K
  encoderVel : Nat → K
  currentMeasured : Nat → K
  currentSetpoint : Nat → K

/-- `setRefVel` (`ODriveUSB.hpp` 214-218). -/
def setRefVel (d : Drive K) (motor : Nat) (speed : K) (turns : Int) : Drive K :=
  if motor = 0 ∨ motor = 1 then { d with refVel := fun m => if m = motor then turns * speed else d.refVel m } else d

/-- `getEncoderVel` (205-212). -/
def getEncoderVel (d : Drive K) (motor : Nat) (turns : Int) : XVal K :=
  if motor = 0 ∨ motor = 1 then divInt (d.encoderVel motor) turns else .fin 0

/-- The outputs of a block: three vectors of two elements. -/
abbrev Outs (K : Type) := Nat → Nat → XVal K

/-- `ODriveUSBInput::run` with the input `u`. -/
def runUsb (d : Drive K) (u : Nat → K) : Drive K × Outs K :=
  let d := setRefVel d 0 (u 0) (turnsPerRad K)
  let d := setRefVel d 1 (u 1) (turnsPerRad K)
  (d, fun o m =>
    if o = 0 then getEncoderVel d m (turnsPerRad K)
    else if o = 1 then .fin (d.currentMeasured m)
    else .fin (d.currentSetpoint m))

/-- `ODriveUARTInput::run`: only the first output is set; the input is not used. -/
def runUart (d : Drive K) (_u : Nat → K) (old : Outs K) : Drive K × Outs K :=
  (d, fun o m => if o = 0 then .fin (d.encoderVel m) else old o m)

end Verif.Control.ODriveBlock
