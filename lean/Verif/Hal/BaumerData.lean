/-
Model of the data path of the distance sensor Baumer OM70: `getMeasurements`, `getDistance` and `run` of `/repo/src/hal/BaumerOM70.cpp` (29-48, 78-88)
and `BaumerOM70Input::run` (`/repo/includes/eeros/control/sensor/BaumerOM70Input.hpp` 43-46).

The registers are 16 bit numbers, the processor is little endian.  A read which fails leaves the registers as they are (`modbus_read_input_registers` returns -1, nobody looks at it).
The multiplication with 0.001 is exact.  Start and end of the thread are in `Verif/Hal/DevThread.lean`.  Reading and writing of `distance` is one step (it is not atomic in the code, but one aligned word).
-/
import Verif.Common.XVal
import Mathlib.Algebra.Field.Basic
import Mathlib.Data.Rat.Defs

namespace Verif.Hal.BaumerData

/-- The value of 32 bits as `float` (IEEE 754 single precision). -/
def toFloat (bits : Nat) : XVal ℚ :=
  let sign : ℚ := if bits / 2147483648 % 2 = 1 then -1 else 1
  let e := bits / 8388608 % 256
  let m := bits % 8388608
  if e = 255 then (if m = 0 then (if sign = 1 then .pinf else .ninf) else .nan)
  else if e = 0 then .fin (sign * m / 2 ^ 149)
  else .fin (sign * (8388608 + m) * 2 ^ e / 2 ^ 150)

/-- Product with 0.001 (line 36). -/
def milli : XVal ℚ → XVal ℚ
  | .fin x => .fin (x * (1 / 1000))
  | .pinf => .pinf
  | .ninf => .ninf
  | .nan => .nan

/-- `tabReg[32]` and `distance`; `none`: not yet written. -/
structure St where
  tabReg : Nat → Option Nat
  distance : Option (XVal ℚ)

/-- The members have no initialisers. -/
def init : St := ⟨fun _ => none, none⟩

/-- `getMeasurements` (30-36): `reply = none`: the read failed. -/
def getMeasurements (s : St) (reply : Option (Nat → Nat)) : St :=
  let reg := match reply with
    | some r => fun i => if i < 17 then some (r i) else s.tabReg i
    | none => s.tabReg
  match reg 3, reg 4 with
  | some lo, some hi => ⟨reg, some (milli (toFloat (lo + 65536 * hi)))⟩
  | _, _ => ⟨reg, none⟩

/-- The loop of the thread (84-87): one reply after the other. -/
def loop (s : St) (replies : List (Option (Nat → Nat))) : St := replies.foldl getMeasurements s

/-- `BaumerOM70Input::run` at the time `t`: value and timestamp of the output. -/
def block (s : St) (t : Nat) : Option (XVal ℚ) × Nat := (s.distance, t)

end Verif.Hal.BaumerData
