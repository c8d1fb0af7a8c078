import Verif.Common.XVal
import Verif.Hal.Registry
import Mathlib.Algebra.Field.Defs
import Mathlib.Algebra.Order.Floor.Defs
/-!
Model of the blocks for EtherCAT terminals and drives: `BeckhoffEL1008`, `EL2008`, `EL3004`, `EL4004` (includes/eeros/control/ethercat/beckhoff/*.hpp) and
`ElmoOutput` (includes/eeros/control/ethercat/ElmoOutput.hpp).  The devices belong to another library (ecmasterlib): what the blocks read is an input, what
they write is a list of calls.  An input which is not connected raises a fault (Input.hpp `getSignal`), modelled as `none`.  Time stamps are left out.
`ElmoInput` is in `ElmoInput.lean`.
-/
namespace Verif.Control.EtherCat

/-! ### Digital terminals -/

/-- `BeckhoffEL1008::run` (EL1008.hpp:46-53): output `i` for the value `val` of type `int`. -/
def el1008 (val : BitVec 32) (i : Fin 8) : Bool := (val &&& (1#32 <<< i.val)) != 0#32

/-- One pass of the loop of `BeckhoffEL2008::run` (EL2008.hpp:34-38). -/
def putBit (val : BitVec 32) (i : Nat) (state : Bool) : BitVec 32 := if state then val ||| (1#32 <<< i) else val &&& ~~~(1#32 <<< i)

/-- `BeckhoffEL2008::run` (32-40).  `junk`: the value of the variable `val` which is not initialised (33); reading it is undefined behaviour in C++, here it is an
arbitrary value.  Result: the argument of `setAll`; `none`: fault. -/
def el2008 (junk : BitVec 32) (inp : Fin 8 → Option Bool) : Option (BitVec 32) :=
  (List.finRange 8).foldlM (fun val i => (inp i).map (putBit val i.val)) junk

/-- Constructor of `BeckhoffEL1008` (EL1008.hpp:35-41): two of the eight inputs are added to the HAL, under fixed names.  `p0`, `p1`: the new objects.
`none`: fault. -/
def el1008New (w : Hal.World) (p0 p1 : Hal.Sig) (s : Hal.St) : Option Hal.St :=
  match Hal.add w (some p0) s with
  | (false, _) => none
  | (true, s) => match Hal.add w (some p1) s with
    | (false, _) => none
    | (true, s) => some s

/-! ### Analog terminals -/

variable {K : Type} [Field K] [LinearOrder K] [FloorRing K]

/-- Output of `BeckhoffEL3004::run` (EL3004.hpp:38) for a raw value. -/
def el3004 (raw : Int) : K := (raw : K) / (32768 / 10)

/-- Raw value for one channel in `BeckhoffEL4004::run` (EL4004.hpp:36-39).  The conversion to `int16_t` cuts off towards zero; `none`: undefined (the value
is not finite or does not fit). -/
def el4004 (v : XVal K) : Option Int :=
  let v := if XVal.lt v (.fin 0) then .fin 0 else v
  let v := if XVal.lt (.fin 10) v then .fin 10 else v
  match v with
  | .fin x =>
    let y := x * (32767 / 10)
    let t := if 0 ≤ y then ⌊y⌋ else ⌈y⌉
    if -32768 ≤ t ∧ t ≤ 32767 then some t else none
  | _ => none

/-- Result of a run of `BeckhoffEL4004`: the channels written, and whether all were written. -/
inductive Res where
  | ok
  /-- an input is not connected -/
  | fault
  /-- undefined conversion -/
  | undefined
deriving DecidableEq, Repr

/-- `BeckhoffEL4004::run` (34-41): calls `setChannel(i, raw)` and how it ends. -/
def el4004Run (inp : Nat → Option (XVal K)) : List Nat → List (Nat × Int) × Res
  | [] => ([], .ok)
  | i :: is => match inp i with
    | none => ([], .fault)
    | some v => match el4004 v with
      | none => ([], .undefined)
      | some raw => let (l, r) := el4004Run inp is; ((i, raw) :: l, r)

/-! ### Elmo drive -/

inductive Mode where
  | position
  | velocity
  | torque
  | other
deriving DecidableEq, Repr

/-- Calls of the interface. -/
inductive Call where
  | setTargetPosition (v : Int)
  | setTargetVelocity (v : Int)
  | setTargetTorque (v : Int)
  | setMaximumTorque (v : Int)
deriving DecidableEq, Repr

/-- The four inputs; `none`: not connected. -/
structure Inputs where
  position : Option Int
  velocity : Option Int
  torque : Option Int
  torqueMax : Option Int

/-- The calls until the end or until the first input which is not connected; `true`: no fault. -/
def send : List (Option Call) → List Call × Bool
  | [] => ([], true)
  | none :: _ => ([], false)
  | some c :: cs => let (l, b) := send cs; (c :: l, b)

/-- `ElmoOutput::run` (ElmoOutput.hpp:35-54). -/
def elmo (m : Mode) (i : Inputs) : List Call × Bool :=
  match m with
  | .position => send [i.position.map .setTargetPosition, i.torqueMax.map .setMaximumTorque]
  | .velocity => send [i.velocity.map .setTargetVelocity, i.torqueMax.map .setMaximumTorque]
  | .torque => send [i.torque.map .setTargetTorque, i.torqueMax.map .setMaximumTorque]
  | .other => ([], true)

end Verif.Control.EtherCat
