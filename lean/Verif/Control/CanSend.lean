/-
Model of `control::CANsend` (`/repo/includes/eeros/control/can/CANsend.hpp`): set points for the drives of the RMD-X series.

`CAN::encodeU32` is the parameter `enc` (number, number of bytes), `CAN::frameSend` the list of its results.  `double` is an ordered field `K`.
A byte of a frame which was never written is `none`, and so is the matrix `speed` before `setSpeed`.  Log messages are left out.
-/
import Verif.Control.Can

namespace Verif.Control.CanSend

open Verif.Control.Can (Byte)

/-- A frame (`can_frame`, lines 59-64): identifier, length, and eight bytes. -/
structure Frame where
  id : Nat
  len : Nat
  data : List (Option Byte)
deriving DecidableEq

/-- How a run ends. -/
inductive End where
  | ok
  /-- `eeros::Fault` (line 66) -/
  | fault
  /-- `MatrixIndexOutOfBoundException` -/
  | matrixIndex
  /-- a number is converted to an unsigned type it does not fit into -/
  | conversion
  /-- `speed` is used before it was set -/
  | uninitialised
deriving DecidableEq

/-- The block (118-122). -/
structure Block (K : Type) where
  enabled : Bool
  scale : Nat → K
  speed : Option (Nat → K)
  nodes : List Nat

variable {K : Type} [Field K] [LinearOrder K] [IsStrictOrderedRing K] [FloorRing K]

/-- The constructor (34-40): writes `scale[i]` for every node; the matrix has `N` elements.  `rest` is what the other elements hold. -/
def construct (N : Nat) (nodes : List Nat) (rest : Nat → K) : Option (Block K) :=
  if nodes.length ≤ N then some ⟨false, fun i => if i < nodes.length then 1 else rest i, none, nodes⟩ else none

/-- `enable`, `disable`, `setSpeed`, `setScale` (78-115). -/
def enable (b : Block K) : Block K := { b with enabled := true }
def disable (b : Block K) : Block K := { b with enabled := false }
def setSpeed (b : Block K) (s : Nat → K) : Block K := { b with speed := some s }
def setScale (b : Block K) (s : Nat → K) : Block K := { b with scale := s }

/-- Conversion of a `double` to an unsigned number of `bits` bits. -/
def toUnsigned (bits : Nat) (x : K) : Option Nat := if -1 < x ∧ x < 2 ^ bits then some ⌊x⌋.toNat else none

/-- Lines 57-64: the frame for the node with index `i`. -/
def frame (N : Nat) (enc : Nat → Nat → List Byte) (b : Block K) (input : Nat → K) (i node : Nat) : Except End Frame :=
  if i < N then
    match toUnsigned 32 (input i * b.scale i) with
    | none => .error .conversion
    | some pos =>
      match b.speed with
      | none => .error .uninitialised
      | some s =>
        match toUnsigned 16 (s i) with
        | none => .error .conversion
        | some sp => .ok ⟨0x140 + node, 8, [some 0xa5, none] ++ (enc sp 2).map some ++ (enc pos 4).map some⟩
  else .error .matrixIndex

/-- The loop 56-67 from index `i` on: the frames which were sent, and how it ends.  `bus k`: the call of `frameSend` for index `k` succeeds. -/
def loop (N : Nat) (enc : Nat → Nat → List Byte) (b : Block K) (input : Nat → K) (bus : Nat → Bool) : List Nat → Nat → List Frame × End
  | [], _ => ([], .ok)
  | node :: rest, i =>
    match frame N enc b input i node with
    | .error e => ([], e)
    | .ok f =>
      if bus i then
        let r := loop N enc b input bus rest (i + 1)
        (f :: r.1, r.2)
      else ([], .fault)

/-- `run` (54-69). -/
def run (N : Nat) (enc : Nat → Nat → List Byte) (b : Block K) (input : Nat → K) (bus : Nat → Bool) : List Frame × End :=
  if b.enabled then loop N enc b input bus b.nodes 0 else ([], .ok)

end Verif.Control.CanSend
