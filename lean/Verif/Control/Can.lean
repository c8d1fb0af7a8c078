/-
Model of the CAN blocks: `control::CANopenReceive`, `control::CANopenSend`, `control::CANreceive` (`/repo/includes/eeros/control/can/`).

The library which accesses the bus is not part of the repository.  Its functions are parameters: `dec` (`CANopen::getPDOdata`: the number in some bytes) and
`enc` (`CAN::encodeU32`: the bytes of a number).  `double` is an ordered field `K`.  Time stamps and log messages are left out.
-/
import Mathlib.Algebra.Order.Floor.Ring
import Mathlib.Algebra.Order.Field.Basic

namespace Verif.Control.Can

abbrev Byte := Fin 256

/-- How a run ends other than normally. -/
inductive Err where
  /-- bytes are read which are not part of the message (beyond the buffer, or not initialised) -/
  | undefinedBytes
  /-- element of a vector read beyond its end -/
  | vectorIndex
  /-- `MatrixIndexOutOfBoundException` -/
  | matrixIndex
  /-- `IndexOutOfBoundsFault` -/
  | outIndex
  /-- bytes are written beyond the buffer -/
  | overflow
  /-- a `double` which is not in the range of `uint32_t` is converted to it -/
  | conversion
deriving DecidableEq

/-- A configured PDO (`CANopenReceive.hpp` 215-216): node index, node id, PDO number, lengths in bits, signal indices. -/
structure Pdo where
  nodeNr : Nat
  nodeId : Nat
  nr : Nat
  length : List Nat
  idx : List Int

/-- The outputs of the block: element of a floating point signal of a node, element of a digital signal, status word. -/
inductive Target where
  | real (node elem : Nat)
  | dig (node elem : Nat)
  | status (node : Nat)
deriving DecidableEq

inductive Value (K : Type) where
  | real (x : K)
  | word (n : Nat)

/-- `Blockio::out`, `digOut`, `status` (211-212). -/
abbrev Outs (K : Type) := Target → Value K

def Outs.set {K : Type} (o : Outs K) (t : Target) (v : Value K) : Outs K := fun u => if u = t then v else o u

/-- Conversion of an `int32_t` to `uint32_t`. -/
def u32 (v : Int) : Nat := (v % 2 ^ 32).toNat

section Receive
variable {K : Type} [Field K] (N M P : Nat) (dec : List Byte → Int)

/-- `configureTPDO` (183-195); `none`: the node is not known, only a warning is logged. -/
def configure (node : List Nat) (nodeId nr : Nat) (lens : List Nat) (idx : List Int) (pdo : List Pdo) : List Pdo :=
  if nodeId ∈ node then pdo ++ [⟨node.idxOf nodeId, nodeId, nr, lens, idx⟩] else pdo

/-- Lines 100-110. -/
def store (p : Pdo) (idx val : Int) (o : Outs K) : Except Err (Outs K) :=
  if idx > 0 then
    if p.nodeNr < N then
      if (idx - 1).toNat < M then .ok (o.set (.real p.nodeNr (idx - 1).toNat) (.real (val : K))) else .error .matrixIndex
    else .error .outIndex
  else if idx < 0 then
    if p.nodeNr < N then
      if (-idx - 1).toNat < P then .ok (o.set (.dig p.nodeNr (-idx - 1).toNat) (.word (u32 val))) else .error .matrixIndex
    else .error .outIndex
  else if p.nodeNr < N then .ok (o.set (.status p.nodeNr) (.word (u32 val &&& 0x26F))) else .error .matrixIndex

/-- The loop 97-113 from index `i` and position `start` on; `data`: the bytes of the message. -/
def objects (p : Pdo) (data : List Byte) : List Nat → Nat → Nat → Outs K → Except Err (Outs K)
  | [], _, _, o => .ok o
  | bits :: rest, i, start, o => do
    let len := bits / 8
    if data.length < start + len then .error .undefinedBytes
    else
      let val := dec ((data.drop start).take len)
      match p.idx[i]? with
      | none => .error .vectorIndex
      | some idx => do
        let o ← store N M P p idx val o
        objects p data rest (i + 1) (start + len) o

/-- A received message. -/
structure Msg where
  node : Nat
  nr : Nat
  data : List Byte

/-- The loop 89-115. -/
def message (pdo : List Pdo) (m : Msg) (o : Outs K) : Except Err (Outs K) :=
  pdo.foldlM (fun o p => if m.node = p.nodeId ∧ m.nr = p.nr then objects N M P dec p m.data p.length 0 0 o else .ok o) o

/-- The block (209-217).  `nofPDO` is set by `enable`. -/
structure Receiver (K : Type) where
  enabled : Bool
  nofPDO : Nat
  pdo : List Pdo
  /-- `scale(node, elem)` -/
  scale : Nat → Nat → K

/-- `run` (80-119): `bus` are the results of the calls of `PDOreceive`, `none` for an error. -/
def receive (b : Receiver K) (bus : List (Option Msg)) (o : Outs K) : Except Err (Outs K) :=
  if b.enabled then
    (bus.take b.nofPDO).foldlM (fun o m => match m with
      | some m => message N M P dec b.pdo m o
      | none => .ok o) o
  else .ok o

end Receive

section Send
variable {K : Type} [Field K] [LinearOrder K] [IsStrictOrderedRing K] [FloorRing K]

/-- What the block sends: values of the floating point inputs, the digital inputs, and the control words. -/
structure Ins (K : Type) where
  real : Nat → Nat → K
  dig : Nat → Nat → Nat
  ctrl : Nat → Nat

/-- `(uint32_t)x` for a `double`: truncation; undefined if the result is not in the range. -/
def toU32 (x : K) : Except Err Nat := if -1 < x ∧ x < 2 ^ 32 then .ok ⌊x⌋.toNat else .error .conversion

/-- Lines 91-99: the number which is encoded.  All elements of a node are multiplied with `scale[nodeNr]`, the linear index of which selects the first column.
(For template arguments other than `N = M = 1` line 92 assigns matrices of different sizes; the model does what it would do for any.) -/
def wordOf (M P : Nat) (s : Ins K) (scale : Nat → K) (nodeNr : Nat) (idx : Int) : Except Err Nat :=
  if idx > 0 then
    if (idx - 1).toNat < M then toU32 (s.real nodeNr (idx - 1).toNat * scale nodeNr) else .error .matrixIndex
  else if idx < 0 then
    if (-idx - 1).toNat < P then .ok (s.dig nodeNr (-idx - 1).toNat) else .error .matrixIndex
  else .ok (s.ctrl nodeNr)

/-- The loop 89-102: `done` are the bytes written so far. -/
def encode (M P : Nat) (enc : Nat → Nat → List Byte) (s : Ins K) (scale : Nat → K) (p : Pdo) : List Nat → Nat → List Byte → Except Err (List Byte)
  | [], _, done => .ok done
  | bits :: rest, i, done => do
    match p.idx[i]? with
    | none => .error .vectorIndex
    | some idx => do
      let w ← wordOf M P s scale p.nodeNr idx
      if 8 < done.length + bits / 8 then .error .overflow
      else encode M P enc s scale p rest (i + 1) (done ++ enc w (bits / 8))

/-- Lines 81-105: what is sent for a PDO. -/
def sendPdo (M P : Nat) (enc : Nat → Nat → List Byte) (s : Ins K) (scale : Nat → K) (p : Pdo) : Except Err Msg := do
  let data ← encode M P enc s scale p p.length 0 []
  .ok ⟨p.nodeId, p.nr, data⟩

end Send

/-! ### CANreceive -/

/-- A CAN frame with 8 data bytes. -/
structure Frame where
  id : Nat
  data : Fin 8 → Byte

/-- `CANreceive::run` (`CANreceive.hpp` 55-68): the `i`-th frame is taken for the `i`-th node. -/
def angles {K : Type} [Field K] (scale : Nat → K) (frames : List Frame) : List K :=
  frames.zipIdx.map fun fi => (((fi.1.data 7).val * 256 + (fi.1.data 6).val : Nat) : K) * scale fi.2

end Verif.Control.Can
