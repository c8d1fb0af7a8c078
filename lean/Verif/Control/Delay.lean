import Mathlib.Algebra.Order.Floor.Defs
import Mathlib.Algebra.Order.Field.Basic
/-!
Model of `Delay` (includes/eeros/control/Delay.hpp).  A sample is a value and its time stamp; both buffers are always written and read
at the same index (53-54, 61-62), so they are one buffer of samples.  Elements of a fresh buffer are uninitialised: `none`.
-/
namespace Verif.Control.Delay

variable {S : Type}

/-- 73-79. `out = none` is the cleared output signal of a new block. -/
structure St (S : Type) where
  bufLen : Nat
  index : Nat
  cycle : Bool
  buf : List (Option S)
  out : Option S

/-- Result of constructing a delay block. -/
inductive Ctor (S : Type) where
  | ok (s : St S)
  /-- "delay has negative or zero length", 31 -/
  | fault
  /-- conversion of a value outside the range of `uint32_t`, 30: undefined behaviour -/
  | ub

/-- Constructor for buffer length `n` (31-33). -/
def mk (n : Nat) : St S := { bufLen := n, index := 0, cycle := false, buf := List.replicate n none, out := none }

/-- Constructor, 30-34, for `ts > 0`.  Conversion of a double to `uint32_t` truncates towards zero. -/
def new {K : Type} [Field K] [LinearOrder K] [FloorRing K] (delay ts : K) : Ctor S :=
  let q := delay / ts
  if q ≤ -1 ∨ 4294967296 ≤ q then .ub
  else
    let n := ⌊q⌋.toNat
    if n < 1 then .fault else .ok (mk n)

/-- What a run does: a new state, or undefined behaviour (access outside the buffer or read of an uninitialised element). -/
inductive Run (S : Type) where
  | ok (s : St S)
  | ub

/-- `run`, 52-64. -/
def run (s : St S) (x : S) : Run S :=
  if s.index < s.buf.length then
    let buf := s.buf.set s.index (some x)
    let index := s.index + 1
    let (index, cycle) := if index = s.bufLen then (0, true) else (index, s.cycle)
    if cycle then
      match buf[index]? with
      | some (some y) => .ok { s with buf := buf, index := index, cycle := cycle, out := some y }
      | _ => .ub
    else .ok { s with buf := buf, index := index, cycle := cycle }
  else .ub

/-- A sequence of runs; the outputs after each run. -/
def runs : St S → List S → Option (St S × List (Option S))
  | s, [] => some (s, [])
  | s, x :: xs => match run s x with
    | .ub => none
    | .ok s' => (runs s' xs).map (fun (s'', outs) => (s'', s'.out :: outs))

end Verif.Control.Delay
