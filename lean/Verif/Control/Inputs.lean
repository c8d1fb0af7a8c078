/-!
Model of `Input`, `InputSub` and `Output` (includes/eeros/control/Input.hpp, InputSub.hpp, Output.hpp).

Objects are numbered.  `Target.out o` is a plain output with its own signal; `Target.sub i` is the sub-block input `i`, which is an
`Input` and an `Output` at the same time (InputSub.hpp:23).  The model keeps which output every input points to; a read returns the
identity of the output whose signal is handed out, so that two reads returning the same identity return the same signal object.
-/
namespace Verif.Control.Inputs

inductive Target where
  | out (o : Nat)
  | sub (i : Nat)
deriving DecidableEq, Repr

/-- `connectedOutput` of every input (Input.hpp:26, 99). -/
abbrev World := Nat → Option Target

def World.init : World := fun _ => none

inductive Op where
  /-- `connect(Output&)`, 41-45 -/
  | connect (i : Nat) (t : Target)
  /-- `connect(Output*)`, 53-57; the pointer may be null -/
  | connectPtr (i : Nat) (t : Option Target)
  /-- `disconnect()`, 62-64 -/
  | disconnect (i : Nat)
deriving DecidableEq, Repr

def World.set (w : World) (i : Nat) (t : Option Target) : World := fun j => if j = i then t else w j

/-- The new world and the returned value (`disconnect` returns nothing: `true`). -/
def step (w : World) : Op → World × Bool
  | .connect i t => if w i ≠ none then (w, false) else (w.set i (some t), true)
  | .connectPtr i t => if w i ≠ none then (w, false) else (w.set i t, true)
  | .disconnect i => (w.set i none, true)

def exec (w : World) (ops : List Op) : World := ops.foldl (fun w op => (step w op).1) w

/-- `isConnected`, 71-73. -/
def isConnected (w : World) (i : Nat) : Bool := (w i).isSome

inductive Res where
  /-- the signal of output `o` -/
  | signal (o : Nat)
  /-- `throw NotConnectedFault` -/
  | notConnected
deriving DecidableEq, Repr

/-- `getSignal`, Input.hpp:82-87, with the virtual call into Output.hpp:39-41 or InputSub.hpp:44-46.  `fuel` bounds the recursion
depth; `none` means that the call has not returned within it. -/
def readF (w : World) : Nat → Nat → Option Res
  | 0, _ => none
  | fuel+1, i => match w i with
    | none => some .notConnected
    | some (.out o) => some (.signal o)
    | some (.sub j) => readF w fuel j

/-- Calling `getSignal` on input `i` returns with result `r`. -/
def Reads (w : World) (i : Nat) (r : Res) : Prop := ∃ fuel, readF w fuel i = some r

end Verif.Control.Inputs
