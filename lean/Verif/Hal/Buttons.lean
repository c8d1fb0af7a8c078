/-
Model of the buttons of input devices as critical inputs: `MouseDigIn`, `XBoxDigIn`, `SpaceNavigatorDigIn` (`/repo/includes/eeros/hal/`), registered by the constructors of `Mouse`, `XBox`,
`SpaceNavigator` (`/repo/src/hal/Mouse.cpp` 12-38, `XBox.cpp` 13-45, `SpaceNavigator.cpp` 13-29) in the hardware abstraction layer (`HAL::addInput`, `/repo/src/hal/HAL.cpp` 71-80).

Several objects of one kind of device, each with its own buttons.  Their threads set the buttons (`event`).  Nobody else uses the names of the buttons.
An object is unborn, alive, or gone; the inputs which its constructor has registered are never removed, and hold a pointer to it.
-/
import Mathlib.Data.List.Basic

namespace Verif.Hal.Buttons

inductive Kind where
  | mouse | xbox | space
deriving DecidableEq

/-- The names given by the constructors, in the order of the buttons (`Mouse.cpp` 14-16, `XBox.cpp` 15-22, `SpaceNavigator.cpp` 16-17). -/
def names : Kind → List String
  | .mouse => ["leftMouseButton", "middleMouseButton", "rightMouseButton"]
  | .xbox => ["XBoxButtonA", "XBoxButtonB", "XBoxButtonX", "XBoxButtonY", "XBoxButtonLB", "XBoxButtonRB", "XBoxButtonBack", "XBoxButtonStart"]
  | .space => ["SpaceNavButtonL", "SpaceNavButtonR"]

/-- `get` of the input with name `id` (`MouseDigIn.hpp` 25-30, `XBoxDigIn.hpp` 15-25, `SpaceNavigatorDigIn.hpp` 15-19; indices of the buttons `XBox.hpp` 36-43, `SpaceNavigator.hpp` 34-35).
`b`: the buttons; left, middle, right of the mouse are 0, 1, 2. -/
def get (k : Kind) (b : Nat → Bool) (id : String) : Bool :=
  match k with
  | .mouse =>
    if id = "leftMouseButton" then b 0 else if id = "middleMouseButton" then b 1 else if id = "rightMouseButton" then b 2 else false
  | .xbox =>
    if id = "XBoxButtonA" then b 0 else if id = "XBoxButtonB" then b 1 else if id = "XBoxButtonX" then b 2 else if id = "XBoxButtonY" then b 3
    else if id = "XBoxButtonLB" then b 4 else if id = "XBoxButtonRB" then b 5 else if id = "XBoxButtonBack" then b 6 else if id = "XBoxButtonStart" then b 7 else false
  | .space =>
    if id = "SpaceNavButtonL" then b 0 else if id = "SpaceNavButtonR" then b 1 else false

inductive Life where
  | unborn | alive | gone
deriving DecidableEq

/-- All objects of one kind, and to which of them each registered input points (`inputs` of the hardware abstraction layer). -/
structure World where
  life : Nat → Life
  button : Nat → Nat → Bool
  inputs : String → Option Nat

def World.start : World := ⟨fun _ => .unborn, fun _ _ => false, fun _ => none⟩

inductive Op where
  /-- construct an object; `opens`: its device file can be opened -/
  | construct (d : Nat) (opens : Bool)
  | destroy (d : Nat)
  /-- the thread of the object has read that a button was pressed or released -/
  | event (d i : Nat) (v : Bool)
  /-- the safety system reads an input -/
  | read (id : String)
deriving DecidableEq

inductive Res where
  | done
  /-- `Fault` -/
  | fault
  /-- does not return -/
  | hangs
  | value (v : Bool)
  /-- no such input -/
  | unknown
  /-- use of an object which does not exist any more -/
  | undefined
  /-- the operation is not possible in this state -/
  | impossible
deriving DecidableEq

/-- One operation.  A constructor which cannot register its first button throws; the destructor of the base class (`/repo/src/core/Thread.cpp` 23) then joins the thread, which
runs as long as `running` is set if the device could be opened (`Mouse.cpp` 72-76), and nobody clears `running`. -/
def step (k : Kind) (w : World) : Op → World × Res
  | .construct d opens =>
    if w.life d = .unborn then
      if (names k).any fun n => (w.inputs n).isSome then ({ w with life := fun e => if e = d then .gone else w.life e }, if opens then .hangs else .fault)
      else
        ({ life := fun e => if e = d then .alive else w.life e
           button := fun e => if e = d then fun _ => false else w.button e
           inputs := fun n => if n ∈ names k then some d else w.inputs n }, .done)
    else (w, .impossible)
  | .destroy d => if w.life d = .alive then ({ w with life := fun e => if e = d then .gone else w.life e }, .done) else (w, .impossible)
  | .event d i v => if w.life d = .alive then ({ w with button := fun e j => if e = d ∧ j = i then v else w.button e j }, .done) else (w, .impossible)
  | .read id =>
    match w.inputs id with
    | none => (w, .unknown)
    | some d => if w.life d = .alive then (w, .value (get k (w.button d) id)) else (w, .undefined)

def run (k : Kind) (w : World) (os : List Op) : World := os.foldl (fun w o => (step k w o).1) w

end Verif.Hal.Buttons
