import Mathlib.Algebra.Field.Defs
/-!
Model of the XBox controller: `XBox::run` (src/hal/XBox.cpp:78-120) and the output of the block `XBoxInput::run`
(src/control/XBoxInput.cpp:15-40).  Numbers are exact; the state is read and written without races.
-/
namespace Verif.Hal.XBox

variable {K : Type} [Field K]

/-- `struct js_event`: `type` is 1 for a button, 2 for an axis, with 0x80 added for the initial state; `value` is an `int16_t`. -/
structure Ev where
  type : Nat
  number : Nat
  value : Int
deriving DecidableEq, Repr

inductive Call (K : Type) where
  | button (number : Nat) (value : Bool)
  | axis (number : Nat) (value : K)
deriving DecidableEq

/-- `XBoxState`, XBox.hpp:15-22. -/
structure Pad (K : Type) where
  axis : Nat → K
  state : Nat → Bool
  up : Nat → Bool
  down : Nat → Bool

structure St (K : Type) where
  current : Pad K
  last : Pad K
  /-- the local variable `e` (81), not initialised before the first successful read -/
  e : Option Ev
  /-- calls of the functions given to `on_button` and `on_axis`, newest first -/
  calls : List (Call K)

def Pad.zero : Pad K := ⟨fun _ => 0, fun _ => false, fun _ => false, fun _ => false⟩

/-- Constructor, XBox.cpp:26-37. -/
def init : St K := ⟨Pad.zero, Pad.zero, none, []⟩

def upd {V : Type} (f : Nat → V) (n : Nat) (v : V) : Nat → V := fun m => if m = n then v else f m

/-- The body of the loop after the read, 85-118. -/
def process (s : St K) (e : Ev) : St K :=
  let s1 : St K :=
    if e.type = 1 ∨ e.type = 129 then
      if e.number < 8 then
        let b : Bool := decide (e.value ≠ 0)
        { s with
          current := { s.current with
            state := upd s.current.state e.number b
            up := upd s.current.up e.number (!b && s.last.state e.number)
            down := upd s.current.down e.number (b && !s.last.state e.number) }
          calls := if e.type = 1 then .button e.number b :: s.calls else s.calls }
      else s
    else if e.type = 2 ∨ e.type = 130 then
      if e.number < 8 then
        let v : K := (e.value : K) / 32767
        { s with
          current := { s.current with axis := upd s.current.axis e.number v }
          calls := if e.type = 2 then .axis e.number v :: s.calls else s.calls }
      else s
    else s
  { s1 with last := s1.current, e := some e }

inductive Op where
  /-- `read` delivers an event (83) -/
  | read (e : Ev)
  /-- `read` fails or reaches the end of the file; the result is ignored (83) and `e` processed again -/
  | fail
deriving DecidableEq, Repr

/-- One pass of the loop; `none`: the uninitialised `e` is read. -/
def step (s : St K) : Op → Option (St K)
  | .read e => some (process s e)
  | .fail => match s.e with
    | none => none
    | some e => some (process s e)

/-- The state after a history of passes (newest first). -/
def after : List Op → Option (St K)
  | [] => some init
  | op :: h => (after h).bind (fun s => step s op)

/-- The value of the output of `XBoxInput::run`, XBoxInput.cpp:16-25 with the indices of XBox.hpp:25-34. -/
def output (s : St K) : List K :=
  [s.current.axis 0, s.current.axis 1, s.current.axis 2, s.current.axis 4, s.current.axis 3, s.current.axis 5, s.current.axis 6,
   s.current.axis 7]

end Verif.Hal.XBox
