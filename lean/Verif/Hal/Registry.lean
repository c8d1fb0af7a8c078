/-
Model of the signal registry of the hardware abstraction layer
(`/repo/src/hal/HAL.cpp` 71-228, `/repo/includes/eeros/hal/HAL.hpp` 20-75) and of the
constructors of the peripheral blocks which use it
(`includes/eeros/control/PeripheralInput.hpp` 30-33, `PeripheralOutput.hpp` 33-36).

Inputs and outputs are handled by the same code on separate members, so one direction is
modelled; a HAL is a pair of independent registries.

Simplifications: signals are numbers `Nat`; `idOf p` and `kindOf p` are the id and the dynamic
type of signal object `p`, which never change after construction (`Input.hpp` 21, 26:
the id is private and has no setter).  Signal objects are not deleted while registered (the code
never deletes them).  `getOutputFeature`/`dlsym` are not modelled.
-/
import Mathlib.Tactic.Basic

namespace Verif.Hal

abbrev Name := String
abbrev Sig := Nat

/-- Dynamic types which the code distinguishes by `dynamic_cast`: `Input<bool>`,
`ScalableInput<double>`, and `Input<double>` which is not scalable. -/
inductive Kind where
  | logic
  | scalable
  | real
  deriving DecidableEq, Repr

/-- Fixed attributes of the signal objects (`Input.hpp` 21, `Output.hpp` 22). -/
structure World where
  idOf : Sig → Name
  kindOf : Sig → Kind

/-- One direction of the HAL (`HAL.hpp` 69-75).  `reg` is the `std::map<string, Interface*>`;
`some none` is an entry holding a null pointer.  The two `unordered_set`s of pointers are sets
of possibly null pointers. -/
structure St where
  reg : Name → Option (Option Sig)
  excl : Option Sig → Bool
  nonExcl : Option Sig → Bool

/-- Initially everything is empty. -/
def init : St := ⟨fun _ => none, fun _ => false, fun _ => false⟩

/-- Point update of a function. -/
def upd {α β : Type} [DecidableEq α] (f : α → β) (a : α) (b : β) : α → β :=
  fun x => if x = a then b else f x

/-- `inputs[name]` used as an rvalue: `std::map::operator[]` inserts a null pointer when the key
is missing (HAL.cpp 94, 100, 129, 144, ...).  Returns the pointer and the new map. -/
def lookup (s : St) (n : Name) : Option Sig × St :=
  match s.reg n with
  | some p => (p, s)
  | none => (none, { s with reg := upd s.reg n (some none) })

/-- `HAL::addInput` / `addOutput` (HAL.cpp 71-90).  `false` = `Fault`. -/
def add (w : World) (p : Option Sig) (s : St) : Bool × St :=
  match p with
  | none => (false, s)                                   -- "System input is null"
  | some q =>
    if (s.reg (w.idOf q)).isSome then (false, s)         -- "already exists"
    else (true, { s with reg := upd s.reg (w.idOf q) (some (some q)) })

/-- `HAL::releaseInput` / `releaseOutput` (HAL.cpp 92-126).  `false` = `Fault`. -/
def release (n : Name) (s : St) : Bool × St :=
  let (p, s) := lookup s n
  let f1 := s.nonExcl p
  let s := if f1 then { s with nonExcl := upd s.nonExcl p false } else s
  let f2 := s.excl p
  let s := if f2 then { s with excl := upd s.excl p false } else s
  (f1 || f2, s)

/-- Which getter is called: `getInput`/`getOutput` (no cast), `getLogic...`, `getScalable...`. -/
inductive Want where
  | any
  | logic
  | scalable
  deriving DecidableEq, Repr

/-- The `dynamic_cast` at the beginning of `getLogic...` / `getScalable...`
(HAL.cpp 144, 162, 195, 213); the untyped getters do not look at the object, not even for null. -/
def castOk (w : World) : Want → Option Sig → Bool
  | .any, _ => true
  | .logic, some p => w.kindOf p = .logic
  | .scalable, some p => w.kindOf p = .scalable
  | _, none => false

/-- `getOutput`, `getLogicOutput`, `getScalableOutput` and the input versions
(HAL.cpp 128-228).  `none` = `Fault`, `some p` = returned pointer, which may be null. -/
def get (w : World) (k : Want) (n : Name) (exclusive : Bool) (s : St) : Option (Option Sig) × St :=
  let (p, s) := lookup s n
  if !castOk w k p then (none, s)
  else if s.excl p then (none, s)
  else if exclusive then
    if s.nonExcl p then (none, s)
    else (some p, { s with excl := upd s.excl p true })
  else (some p, { s with nonExcl := upd s.nonExcl p true })

/-- Constructor of `PeripheralInput<T>` / `PeripheralOutput<T>`
(PeripheralInput.hpp 30-33, PeripheralOutput.hpp 33-36): claims the signal with the untyped getter
and throws afterwards if the cast to `Input<T>` fails.  `bool` says `T = bool`, otherwise
`T = double`; a `ScalableInput<double>` is an `Input<double>` (ScalableInput.hpp).
There is no destructor which releases the signal. -/
def peripheral (w : World) (bool : Bool) (n : Name) (exclusive : Bool) (s : St) :
    Option Sig × St :=
  match get w .any n exclusive s with
  | (none, s') => (none, s')
  | (some none, s') => (none, s')
  | (some (some p), s') =>
    if (w.kindOf p = .logic) = (bool = true) then (some p, s') else (none, s')

/-- Calls on the registry. -/
inductive Op where
  | add (p : Option Sig)
  | get (k : Want) (n : Name) (exclusive : Bool)
  | release (n : Name)
  | peripheral (bool : Bool) (n : Name) (exclusive : Bool)
  deriving DecidableEq, Repr

/-- Result of a call: a thrown `Fault`, plain success, or a returned pointer. -/
inductive Res where
  | fault
  | done
  | ptr (p : Option Sig)
  deriving DecidableEq, Repr

def step (w : World) (o : Op) (s : St) : Res × St :=
  match o with
  | .add p => match add w p s with | (b, s') => (if b then .done else .fault, s')
  | .get k n e =>
    match get w k n e s with
    | (none, s') => (.fault, s')
    | (some p, s') => (.ptr p, s')
  | .release n => match release n s with | (b, s') => (if b then .done else .fault, s')
  | .peripheral b n e =>
    match peripheral w b n e s with
    | (none, s') => (.fault, s')
    | (some p, s') => (.ptr (some p), s')

/-- A history: the final state and the results in order. -/
def run (w : World) : List Op → St → List Res × St
  | [], s => ([], s)
  | o :: os, s =>
    let (r, s') := step w o s
    let (rs, s'') := run w os s'
    (r :: rs, s'')

end Verif.Hal
