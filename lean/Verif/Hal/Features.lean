/-
Model of the features of inputs and outputs: `HAL::callOutputFeature`, `callInputFeature` (`/repo/includes/eeros/hal/HAL.hpp` 37-55), `getOutputFeature`, `getInputFeature`
(`/repo/src/hal/HAL.cpp` 230-246), and of the block `control::Watchdog` (`/repo/includes/eeros/control/Watchdog.hpp` 23-54) which uses them.

A function of a library is a symbol: a name only; what its arguments are the linker does not know (`args`: their types).  `dlsym` with a handle searches the library and those it depends on; with
a null pointer (which is `RTLD_DEFAULT`) the whole program.  Inputs of the framework itself have a null pointer as their handle
(`Input<bool>(id, nullptr)`, e.g. `/repo/includes/eeros/hal/MouseDigIn.hpp` 22), inputs of a driver library the handle of this library.
-/
import Mathlib.Data.List.Basic

namespace Verif.Hal.Features

/-- The types of arguments which matter here. -/
inductive Ty where
  | bool | int | double | string
deriving DecidableEq

/-- A function with its name, the types of its arguments after the object, and where it is defined (`owner`: number of the library, or something else). -/
structure Fn where
  name : String
  args : List Ty
  owner : Nat
deriving DecidableEq

/-- What `dlsym` searches, in this order: for a handle, for the whole program. -/
structure Proc where
  lib : Nat → List Fn
  globals : List Fn

/-- `dlsym(handle, name)`. -/
def dlsym (p : Proc) (handle : Option Nat) (name : String) : Option Fn :=
  match handle with
  | some h => (p.lib h).find? fun f => f.name == name
  | none => p.globals.find? fun f => f.name == name

/-- An input or output: its identity, and the handle of its library. -/
structure Obj where
  id : Nat
  handle : Option Nat
deriving DecidableEq

inductive Res where
  /-- the function was called with this object -/
  | called (f : Fn) (o : Obj)
  /-- `Fault` -/
  | fault
  /-- a function is called with arguments of other types than its own -/
  | undefined
deriving DecidableEq

/-- `callInputFeature(obj, name, args...)`; `callOutputFeature` does the same for outputs. -/
def call (p : Proc) (o : Obj) (name : String) (args : List Ty) : Res :=
  match dlsym p o.handle name with
  | none => .fault
  | some f => if f.args = args then .called f o else .undefined

/-- `Watchdog::run` and `Watchdog::arm`. -/
inductive Wd where
  | run | arm
deriving DecidableEq

def watchdog (p : Proc) (wdt : Obj) : Wd → Res
  | .run => call p wdt "reset" []
  | .arm => call p wdt "arm" []

end Verif.Hal.Features
