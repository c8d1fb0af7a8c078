import Verif.Control.InputsProps
/-!
Model of `safety::ControlInput` (includes/eeros/safety/ControlInput.hpp): an input of the safety system which reads a signal of the control system.  The
constructors (28-38) keep a reference to the signal which the given input is connected to at that time; `get` (43-44) reads the value of that signal.
-/
namespace Verif.Control.ControlInput

open Verif.Control.Inputs

/-- The signal kept by the constructor, 28-30: the result of `input.getSignal()`; with an unconnected input the constructor throws a `NotConnectedFault`. -/
def Kept (w : World) (i : Nat) (o : Nat) : Prop := Reads w i (.signal o)

/-- `get`, 43-44. -/
def get {V : Type} (val : Nat → V) (o : Nat) : V := val o

end Verif.Control.ControlInput
