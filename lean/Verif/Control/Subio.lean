/-!
Model of the ports of a subsystem `control::Subio<N, M>` (includes/eeros/control/Subio.hpp:27-79; the specialisations for one or no input or output differ
only by the missing index).  `out` is an array of `M` pointers to the outputs of inner blocks; it is not initialised by the constructor (33-35).
-/
namespace Verif.Control.Subio

/-- An output of an inner block: its owner (`none`: null) and whether its signal was cleared. -/
structure Output where
  owner : Option Nat
  cleared : Bool
deriving DecidableEq, Repr

/-- `out`: the array with `M` elements, `none` for an element which was not set; `outputs`: the outputs of the inner blocks by their address. -/
structure St where
  out : List (Option Nat)
  outputs : Nat → Output

def new (M : Nat) (outputs : Nat → Output) : St := ⟨List.replicate M none, outputs⟩

/-- What a call returns. -/
inductive Res where
  | done
  | input (i : Nat)
  | output (a : Nat)
  /-- `IndexOutOfBoundsFault` -/
  | fault
  /-- undefined behaviour: write beyond the array, or use of a pointer which was not set -/
  | undefined
deriving DecidableEq, Repr

inductive Op where
  | getIn (i : Nat)
  | getOut (i : Nat)
  | setOut (a : Nat) (i : Nat)
deriving DecidableEq, Repr

/-- `getIn` (48-51), `getOut` (59-62), `setOut` (70-74) of the subsystem `self` with `N` inputs.  After undefined behaviour the state is left as it is. -/
def step (N self : Nat) (s : St) : Op → St × Res
  | .getIn i => (s, if i ≥ N then .fault else .input i)
  | .getOut i => (s, if i ≥ s.out.length then .fault else match s.out.getD i none with
      | some a => .output a
      | none => .undefined)
  | .setOut a i =>
    if i < s.out.length then ({ out := s.out.set i (some a), outputs := fun b => if b = a then ⟨some self, true⟩ else s.outputs b }, .done)
    else (s, .undefined)

def run (N self : Nat) (s : St) (ops : List Op) : St := ops.foldl (fun s op => (step N self s op).1) s

end Verif.Control.Subio
