/-!
Model of a whole block diagram in a time domain: `TimeDomain::run` (src/control/TimeDomain.cpp:25-40) runs the blocks in the order in which they were added, each block
reads the signals its inputs are connected to (Input.hpp, `Verif.Control.Inputs`) and writes its own signals.

A block is any function from its state and the values of its inputs to its outputs and its new state, as are all blocks in the repository which do not communicate
with other threads.  Every signal belongs to at most one block (an `Output` is a member of its block).  Time stamps are left out.
-/
namespace Verif.Control.Dataflow

/-- A diagram: the signals read and written by each block, and what the block computes. -/
structure Net (S V : Type) where
  ins : Nat → List Nat
  outs : Nat → List Nat
  val : Nat → S → List V → Nat → V
  next : Nat → S → List V → S

/-- The values of all signals and the states of all blocks. -/
structure St (S V : Type) where
  sig : Nat → V
  st : Nat → S

variable {S V : Type}

/-- `b->run()`. -/
def runBlock (N : Net S V) (s : St S V) (b : Nat) : St S V :=
  { sig := fun x => if x ∈ N.outs b then N.val b (s.st b) ((N.ins b).map s.sig) x else s.sig x
    st := fun c => if c = b then N.next b (s.st b) ((N.ins b).map s.sig) else s.st c }

/-- The loop of TimeDomain.cpp:28 when no block throws. -/
def cycle (N : Net S V) (bs : List Nat) (s : St S V) : St S V := bs.foldl (runBlock N) s

/-- The loop of TimeDomain.cpp:28 with blocks which may throw (before they have written an output): the state afterwards and the block which has thrown. -/
def cycleF (N : Net S V) (fails : Nat → S → List V → Bool) : List Nat → St S V → St S V × Option Nat
  | [], s => (s, none)
  | b :: bs, s => if fails b (s.st b) ((N.ins b).map s.sig) then (s, some b) else cycleF N fails bs (runBlock N s b)

/-- Cycles of the executor, between which signal 0 is given from outside. -/
def feed (N : Net S V) (bs : List Nat) (s : St S V) (us : List V) : St S V :=
  us.foldl (fun s u => cycle N bs { s with sig := fun x => if x = 0 then u else s.sig x }) s

/-- A chain of `n` blocks which pass their input on: block `i` reads signal `i` and writes signal `i + 1`. -/
def chain (V : Type) [Inhabited V] : Net Unit V :=
  { ins := fun i => [i], outs := fun i => [i + 1], val := fun _ _ v _ => v.headD default, next := fun _ _ _ => () }

end Verif.Control.Dataflow
