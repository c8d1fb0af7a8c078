/-!
Model of `src/control/TimeDomain.cpp`.
-/
namespace Verif.Control.TimeDomain

/-- What a block's `run()` does: returns, throws `NotConnectedFault`, throws `NaNOutputFault`, or throws anything else. -/
inductive Outcome where
  | ok
  | notConnected
  | nanOutput
  | other
deriving DecidableEq, Repr

abbrev Block := Nat

/-- TimeDomain.hpp private members; `event` is set iff safety system and event are registered (20-23 sets both). -/
structure St where
  running : Bool := true
  blocks : List Block := []
  event : Option Nat := none
deriving DecidableEq, Repr

/-- How a call of `run` ends. -/
inductive Ending where
  | returned
  /-- `throw eeros::Fault` (33, 38) -/
  | fault
  /-- an exception of another type passes through -/
  | other
deriving DecidableEq, Repr

structure Result where
  /-- blocks whose `run()` was called, in order -/
  executed : List Block
  /-- events triggered -/
  events : List Nat
  ending : Ending
deriving DecidableEq, Repr

/-- The loop of line 28: executed blocks and the exception that left it.  `out i` is the outcome of the `i`-th block run. -/
def loop (out : Nat → Outcome) : Nat → List Block → List Block × Outcome
  | _, [] => ([], .ok)
  | i, b :: bs => match out i with
    | .ok => let (l, o) := loop out (i+1) bs; (b :: l, o)
    | o => ([b], o)

/-- `run`, TimeDomain.cpp:25-40. -/
def run (s : St) (out : Nat → Outcome) : Result :=
  if !s.running then ⟨[], [], .returned⟩
  else
    let (l, o) := loop out 0 s.blocks
    match o with
    | .ok => ⟨l, [], .returned⟩
    | .notConnected => match s.event with
      | some e => ⟨l, [e], .returned⟩
      | none => ⟨l, [], .fault⟩
    | .nanOutput => match s.event with
      | some e => ⟨l, [e], .returned⟩
      | none => ⟨l, [], .fault⟩
    | .other => ⟨l, [], .other⟩

inductive Op where
  | add (b : Block)
  | remove (b : Block)
  | start
  | stop
  | register (e : Nat)
  | run (out : Nat → Outcome)

/-- 20-23, 42-64; `std::list::remove` removes all occurrences. -/
def step (s : St) : Op → St × Option Result
  | .add b => ({ s with blocks := s.blocks ++ [b] }, none)
  | .remove b => ({ s with blocks := s.blocks.filter (· ≠ b) }, none)
  | .start => ({ s with running := true }, none)
  | .stop => ({ s with running := false }, none)
  | .register e => ({ s with event := some e }, none)
  | .run out => (s, some (run s out))

def exec (s : St) (ops : List Op) : St := ops.foldl (fun s op => (step s op).1) s

end Verif.Control.TimeDomain
