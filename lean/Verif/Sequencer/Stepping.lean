/-!
Model of single stepping: Sequencer::singleStepping, step, restart (src/sequencer/Sequencer.cpp:51-62), the gate at the beginning of
BaseSequence::action (src/sequencer/BaseSequence.cpp:25-30), and the thread of the user interface which serves one client after the other
(src/sequencer/SequencerUI.cpp:49-102).  Every access to an atomic variable is one step.
-/
namespace Verif.Sequencer.Stepping

/-- Where a thread which runs sequences is with respect to the gate. -/
inductive Pc where
  /-- Outside of the gate. -/
  | outside
  /-- In the loop of line 28. -/
  | waiting
  /-- Before line 29. -/
  | clearing
deriving DecidableEq, Repr

structure St where
  stepping : Bool
  nextStep : Bool
  running : Bool
  /-- One entry per thread. -/
  pc : Nat → Pc
  /-- Number of times a thread has passed the gate after having waited, and without having waited. -/
  stepped : Nat
  free : Nat

/-- Sequencer.cpp:9, 12 -/
def init : St := ⟨false, false, true, fun _ => .outside, 0, 0⟩

inductive Op where
  /-- Sequencer.cpp:51-53 -/
  | singleStepping
  /-- Sequencer.cpp:55-57 -/
  | step
  /-- Sequencer.cpp:59-62, first assignment; the second is `step`. -/
  | stopStepping
  /-- Thread `i` takes a step at the gate, BaseSequence.cpp:26-29. -/
  | gate (i : Nat)
deriving DecidableEq, Repr

def gate (s : St) (i : Nat) : St :=
  match s.pc i with
  | .outside =>
    if s.stepping then { s with pc := fun j => if j = i then .waiting else s.pc j } else { s with free := s.free + 1 }
  | .waiting => if s.running && !s.nextStep then s else { s with pc := fun j => if j = i then .clearing else s.pc j }
  | .clearing => { s with nextStep := false, stepped := s.stepped + 1, pc := fun j => if j = i then .outside else s.pc j }

def exec (s : St) : Op → St
  | .singleStepping => { s with stepping := true }
  | .step => { s with nextStep := true }
  | .stopStepping => { s with stepping := false }
  | .gate i => gate s i

def run (s : St) (l : List Op) : St := l.foldl exec s

/-- Sequencer.cpp:59-62 -/
def restart : List Op := [.stopStepping, .step]

/-! ### The user interface -/

/-- What a call of `read` yields, SequencerUI.cpp:77: a character, or the end of the connection: an error, or nothing until the time
limit has passed. -/
inductive Read where
  | char (c : Char)
  | closed
deriving DecidableEq, Repr

/-- Lines 85-97: the operations called. -/
def command (c : Char) : List Op :=
  if c = 's' then [.singleStepping, .step]
  else if c = 'c' then restart
  else if c = 'b' then [.singleStepping]
  else []

/-- Lines 63-99 for one client: the operations executed.  `ch` is the variable of line 63; `none`: it has no value yet, and evaluating
it is undefined. -/
def client (ch : Option Char) : List Read → Option (List Op)
  | [] => some []
  | .char c :: l => (client (some c) l).map (command c ++ ·)
  | .closed :: _ => ch.map command

end Verif.Sequencer.Stepping
