/-!
Model of one thread of the sequencer: `BaseSequence::action`, `checkMonitors`, `checkMonitor`, `clearActiveMonitor`
(src/sequencer/BaseSequence.cpp), `Step::start` (includes/eeros/sequencer/Step.hpp:50-54) and `Sequence::start` (src/sequencer/Sequence.cpp:43-56).

The thread is a stack machine.  A frame is an activation of `BaseSequence::action` or of a custom `action` of a user.  Everything the user code or the
environment decides (preconditions, exit conditions, monitor conditions, which sequence a custom action calls and what it returns) is an input of the
step function, so that a theorem about all input histories covers all conditions and all custom actions.

Simplified: the single step mode (26-30) is off; a monitor belongs to the sequence it was added to; monitors are not reconfigured while running (see `Reconf.lean`);
sequences started non-blocking run in their own thread (with their own machine), starting them returns at once.
-/
namespace Verif.Sequencer

/-- `SequenceProp`, Monitor.hpp. -/
inductive Beh where
  | resume | abort | restart
deriving DecidableEq

/-- `SequenceState`, BaseSequence.hpp:18-26 (`paused` is never set). -/
inductive SState where
  | idle | starting | running | aborting | terminated | restarting
deriving DecidableEq

/-- A monitor: name, behavior and exception sequence. -/
structure Mon where
  name : Nat
  beh : Beh
  exc : Option Nat
deriving DecidableEq

/-- The sequences constructed by the user, numbered in the order of their construction, so the caller has a smaller number.
`caller` is the caller if the sequence is blocking (BaseSequence.cpp:15). -/
structure Prog where
  caller : Nat → Option Nat
  older : ∀ i c, caller i = some c → c < i
  blocking : Nat → Bool
  mons : Nat → List Mon

/-- The first `n + 1` elements of the caller stack. -/
def Prog.cstackAux (P : Prog) : Nat → Nat → List Nat
  | 0, i => [i]
  | n + 1, i => i :: match P.caller i with
    | none => []
    | some c => P.cstackAux n c

/-- `callerStack` as built by the constructor, BaseSequence.cpp:15-18: the sequence itself and then the stack of its caller (`cstack_eq`); it has at most
`i + 1` elements as callers are older. -/
def Prog.cstack (P : Prog) (i : Nat) : List Nat := P.cstackAux i i

theorem cstackAux_enough (P : Prog) : ∀ (n m i : Nat), i ≤ n → i ≤ m → P.cstackAux n i = P.cstackAux m i := by
  intro n
  induction n with
  | zero =>
    intro m i hn _
    obtain rfl : i = 0 := by omega
    cases m with
    | zero => rfl
    | succ m =>
      cases hc : P.caller 0 with
      | none => simp [Prog.cstackAux, hc]
      | some c => exact absurd (P.older 0 c hc) (by omega)
  | succ n ih =>
    intro m i hn hm
    cases m with
    | zero =>
      obtain rfl : i = 0 := by omega
      cases hc : P.caller 0 with
      | none => simp [Prog.cstackAux, hc]
      | some c => exact absurd (P.older 0 c hc) (by omega)
    | succ m =>
      cases hc : P.caller i with
      | none => simp [Prog.cstackAux, hc]
      | some c =>
        have := P.older i c hc
        simp only [Prog.cstackAux, hc]
        rw [ih m c (by omega) (by omega)]

/-- The recursion of the constructor. -/
theorem cstack_eq (P : Prog) (i : Nat) : P.cstack i = i :: (match P.caller i with | none => [] | some c => P.cstack c) := by
  unfold Prog.cstack
  cases i with
  | zero =>
    cases hc : P.caller 0 with
    | none => simp [Prog.cstackAux]
    | some c => exact absurd (P.older 0 c hc) (by omega)
  | succ n =>
    cases hc : P.caller (n + 1) with
    | none => simp [Prog.cstackAux, hc]
    | some c =>
      have := P.older _ c hc
      simp only [Prog.cstackAux, hc]
      rw [cstackAux_enough P n c c (by omega) (by omega)]

/-- Where `checkMonitors` was called: line 36 or line 51. -/
inductive Cont where
  | idle | run
deriving DecidableEq

/-- An activation of `checkMonitors` (86-110) in `action` of sequence `i` with `retVal = ret`: the remaining elements of the caller stack, the
remaining monitors of its first element if these are being checked, and `activeSeq`. -/
structure Chk where
  i : Nat
  ret : Int
  cont : Cont
  os : List Nat
  ms : Option (List Mon)
  act : Option Nat
deriving DecidableEq

inductive Frame where
  /-- at the head of the loop, line 32 -/
  | loop (i : Nat) (ret : Int)
  /-- before line 53 -/
  | exit (i : Nat) (ret : Int)
  /-- in the custom `action`, line 44 -/
  | body (i : Nat)
  /-- in `checkMonitors` -/
  | check (k : Chk)
  /-- in line 131, waiting for the exception sequence of monitor `m` of `o` -/
  | exc (k : Chk) (o : Nat) (m : Mon)
deriving DecidableEq

def Frame.id : Frame → Nat
  | .loop i _ => i
  | .exit i _ => i
  | .body i => i
  | .check k => k.i
  | .exc k _ _ => k.i

inductive Halt where
  /-- locking the mutex of a sequence which is already active in the same thread, line 31 -/
  | deadlock
  /-- `activeSeq->activeMonitor` is null in line 98 or 102 -/
  | nullDeref
deriving DecidableEq

structure M where
  st : Nat → SState
  fired : Nat → Bool
  active : Nat → Option Mon
  inExc : Nat → Bool
  frames : List Frame
  halt : Option Halt

/-- Freshly constructed sequences, nothing called yet. -/
def init : M := { st := fun _ => .idle, fired := fun _ => false, active := fun _ => none, inExc := fun _ => false, frames := [], halt := none }

def upd {α : Type} (f : Nat → α) (i : Nat) (v : α) : Nat → α := fun j => if j = i then v else f j

/-- Inputs: what the environment and the user code decide. -/
inductive Inp where
  | tick
  | cond (b : Bool)
  | pre (b : Bool)
  | exitc (b : Bool)
  | call (j : Nat)
  | ret (v : Int)

/-- Observable events. -/
inductive Ev where
  /-- `start()` of a blocking sequence or step entered -/
  | call (i : Nat)
  /-- `start()` of a non-blocking sequence -/
  | spawn (i : Nat)
  /-- precondition false -/
  | refuse (i : Nat)
  /-- custom action entered -/
  | enter (i : Nat)
  /-- custom action returned `v` -/
  | leave (i : Nat) (v : Int)
  /-- restarted, line 65 -/
  | restart (i : Nat)
  /-- `start()` returned `v` -/
  | ret (i : Nat) (v : Int)
  /-- the condition of monitor `m` of `o` was evaluated -/
  | poll (o : Nat) (m : Mon) (b : Bool)
  /-- monitor fired, line 126 -/
  | fire (o : Nat) (m : Mon)
  /-- exception processing finished, line 133 -/
  | handled (o : Nat) (m : Mon)
deriving DecidableEq

/-- `start()`: Step.hpp:50-54, Sequence.cpp:43-56, BaseSequence.cpp:24 and 31. -/
def startSeq (P : Prog) (s : M) (j : Nat) : M × List Ev :=
  if P.blocking j then
    if j ∈ s.frames.map Frame.id then ({ s with halt := some .deadlock }, [])
    else ({ s with frames := .loop j (-1) :: s.frames }, [.call j])
  else (s, [.spawn j])

/-- Lines 133-141, then on with the next monitor. -/
def afterExc (s : M) (k : Chk) (o : Nat) (m : Mon) (fs : List Frame) : M × List Ev :=
  let s := { s with inExc := upd s.inExc o false, frames := .check k :: fs }
  (match m.beh with
    | .resume => { s with st := upd s.st o .running, fired := upd s.fired o false }
    | .abort => { s with st := upd s.st o .aborting }
    | .restart => { s with st := upd s.st o .restarting }, [.handled o m])

/-- Lines 99-108 for the rest `l` of the caller stack; `b` is the behavior of the active monitor. -/
def mark (fired : Nat → Bool) (b : Beh) : List Nat → (Nat → SState) → (Nat → SState)
  | [], st => st
  | x :: l, st => if fired x then st else mark fired b l (if b = .resume then st else upd st x .aborting)

/-- Lines 97-110 and the return to line 37 or 52. -/
def finish (P : Prog) (s : M) (k : Chk) (fs : List Frame) : M :=
  let go (st : Nat → SState) : M :=
    match k.cont with
    | .idle => { s with st := (if st k.i = .aborting ∨ st k.i = .restarting then st else upd st k.i .starting), frames := .loop k.i k.ret :: fs }
    | .run => { s with st := st, frames := (if st k.i = .restarting then .loop k.i k.ret else .exit k.i k.ret) :: fs }
  match k.act with
  | none => go s.st
  | some a => match s.active a with
    | none => { s with halt := some .nullDeref }
    | some m => go (mark s.fired m.beh (P.cstack k.i) s.st)

/-- `checkMonitor` (119-146) for monitor `m` of `o` with condition `b`; `k` is the state of the loop after this monitor. -/
def checkMonitor (P : Prog) (s : M) (k : Chk) (o : Nat) (m : Mon) (fs : List Frame) (b : Bool) : M × List Ev :=
  if b then
    let k := { k with act := some o }
    if s.fired o then ({ s with frames := .check k :: fs }, [.poll o m true])
    else
      let s := { s with fired := upd s.fired o true, active := upd s.active o (some m), inExc := upd s.inExc o true, frames := .exc k o m :: fs }
      match m.exc with
      | none => let r := afterExc s k o m fs; (r.1, .poll o m true :: .fire o m :: r.2)
      | some e =>
        let r := startSeq P s e
        (r.1, .poll o m true :: .fire o m :: r.2)
  else ({ s with frames := .check k :: fs }, [.poll o m false])

/-- `checkMonitors` called from `action` of `i`. -/
def newCheck (P : Prog) (i : Nat) (r : Int) (c : Cont) : Chk :=
  { i := i, ret := r, cont := c, os := P.cstack i, ms := none, act := none }

/-- One step of the thread.  `none`: the input does not fit to the current position (or the thread is stuck). -/
def step (P : Prog) (s : M) (x : Inp) : Option (M × List Ev) :=
  if s.halt ≠ none then none else
  match s.frames, x with
  | [], .call j => some (startSeq P s j)
  | .body _ :: _, .call j => some (startSeq P s j)
  | .body i :: fs, .ret v => some ({ s with frames := .loop i v :: fs }, [.leave i v])
  | .loop i r :: fs, x =>
    match s.st i, x with
    | .idle, .tick => some ({ s with fired := upd s.fired i false, active := upd s.active i none, frames := .check (newCheck P i r .idle) :: fs }, [])
    | .starting, .pre true => some ({ s with st := upd s.st i .running, frames := .body i :: fs }, [.enter i])
    | .starting, .pre false => some ({ s with st := upd s.st i .terminated }, [.refuse i])
    | .running, .tick => some ({ s with frames := .check (newCheck P i r .run) :: fs }, [])
    | .aborting, .tick => some ({ s with st := upd s.st i .terminated }, [])
    | .restarting, .tick => some ({ s with st := upd s.st i .starting, fired := upd s.fired i false, active := upd s.active i none }, [.restart i])
    | .terminated, .tick => some ({ s with st := upd s.st i .idle, frames := fs }, [.ret i r])
    | _, _ => none
  | .exit i r :: fs, .exitc b => some ({ s with st := (if b then upd s.st i .terminated else s.st), frames := .loop i r :: fs }, [])
  | .exc k o m :: fs, .tick => some (afterExc s k o m fs)
  | .check k :: fs, x =>
    match k.os, k.ms, x with
    | [], _, .tick => some (finish P s k fs, [])
    | o :: os, none, .tick =>
      if s.inExc o then some ({ s with frames := .check { k with os := os } :: fs }, [])
      else some ({ s with frames := .check { k with ms := some (P.mons o) } :: fs }, [])
    | _ :: os, some [], .tick => some ({ s with frames := .check { k with os := os, ms := none } :: fs }, [])
    | o :: _, some (m :: ms), .cond b => some (checkMonitor P s { k with ms := some ms } o m fs b)
    | _, _, _ => none
  | _, _ => none

/-- Histories: the events so far and the state reached, for all inputs. -/
inductive Reach (P : Prog) : List Ev → M → Prop where
  | init : Reach P [] init
  | step (tr s x s' ev) : Reach P tr s → step P s x = some (s', ev) → Reach P (tr ++ ev) s'

/-- Runs of inputs, for examples. -/
def exec (P : Prog) : M → List Inp → Option (M × List Ev)
  | s, [] => some (s, [])
  | s, x :: xs => match step P s x with
    | none => none
    | some (s', ev) => (exec P s' xs).map (fun r => (r.1, ev ++ r.2))

end Verif.Sequencer
