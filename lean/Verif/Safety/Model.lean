import Verif.Common.XVal
/-!
Model of the EEROS safety system:
`includes/eeros/safety/{SafetyLevel,SafetyProperties,SafetySystem,InputAction,OutputAction}.hpp`
and `src/safety/{SafetyLevel,SafetyProperties,SafetySystem}.cpp`.

Conventions: a `SafetyLevel*` is a `LevelRef` (address), `nullptr` is `none`; events are their
ids (`SafetyEvent::id`, SafetyLevel.hpp:48, unique per constructed event); hal inputs and outputs are their addresses (`Nat`).
Logging is not modelled.
-/
namespace Verif.Safety

abbrev LevelRef := Nat
abbrev EventId := Nat
abbrev InputRef := Nat
abbrev OutputRef := Nat

/-- SafetyLevel.hpp:19 `enum EventType { kPrivateEvent, kPublicEvent }`. -/
inductive EventType where
  | priv
  | pub
deriving DecidableEq, Repr

/-- The test an input action performs, InputAction.hpp:24-75. -/
inductive InTest (V : Type) where
  /-- IgnoreInputAction, 24-30 -/
  | ignore
  /-- CheckInputAction, 32-47 -/
  | check (expected : V) (event : EventId)
  /-- CheckRangeInputAction, 49-75 -/
  | range (min max : V) (event : EventId) (offRange : Bool)
deriving Repr

/-- InputAction.hpp:14-22: the input it belongs to and its test. -/
structure InAct (V : Type) where
  input : InputRef
  test : InTest V
deriving Repr

/-- The `check` methods, InputAction.hpp:29, 37-43, 55-69: the event that is triggered when the
value read from the input is `v`, `none` if `check` returns false. -/
def InTest.eval {V : Type} [CppVal V] : InTest V → V → Option EventId
  | .ignore, _ => none
  | .check expected event, v => if !(CppVal.eq v expected) then some event else none
  | .range min max event offRange, v =>
    if offRange then
      if CppVal.lt min v && CppVal.lt v max then some event else none
    else
      if CppVal.lt v min || CppVal.lt max v then some event else none

/-- The `set` methods, OutputAction.hpp (11-59 of the file): what an output action writes. -/
inductive OutKind (V : Type) where
  /-- LeaveOutputAction, OutputAction.hpp:22-28 -/
  | leave
  /-- SetOutputAction, 30-40 -/
  | set (value : V)
  /-- ToggleOutputAction, 42-58; `value` is the private member that changes -/
  | toggle (value low high : V)
deriving Repr

/-- ToggleOutputAction constructor, OutputAction.hpp:45: `value(low)`. -/
def OutKind.newToggle {V : Type} (low high : V) : OutKind V := .toggle low low high

/-- One call of `set()`, OutputAction.hpp:27, 35-37, 47-53: the value written to the output (if any) and the action object
afterwards. -/
def OutKind.step {V : Type} [CppVal V] : OutKind V → Option V × OutKind V
  | .leave => (none, .leave)
  | .set value => (some value, .set value)
  | .toggle value low high =>
    (some value, .toggle (if CppVal.eq value low then high else low) low high)

/-- SafetyLevel.hpp:208-217.  `transitions` is the `std::map` keyed by event id, kept as an
association list in which the first entry of a key counts.  The level action is a user function; its effects enter through `Env.act`.
Output actions are represented by the output they act on (their values: `OutKind`); `none` is a null pointer. -/
structure Level (V : Type) where
  id : Int
  transitions : List (EventId × (LevelRef × EventType)) := []
  inputAction : List (Option (InAct V)) := []
  outputAction : List (Option OutputRef) := []
  hasAction : Bool := false
deriving Repr

/-- Look up a key in the transition map (`std::map::find`). -/
def findTrans : List (EventId × (LevelRef × EventType)) → EventId → Option (LevelRef × EventType)
  | [], _ => none
  | (k, v) :: rest, e => if k = e then some v else findTrans rest e

/-- SafetyLevel.cpp:64-66 `addEvent`: `std::map::insert` keeps an existing entry. -/
def Level.addEvent {V : Type} (l : Level V) (e : EventId) (next : LevelRef) (t : EventType) : Level V :=
  match findTrans l.transitions e with
  | some _ => l
  | none => { l with transitions := l.transitions ++ [(e, (next, t))] }

/-- SafetyLevel.cpp:55-62 `getDestLevelForEvent`. -/
def Level.dest {V : Type} (l : Level V) (e : EventId) (privateOk : Bool) : Option LevelRef :=
  match findTrans l.transitions e with
  | some (d, t) => if t ≠ .priv ∨ privateOk then some d else none
  | none => none

/-- SafetyProperties.hpp:33-39 together with the level objects it points to (`lvl`, the heap). -/
structure Properties (V : Type) where
  lvl : LevelRef → Level V
  levels : List LevelRef := []
  criticalOutputs : List OutputRef := []
  criticalInputs : List InputRef := []
  entryLevel : Option LevelRef := none
  count : Nat := 0

variable {V : Type}

/-- Replace one level object. -/
def Properties.setLvl (p : Properties V) (r : LevelRef) (l : Level V) : Properties V :=
  { p with lvl := fun r' => if r' = r then l else p.lvl r' }

/-- SafetyProperties.cpp:63-66 `addLevel`. -/
def Properties.addLevel (p : Properties V) (r : LevelRef) : Properties V :=
  { (p.setLvl r { p.lvl r with id := p.count }) with
    count := p.count + 1, levels := p.levels ++ [r] }

/-- SafetyProperties.cpp:68-70 `addEventToLevel`. -/
def Properties.addEventToLevel (p : Properties V) (level : LevelRef) (e : EventId)
    (next : LevelRef) (t : EventType) : Properties V :=
  p.setLvl level ((p.lvl level).addEvent e next t)

/-- The loops of SafetyProperties.cpp:73-75, 79-81, 85-87: `for(auto& lev : levels) if(sel(lev->id)) lev->addEvent(..)`.
(`addEvent` does not change ids, so the selection may be read from the current heap.) -/
def Properties.addEventWhere (p : Properties V) (sel : Int → Bool) (e : EventId) (next : LevelRef)
    (t : EventType) : Properties V :=
  p.levels.foldl (fun q r => if sel (q.lvl r).id then q.addEventToLevel r e next t else q) p

/-- SafetyProperties.cpp:72-76. -/
def Properties.addEventToLevelAndAbove (p : Properties V) (level : LevelRef) (e : EventId)
    (next : LevelRef) (t : EventType) : Properties V :=
  p.addEventWhere (fun i => decide (i ≥ (p.lvl level).id)) e next t

/-- SafetyProperties.cpp:78-82. -/
def Properties.addEventToLevelAndBelow (p : Properties V) (level : LevelRef) (e : EventId)
    (next : LevelRef) (t : EventType) : Properties V :=
  p.addEventWhere (fun i => decide (i ≤ (p.lvl level).id)) e next t

/-- SafetyProperties.cpp:84-88. -/
def Properties.addEventToAllLevelsBetween (p : Properties V) (lower upper : LevelRef)
    (e : EventId) (next : LevelRef) (t : EventType) : Properties V :=
  p.addEventWhere (fun i => decide (i ≥ (p.lvl lower).id) && decide (i ≤ (p.lvl upper).id)) e next t

/-- Failures: a thrown `Fault`, or undefined behaviour (null pointer dereference). -/
inductive Err where
  | fault
  | ub
deriving DecidableEq, Repr

/-- SafetyProperties.cpp:32-39 / 45-52: erase from `crit` every entry that some action refers to.
A null action pointer is dereferenced (33, 46): undefined behaviour. -/
def eraseHandled (crit : List Nat) : List (Option Nat) → Except Err (List Nat)
  | [] => .ok crit
  | none :: _ => .error .ub
  | some x :: rest => eraseHandled (crit.filter (· ≠ x)) rest

/-- SafetyProperties.cpp:29-55, the loop over the levels. -/
def verifyLevels (p : Properties V) : List LevelRef → Except Err Unit
  | [] => .ok ()
  | r :: rest => do
    let c1 ← eraseHandled p.criticalOutputs (p.lvl r).outputAction
    if c1 ≠ [] then throw .fault
    let c2 ← eraseHandled p.criticalInputs ((p.lvl r).inputAction.map (Option.map InAct.input))
    if c2 ≠ [] then throw .fault
    verifyLevels p rest

/-- SafetyProperties.cpp:25-61 `verify`. -/
def verify (p : Properties V) : Except Err Bool := do
  verifyLevels p p.levels
  return p.entryLevel.isSome

/-- SafetySystem.hpp:67-69: `currentLevel`, `nextLevel`, and the activation counters
(`SafetyLevel::nofActivations`, SafetyLevel.hpp:211) of all levels. -/
structure Sys where
  cur : Option LevelRef
  next : Option LevelRef
  nofAct : LevelRef → Nat

def Sys.setAct (s : Sys) (r : LevelRef) (n : Nat) : Sys :=
  { s with nofAct := fun r' => if r' = r then n else s.nofAct r' }

/-- SafetySystem.cpp:10-22 and 37-47, the part of the constructor after the instance check
(the instance counter is modelled in `Instances.lean`).  `acts` are the activation counters found in the level objects. -/
def construct (p : Properties V) (acts : LevelRef → Nat) : Except Err Sys := do
  if ← verify p then
    match p.entryLevel with
    | some e => return (Sys.setAct { cur := some e, next := some e, nofAct := acts } e 0)
    | none => throw .ub        -- line 41 would dereference a null pointer
  else throw .fault

/-- SafetySystem.cpp:49-71 `triggerEvent`, executed without interference
(interference: `Concurrent.lean`).  `priv` is `context == &privateContext`. -/
def trigger (p : Properties V) (s : Sys) (e : EventId) (priv : Bool) : Except Err Sys :=
  match s.cur with
  | none => .error .fault
  | some c =>
    match (p.lvl c).dest e priv with
    | none => .ok s
    | some n =>
      if s.next = some c then .ok (Sys.setAct { s with next := some n } n 0)
      else match s.next with
        | none => .error .ub      -- line 59 would dereference nextLevel
        | some m =>
          if (p.lvl n).id < (p.lvl m).id then .ok (Sys.setAct { s with next := some n } n 0)
          else .ok s

/-- A trigger call: event and whether it comes from the private context. -/
structure Trig where
  event : EventId
  priv : Bool
deriving DecidableEq, Repr

/-- What an observer sees. -/
inductive Obs where
  /-- `triggerEvent` was called -/
  | trig (t : Trig)
  /-- `currentLevel` was assigned -/
  | level (l : LevelRef)
  /-- the `i`-th input action of level `l` was checked on input `input` -/
  | checked (l : LevelRef) (i : Nat) (input : InputRef)
  /-- the level action of `l` was executed -/
  | action (l : LevelRef)
  /-- the `i`-th output action of level `l` was executed on output `output` -/
  | set (l : LevelRef) (i : Nat) (output : OutputRef)
deriving DecidableEq, Repr

/-- Everything `run` meets in its environment: the values read by the input actions, the events
triggered by the level action (which holds the private context), and the events triggered by other callers before the `i`-th input or output action
(those have no private context). -/
structure Env (V : Type) where
  read : Nat → V
  act : List Trig
  beforeIn : Nat → List EventId
  beforeOut : Nat → List EventId

/-- A list of trigger calls, one after the other, with their observations. -/
def triggers (p : Properties V) : Sys → List Trig → Except Err (Sys × List Obs)
  | s, [] => .ok (s, [])
  | s, t :: ts => do
    let s' ← trigger p s t.event t.priv
    let (s'', o) ← triggers p s' ts
    return (s'', .trig t :: o)

/-- Public triggers of other callers. -/
def pubTrigs (es : List EventId) : List Trig := es.map (fun e => ⟨e, false⟩)

/-- `context->triggerEvent(event)` from inside `check`: the event is forwarded with the private context
(SafetyContext.cpp, InputAction.hpp:39, 59, 64). -/
def ownTrig (r : Option EventId) : List Trig := r.toList.map (fun e => ⟨e, true⟩)

/-- SafetySystem.cpp:91-105: the loop over the input actions of `level`, starting at index `i`. -/
def runInputs [CppVal V] (p : Properties V) (env : Env V) (level : LevelRef) :
    Nat → List (Option (InAct V)) → Sys → Except Err (Sys × List Obs)
  | i, [], s => triggers p s (pubTrigs (env.beforeIn i))
  | i, none :: rest, s => do
    let (s1, o1) ← triggers p s (pubTrigs (env.beforeIn i))
    let (s2, o2) ← runInputs p env level (i+1) rest s1
    return (s2, o1 ++ o2)
  | i, some ia :: rest, s => do
    let (s1, o1) ← triggers p s (pubTrigs (env.beforeIn i))
    let (s2, o2) ← triggers p s1
      (ownTrig (ia.test.eval (env.read i)))
    let (s3, o3) ← runInputs p env level (i+1) rest s2
    return (s3, o1 ++ (.checked level i ia.input :: o2) ++ o3)

/-- SafetySystem.cpp:113-117: the loop over the output actions. -/
def runOutputs (p : Properties V) (env : Env V) (level : LevelRef) :
    Nat → List (Option OutputRef) → Sys → Except Err (Sys × List Obs)
  | i, [], s => triggers p s (pubTrigs (env.beforeOut i))
  | i, none :: rest, s => do
    let (s1, o1) ← triggers p s (pubTrigs (env.beforeOut i))
    let (s2, o2) ← runOutputs p env level (i+1) rest s1
    return (s2, o1 ++ o2)
  | i, some out :: rest, s => do
    let (s1, o1) ← triggers p s (pubTrigs (env.beforeOut i))
    let (s2, o2) ← runOutputs p env level (i+1) rest s1
    return (s2, o1 ++ (.set level i out :: o2))

/-- `if(nextLevel != nullptr) currentLevel = nextLevel;` (SafetySystem.cpp:83 and 118). -/
def takeNext (s : Sys) : Sys × List Obs :=
  match s.next with
  | some n => ({ s with cur := some n }, [.level n])
  | none => (s, [])

/-- SafetySystem.cpp:108-110: the level action and the events it triggers. -/
def runAction (p : Properties V) (env : Env V) (level : LevelRef) (s : Sys) :
    Except Err (Sys × List Obs) := do
  if (p.lvl level).hasAction then
    let (s', o) ← triggers p s env.act
    return (s', .action level :: o)
  else return (s, [])

/-- SafetySystem.cpp:81-123 `run`. -/
def run [CppVal V] (p : Properties V) (env : Env V) (s : Sys) : Except Err (Sys × List Obs) := do
  let (s, o0) := takeNext s
  match s.cur with
  | none => return (s, o0)
  | some level =>
    let s := s.setAct level (s.nofAct level + 1)
    let (s, o1) ← runInputs p env level 0 (p.lvl level).inputAction s
    let (s, o2) ← runAction p env level s
    let (s, o3) ← runOutputs p env level 0 (p.lvl level).outputAction s
    let (s, o4) := takeNext s
    return (s, o0 ++ o1 ++ o2 ++ o3 ++ o4)

/-- One user-visible operation on a constructed safety system. -/
inductive Op (V : Type) where
  | trigger (e : EventId)
  | run (env : Env V)

/-- One operation.  A user outside the safety system has no private context (the default
argument is `nullptr`, SafetySystem.hpp:42). -/
def step [CppVal V] (p : Properties V) (s : Sys) : Op V → Except Err (Sys × List Obs)
  | .trigger e => triggers p s [⟨e, false⟩]
  | .run env => run p env s

/-- A history of operations. -/
def exec [CppVal V] (p : Properties V) : Sys → List (Op V) → Except Err (Sys × List Obs)
  | s, [] => .ok (s, [])
  | s, op :: ops => do
    let (s', o) ← step p s op
    let (s'', o') ← exec p s' ops
    return (s'', o ++ o')

end Verif.Safety
