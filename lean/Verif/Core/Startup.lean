/-!
Construction of objects which start a thread in their constructor: `Async` (src/task/Async.cpp:12-18, members in the order
of includes/eeros/task/Async.hpp:23-33) and the classes derived from `Thread` (src/core/Thread.cpp:9-19), for example
`Mouse` (src/hal/Mouse.cpp:12-32, 72-77), `SpaceNavigator` (src/hal/SpaceNavigator.cpp:13-22) and `SocketServer`
(includes/eeros/sockets/SocketServer.hpp:26-34, 65-72).

A constructor is a list of steps, the thread is a list of steps, an execution is any interleaving in which the thread makes
no step before it was started.  Only the part of the thread is modelled which can run before the constructor has finished.
-/
namespace Verif.Core.Startup

variable {M : Type} [DecidableEq M]

/-- A step of the constructing thread. -/
inductive CStep (M : Type) where
  /-- a member is constructed, or (for members without a constructor) first assigned -/
  | init (m : M)
  /-- the constructor of the derived class begins: virtual calls go to the derived class from here on -/
  | derived
  /-- the `std::thread` is constructed -/
  | spawn
deriving DecidableEq, Repr

/-- A step of the new thread. -/
inductive WStep (M : Type) where
  /-- a member is read or one of its functions called -/
  | use (m : M)
  /-- the virtual call `this->run()` (Thread.cpp:17); the steps which follow are those of the derived class -/
  | dispatch
deriving DecidableEq, Repr

/-- What goes wrong. -/
inductive Bad (M : Type) where
  | useBeforeInit (m : M)
  /-- `Thread::run` (Thread.cpp:35) runs instead of the function of the derived class; the thread ends -/
  | baseRun
deriving DecidableEq, Repr

structure St (M : Type) where
  ctor : List (CStep M)
  worker : List (WStep M)
  ready : List M
  spawned : Bool
  isDerived : Bool
  bad : List (Bad M)

def start (ctor : List (CStep M)) (worker : List (WStep M)) : St M := ⟨ctor, worker, [], false, false, []⟩

/-- `true`: the constructing thread makes a step; `false`: the new thread does (if it exists). -/
def step (s : St M) : Bool → St M
  | true => match s.ctor with
    | [] => s
    | .init m :: c => { s with ctor := c, ready := m :: s.ready }
    | .derived :: c => { s with ctor := c, isDerived := true }
    | .spawn :: c => { s with ctor := c, spawned := true }
  | false =>
    if s.spawned then
      match s.worker with
      | [] => s
      | .use m :: w => { s with worker := w, bad := if m ∈ s.ready then s.bad else .useBeforeInit m :: s.bad }
      | .dispatch :: w =>
        if s.isDerived then { s with worker := w } else { s with worker := [], bad := .baseRun :: s.bad }
    else s

def run (s : St M) (sched : List Bool) : St M := sched.foldl step s

/-! ### The classes -/

inductive AsyncM where
  | counter | task | realtime | nice | semaphore | finished | log
deriving DecidableEq, Repr

/-- Async.hpp:23-33: members are constructed in this order, whatever the order in Async.cpp:13-14. -/
def asyncCtor : List (CStep AsyncM) :=
  [.init .counter, .init .task, .init .realtime, .init .nice, .init .semaphore, .spawn, .init .finished, .init .log]

/-- Async.cpp:38-58, up to `semaphore.wait()` (which does not return before a client calls a function of the finished object):
`realtime` (44), for a realtime thread `nice` (45, 48) and `log` (46-52), otherwise `log` (55). -/
def asyncWorker (realtime : Bool) : List (WStep AsyncM) :=
  if realtime then [.use .realtime, .use .nice, .use .log, .use .nice, .use .semaphore]
  else [.use .realtime, .use .log, .use .semaphore]

inductive MouseM where
  | log | fd | current | last
deriving DecidableEq, Repr

/-- Thread.cpp:9-19 and Mouse.cpp:12-32: `fd` is assigned in line 13, `current` in 22-29, `last` in 31. -/
def mouseCtor : List (CStep MouseM) := [.init .log, .spawn, .derived, .init .fd, .init .current, .init .last]

/-- Thread.cpp:16-17 and Mouse.cpp:72-77. -/
def mouseWorker : List (WStep MouseM) := [.use .log, .dispatch, .use .fd, .use .current]

end Verif.Core.Startup
