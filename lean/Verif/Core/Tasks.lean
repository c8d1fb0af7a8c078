/-!
Models of `src/task/Harmonic.cpp`, `src/core/Semaphore.cpp`, `src/task/Async.cpp`.
-/
namespace Verif.Core

namespace Harmonic

/-- Harmonic.hpp:18-19 and Harmonic.cpp:6-10. -/
structure St where
  n : Int
  k : Int

def init (n : Int) : St := ⟨n, 0⟩

/-- Harmonic.cpp:16-21; the result tells whether the task was run. -/
def run (s : St) : St × Bool :=
  if s.k + 1 ≥ s.n then ({ s with k := 0 }, true) else ({ s with k := s.k + 1 }, false)

/-- For each of the first `m` calls whether the task was run. -/
def runs : Nat → St → List Bool
  | 0, _ => []
  | m+1, s => (run s).2 :: runs m (run s).1

end Harmonic

namespace Semaphore

/-! The state is the counter, Semaphore.hpp:21.  Every operation holds the mutex while it touches the counter. -/

inductive Op where
  | post
  /-- a `wait()` call returns (possible only while counter > 0) -/
  | wait
  /-- a `wait(timeout)` call returns: with success while counter > 0, or after the timeout without -/
  | waitTimed (result : Bool)
deriving DecidableEq

/-- Semaphore.cpp:9-13, 15-21, 23-29: `none` if the call cannot return now (the caller blocks). -/
def step (c : Int) : Op → Option Int
  | .post => some (c + 1)
  | .wait => if c > 0 then some (c - 1) else none
  | .waitTimed true => if c > 0 then some (c - 1) else none
  | .waitTimed false => if c > 0 then none else some c

/-- An execution: every step must be possible. -/
def exec (c : Int) : List Op → Option Int
  | [] => some c
  | op :: ops => (step c op).bind (fun c' => exec c' ops)

end Semaphore

namespace Async

/-- Where the worker thread is, Async.cpp:58-64 (`run_thread`). -/
inductive Pc where
  /-- in `semaphore.wait()` -/
  | waiting
  /-- about to test `while (!finished)` -/
  | testing
  /-- about to run the task -/
  | about
  /-- inside `task.run()` -/
  | running
  /-- left the loop -/
  | ended
deriving DecidableEq, Repr

structure St where
  counter : Nat
  finished : Bool
  pc : Pc
deriving DecidableEq, Repr

/-- Async.cpp:12-14 with `Semaphore(int value = 0)`. -/
def init : St := ⟨0, false, .waiting⟩

inductive Op where
  /-- a client calls `run()` (Async.cpp:25-27) -/
  | run
  /-- a client calls `stop()`: first `finished = true`, then `post` (29-32) as two steps -/
  | stopFlag
  | stopPost
  /-- one step of the worker thread -/
  | worker
deriving DecidableEq, Repr

/-- Something observable: the task starts. -/
inductive Obs where
  | none
  | taskStarts
deriving DecidableEq, Repr

/-- One atomic step (the unsynchronised flag `finished` is read and written atomically here; in C++ it is a data race). -/
def step (s : St) : Op → St × Obs
  | .run => ({ s with counter := s.counter + 1 }, .none)
  | .stopFlag => ({ s with finished := true }, .none)
  | .stopPost => ({ s with counter := s.counter + 1 }, .none)
  | .worker => match s.pc with
    | .waiting => if s.counter > 0 then ({ s with counter := s.counter - 1, pc := .testing }, .none) else (s, .none)
    | .testing => if s.finished then ({ s with pc := .ended }, .none) else ({ s with pc := .about }, .none)
    | .about => ({ s with pc := .running }, .taskStarts)
    | .running => ({ s with pc := .waiting }, .none)
    | .ended => (s, .none)

def exec : St → List Op → St × List Obs
  | s, [] => (s, [])
  | s, op :: ops => ((exec (step s op).1 ops).1, (step s op).2 :: (exec (step s op).1 ops).2)

/-- `stopPost` only occurs after `stopFlag` (they are consecutive statements of the same thread). -/
def WellFormed : Bool → List Op → Prop
  | _, [] => True
  | _, .stopFlag :: ops => WellFormed true ops
  | f, .stopPost :: ops => f = true ∧ WellFormed f ops
  | f, _ :: ops => WellFormed f ops

end Async
end Verif.Core
