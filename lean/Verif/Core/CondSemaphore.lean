/-!
Model of the waiting of the counting semaphore on its condition variable (`Verif.Core.Tasks` has the operations as a whole), src/core/Semaphore.cpp:6-29, for any number of threads.  Threads are counted by where they are.
The condition variable may wake up threads without reason; `notify_one` wakes up one sleeping thread if there is one.  A thread which
waits with a time limit may leave.  The counter does not overflow (it is an `int` in the code).
-/
namespace Verif.Core.CondSemaphore

structure St where
  counter : Int
  /-- Threads blocked in the condition variable. -/
  asleep : Nat
  /-- Threads which were woken up and have not evaluated the predicate again. -/
  woken : Nat
  /-- Threads in `post` between the increment and `notify_one`. -/
  notifying : Nat
  /-- Number of calls of `wait` which have returned (with `true`). -/
  acquired : Nat
  /-- Number of calls of `wait(timeout)` which have returned `false`. -/
  timedOut : Nat
deriving DecidableEq, Repr

def init (value : Int) : St := ⟨value, 0, 0, 0, 0, 0⟩

inductive Step where
  /-- A thread calls `wait`, takes the mutex and evaluates the predicate for the first time, lines 10-12, 17-19. -/
  | wait
  /-- A thread calls `post` and increments the counter, lines 24-27. -/
  | post
  /-- Line 28. -/
  | notify
  /-- A sleeping thread wakes up without reason. -/
  | spurious
  /-- A woken thread takes the mutex and evaluates the predicate. -/
  | check
  /-- The time limit of a sleeping thread passes: it evaluates the predicate a last time (`wait_for`). -/
  | timeout
  /-- The time limit of a woken thread has passed when it evaluates the predicate. -/
  | checkLast
deriving DecidableEq, Repr

/-- Predicate of lines 11 and 18. -/
def ready (s : St) : Bool := decide (s.counter > 0)

def take (s : St) : St := { s with counter := s.counter - 1, acquired := s.acquired + 1 }

/-- Steps which are not possible do nothing. -/
def step (s : St) : Step → St
  | .wait => if ready s then take s else { s with asleep := s.asleep + 1 }
  | .post => { s with counter := s.counter + 1, notifying := s.notifying + 1 }
  | .notify =>
    if s.notifying = 0 then s
    else if s.asleep = 0 then { s with notifying := s.notifying - 1 }
    else { s with notifying := s.notifying - 1, asleep := s.asleep - 1, woken := s.woken + 1 }
  | .spurious => if s.asleep = 0 then s else { s with asleep := s.asleep - 1, woken := s.woken + 1 }
  | .check =>
    if s.woken = 0 then s
    else if ready s then take { s with woken := s.woken - 1 } else { s with woken := s.woken - 1, asleep := s.asleep + 1 }
  | .timeout =>
    if s.asleep = 0 then s
    else if ready s then take { s with asleep := s.asleep - 1 } else { s with asleep := s.asleep - 1, timedOut := s.timedOut + 1 }
  | .checkLast =>
    if s.woken = 0 then s
    else if ready s then take { s with woken := s.woken - 1 } else { s with woken := s.woken - 1, timedOut := s.timedOut + 1 }

def run (value : Int) (l : List Step) : St := l.foldl step (init value)

end Verif.Core.CondSemaphore
