import Verif.Common.Round
/-!
Model of the loops of `Executor::run` which are synchronised with ROS: with a topic in ROS 2 (src/core/Executor.cpp:345-358, `handleTopic`
239-241, `stop` 195-208), and with the ROS time (294-310).

Simplified: a cycle (`counter.tick`, task list, main task, `counter.tock`) is one step; `running` is read and written atomically
(Executor.hpp:182 declares a plain `bool`).
-/
namespace Verif.Core.RosSync

/-! ### Synchronised with a topic, 345-358 -/
namespace Topic

inductive Pc where
  /-- 349: about to test `running` -/
  | test
  /-- 350: `running` was true, not yet in `cv.wait` -/
  | beforeWait
  /-- 351: blocked in `cv.wait` -/
  | asleep
  /-- 352-356 -/
  | cycle
  /-- the loop has been left -/
  | done
deriving DecidableEq, Repr

structure St where
  running : Bool
  pc : Pc
  /-- number of cycles which have been run -/
  cycles : Nat
  /-- `rclcpp::shutdown` has been called: no more messages -/
  shutdown : Bool
  /-- the thread of the subscribers can be joined -/
  joinable : Bool
  /-- `std::thread::join` has thrown because there is no thread to join -/
  exception : Bool
deriving DecidableEq, Repr

/-- After line 276, with a thread for the subscribers. -/
def init : St := ⟨true, .test, 0, false, true, false⟩

/-- `cv.notify_one`. -/
def notify (s : St) : St := if s.pc = .asleep then { s with pc := .cycle } else s

inductive Step where
  /-- the thread of the executor makes a step -/
  | exec
  /-- a message of the topic arrives: RosSubscriber.hpp:63-69 calls `handleTopic` -/
  | message
  /-- `cv.wait` returns without reason -/
  | spurious
  /-- `stop`, 197-202 -/
  | stopFlag
  /-- `stop`, 203-206 -/
  | stopNotify
deriving DecidableEq, Repr

def step (s : St) : Step → St
  | .exec => match s.pc with
    | .test => if s.running then { s with pc := .beforeWait } else { s with pc := .done }
    | .beforeWait => { s with pc := .asleep }
    | .asleep => s
    | .cycle => { s with pc := .test, cycles := s.cycles + 1 }
    | .done => s
  | .message => if s.shutdown then s else notify s
  | .spurious => if s.pc = .asleep then { s with pc := .cycle } else s
  | .stopFlag => { s with running := false, shutdown := true }
  | .stopNotify => if s.joinable then notify { s with joinable := false } else { s with exception := true }

def run (s : St) (l : List Step) : St := l.foldl step s

end Topic

/-! ### Synchronised with the ROS time, 294-310 -/
namespace Time

/-- Line 298: the period in nanoseconds.  The product is rounded to a double, the conversion cuts off. -/
def periodNs (period : ℚ) : ℕ := ⌊Common.Round.fl (period * 1000000000)⌋.toNat

inductive Pc where
  /-- 300: about to test `running` -/
  | test
  /-- 302: waiting -/
  | wait
  /-- 303-308 -/
  | cycle
  | done
deriving DecidableEq, Repr

structure St where
  running : Bool
  pc : Pc
  next : Nat
  /-- The time which was read last before each cycle, newest first. -/
  log : List Nat
  last : Nat
deriving DecidableEq, Repr

/-- Line 299. -/
def init (p now : Nat) : St := ⟨true, .test, now + p, [], now⟩

inductive Step where
  /-- the thread makes a step; if it reads the time, it gets this value -/
  | exec (now : Nat)
  | stop
deriving DecidableEq, Repr

def step (p : Nat) (s : St) : Step → St
  | .exec now => match s.pc with
    | .test => if s.running then { s with pc := .wait } else { s with pc := .done }
    | .wait => if now < s.next ∧ s.running then { s with last := now } else { s with pc := .cycle, last := now }
    | .cycle => { s with pc := .test, next := s.next + p, log := s.last :: s.log }
    | .done => s
  | .stop => { s with running := false }

def run (p : Nat) (s : St) (l : List Step) : St := l.foldl (step p) s

end Time
end Verif.Core.RosSync
