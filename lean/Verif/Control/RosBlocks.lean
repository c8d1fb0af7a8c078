/-!
Model of the blocks which exchange messages with ROS.

* `Sub2`: the queue of a ROS 2 subscriber, includes/eeros/control/ros2/RosSubscriber.hpp:63-89.  The callbacks are called by a
  multi-threaded executor in a reentrant group (src/core/Executor.cpp:231-236), so several callbacks can be on their way to the mutex at
  the same time.  Simplified: the unprotected call of `queue.empty()` (83) is atomic with what follows; one `parseMsg` is one step.
* `Sub1`: the subscribers of ROS 1, includes/eeros/control/ros/RosSubscriber.hpp:75-82, with the global callback queue.
* `Laser`: `RosPublisherLaserScan::setRosMsg` (ros2/RosPublisherLaserScan.hpp:26-61, the same text in ros/) and
  `RosSubscriberLaserScan::rosCallbackFct` (ros2/RosSubscriberLaserScan.hpp:22-53).  Simplified: `float` and `double` have the same values,
  time stamps and frame names are left out.
* `Analog`: `RosSubscriberAnalogSignal::_set` and `RosSubscriberDigitalSignal::_set` (56-64 in both) and
  `RosPublisherAnalogSignal::_set` (49-54).
-/
namespace Verif.Control.RosBlocks

/-! ### ROS 2 subscriber -/
namespace Sub2

/-- Messages are numbered in the order in which they were sent and received. -/
structure St where
  /-- number of messages received so far -/
  received : Nat
  /-- messages whose callback has been entered but does not hold the mutex yet -/
  waiting : List Nat
  /-- `queue`, front first -/
  queue : List Nat
  /-- the message whose content is on the output -/
  out : Option Nat
deriving DecidableEq, Repr

def init : St := ⟨0, [], [], none⟩

inductive Step where
  /-- a thread of the ROS executor enters the callback with the next message -/
  | receive
  /-- the callback of message `i` takes the mutex, appends the message and leaves (64-65) -/
  | push (i : Nat)
  /-- the block runs, 82-89 -/
  | run
deriving DecidableEq, Repr

def step (s : St) : Step → St
  | .receive => { s with received := s.received + 1, waiting := s.waiting ++ [s.received] }
  | .push i => if i ∈ s.waiting then { s with waiting := s.waiting.erase i, queue := s.queue ++ [i] } else s
  | .run => match s.queue.getLast? with
    | none => s
    | some m => { s with out := some m, queue := [] }

def run (s : St) (l : List Step) : St := l.foldl step s

end Sub2

/-! ### ROS 1 subscribers -/
namespace Sub1

structure St (M : Type) where
  /-- the global callback queue: receiving block and message, oldest first -/
  queue : List (Nat × M)
  /-- output of every block -/
  out : Nat → Option M

/-- The callback of a block puts the message on its output. -/
def call {M : Type} (out : Nat → Option M) (e : Nat × M) : Nat → Option M := fun b => if b = e.1 then some e.2 else out b

/-- `callAvailable` -/
def callAvailable {M : Type} (s : St M) : St M := ⟨[], s.queue.foldl call s.out⟩

/-- `callOne` -/
def callOne {M : Type} (s : St M) : St M := match s.queue with
  | [] => s
  | e :: l => ⟨l, call s.out e⟩

/-- `run` of any block, 75-82: it does not matter which one. -/
def runBlock {M : Type} (callNewest : Bool) (s : St M) : St M := if callNewest then callAvailable s else callOne s

/-- A message for block `b` arrives. -/
def arrive {M : Type} (b : Nat) (m : M) (s : St M) : St M := { s with queue := s.queue ++ [(b, m)] }

end Sub1

/-! ### Laser scan -/
namespace Laser

/-- Message: the seven numbers in the order of the code and the two lists. -/
structure Msg (K : Type) where
  scalars : Fin 7 → K
  ranges : List K
  intensities : List K

/-- Inputs of the block; `none`: not connected.  The lists have the number of rows of the input types. -/
structure In (K : Type) where
  scalars : Fin 7 → Option K
  ranges : Option (List K)
  intensities : Option (List K)

/-- The member `msg` of the publisher and the members `rangesValue` and `intensitiesValue`. -/
structure Pub (K : Type) where
  msg : Msg K
  rangesValue : List K
  intensitiesValue : List K

/-- 31-60 -/
def setRosMsg {K : Type} (s : Pub K) (i : In K) : Pub K :=
  let scalars : Fin 7 → K := fun k => match i.scalars k with | some x => x | none => s.msg.scalars k
  let (rangesValue, ranges) := match i.ranges with
    | some r => (r, r)
    | none => (s.rangesValue, s.msg.ranges)
  let (intensitiesValue, intensities) := match i.intensities with
    | some x => (x, rangesValue)
    | none => (s.intensitiesValue, s.msg.intensities)
  ⟨⟨scalars, ranges, intensities⟩, rangesValue, intensitiesValue⟩

/-- `Matrix::setCol` for `rows` rows, Matrix.hpp:217-221; `none`: reads behind the end of the vector. -/
def setCol {K : Type} (rows : Nat) (v : List K) : Option (List K) := if rows ≤ v.length then some (v.take rows) else none

/-- Outputs of the subscriber. -/
structure Out (K : Type) where
  scalars : Fin 7 → K
  ranges : List K
  intensities : List K

/-- `rosCallbackFct`, 35-52, for outputs with `n` ranges and `m` intensities. -/
def receive {K : Type} (n m : Nat) (x : Msg K) : Option (Out K) := do
  let r ← setCol n x.ranges
  let i ← setCol m x.intensities
  return ⟨x.scalars, r, i⟩

end Laser

/-! ### Analog and digital signals -/
namespace Analog

/-- `_set` of the subscribers for a vector of the given size (1 for a number); `none`: reads behind the end of `msg.val`. -/
def parse {K : Type} (size : Nat) (val : List K) : Option (List K) := (List.range size).mapM fun i => val[i]?

/-- `_set` of the publisher. -/
def publish {K : Type} (x : List K) : List K := x

end Analog
end Verif.Control.RosBlocks
