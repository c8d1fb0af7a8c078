/-
Model of `control::RosPublisherSafetyLevel` for ROS 1 (`/repo/includes/eeros/control/ros/RosPublisherSafetyLevel.hpp`) and ROS 2
(`/repo/includes/eeros/control/ros2/RosPublisherSafetyLevel.hpp` with the base class `RosPublisher.hpp` 34-64).

A safety system is the sequence of its current levels; a level has an id and a description.
The pointer `safetySystem` (ROS 1: line 70, ROS 2: line 58) is not initialised by the constructor.
-/
import Mathlib.Data.List.Basic

namespace Verif.Control.SafetyLevelPub

structure Level where
  id : Nat
  desc : String
deriving DecidableEq

/-- The pointer: never written, or the address of one of the safety systems. -/
inductive Ptr where
  | indeterminate
  | system (s : Nat)
deriving DecidableEq

/-- What is published: the id (ROS 1, line 61), the description (ROS 2, line 53). -/
inductive Msg where
  | id (n : Nat)
  | text (s : String)
deriving DecidableEq

/-- The program: the block, and the current levels of the safety systems. -/
structure St where
  ros2 : Bool
  running : Bool
  ptr : Ptr
  level : Nat → Level
  published : List Msg
  /-- a run used a pointer which was never written -/
  undefined : Bool

/-- The constructor (ROS 1: 30-38; ROS 2: `RosPublisher.hpp` 34-42); `ok`: there is a master, or ROS 2 is running. -/
def construct (ros2 ok : Bool) (level : Nat → Level) : St := ⟨ros2, ok, .indeterminate, level, [], false⟩

inductive Op where
  | setSafetySystem (s : Nat)
  /-- a safety system changes its level -/
  | change (s : Nat) (l : Level)
  | run
deriving DecidableEq

/-- ROS 1: 51-53, 58-64; ROS 2: 43, 50-55 and `RosPublisher.hpp` 59-64. -/
def step (s : St) : Op → St
  | .setSafetySystem k => { s with ptr := .system k }
  | .change k l => { s with level := fun j => if j = k then l else s.level j }
  | .run =>
    if s.running then
      match s.ptr with
      | .indeterminate => { s with undefined := true }
      | .system k => { s with published := s.published ++ [if s.ros2 then .text (s.level k).desc else .id (s.level k).id] }
    else s

def run (s : St) (os : List Op) : St := os.foldl step s

end Verif.Control.SafetyLevelPub
