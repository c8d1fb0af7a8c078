/-
Model of the conversion of arrays, twists and odometry to and from ROS messages:
`RosPublisherDoubleArray::setRosMsg` (`/repo/includes/eeros/control/ros/RosPublisherDoubleArray.hpp` 45-51), `RosSubscriberDoubleArray::rosCallbackFct` (`RosSubscriberDoubleArray.hpp` 43-49)
with `Matrix::getColVector` (`/repo/includes/eeros/math/Matrix.hpp` 166-172) and `setCol` (217-221), `RosPublisher::run` (`ros/RosPublisher.hpp` 56-61, `ros2/RosPublisher.hpp` 54-59),
`RosSubscriberTwist::parseMsg` (`ros2/RosSubscriberTwist.hpp` 46-51) and `RosPublisherOdometry::setRosMsg` (`ros2/RosPublisherOdometry.hpp` 52-84).

The conversion of roll, pitch and yaw to a quaternion is done by `tf2` and is a parameter.  Clocks are parameters.  An element which was never set is `none`.
-/

namespace Verif.Control.RosData

variable {T : Type}

/-- A matrix with `M` rows and `N` columns. -/
abbrev Mat (M N : Nat) (T : Type) := Fin M → Fin N → Option T

/-- `getColVector`. -/
def getColVector {M N : Nat} (a : Mat M N T) (n : Fin N) : List (Option T) := (List.finRange M).map fun m => a m n

/-- `setCol` with a vector; `none`: a read behind the end of the vector, which is undefined. -/
def setCol {M N : Nat} (a : Mat M N T) (n : Fin N) (col : List (Option T)) : Option (Mat M N T) :=
  if M ≤ col.length then some fun m k => if k = n then (col[m.val]?).join else a m k else none

/-- `setRosMsg` of the array publisher: the new content of the message; the message is a member and keeps its content. `input = none`: not connected. -/
def arrayMsg {M N : Nat} (old : List (Option T)) (input : Option (Mat M (N + 1) T)) : List (Option T) :=
  match input with
  | some a => getColVector a 0
  | none => old

/-- `RosPublisher::run`: what is published; `running` is false if there was no master at the construction. -/
def publish {α : Type} (running : Bool) (msg : α) : List α := if running then [msg] else []

/-- `rosCallbackFct` of the array subscriber: the new output and its timestamp. -/
def arrayReceive {M N : Nat} (val : Mat M (N + 1) T) (t : Nat) (data : List (Option T)) : Option (Mat M (N + 1) T × Nat) :=
  (setCol val 0 data).map fun v => (v, t)

/-- A vector of three numbers, and a twist message. -/
structure Vec3 (T : Type) where
  x : T
  y : T
  z : T
deriving DecidableEq, Repr

structure Twist (T : Type) where
  linear : Vec3 T
  angular : Vec3 T
deriving DecidableEq, Repr

/-- `parseMsg` of the twist subscriber: the two outputs, as arrays. -/
def parseTwist (msg : Twist T) : List (List T) :=
  [[msg.linear.x, msg.linear.y, msg.linear.z], [msg.angular.x, msg.angular.y, msg.angular.z]]

/-- A quaternion. -/
structure Quat (T : Type) where
  x : T
  y : T
  z : T
  w : T
deriving DecidableEq, Repr

/-- The odometry message. -/
structure Odom (T : Type) where
  frame : String
  child : String
  stamp : Nat
  position : Vec3 T
  orientation : Quat T
  twist : Twist T
  covPose : List T
  covTwist : List T
deriving DecidableEq, Repr

/-- The inputs of the odometry publisher: four vectors and two arrays of 36 numbers; `none`: not connected. -/
structure OdomIn (T : Type) where
  vec : Nat → Option (List T)
  covPose : Option (List T)
  covTwist : Option (List T)

/-- `temp[0]`, `temp[1]`, `temp[2]` of a connected input. -/
def vec3 (i : Option (List T)) : Option (Vec3 T) :=
  match i with
  | some [a, b, c] => some ⟨a, b, c⟩
  | _ => none

/-- `setRosMsg` of the odometry publisher with `setRPY` of `tf2`; `none`: `NotConnectedFault`. -/
def odomMsg (rpy : T → T → T → Quat T) (odomFrame robotBaseFrame : String) (now : Nat) (i : OdomIn T) : Option (Odom T) := do
  let p ← vec3 (i.vec 0)
  let r ← vec3 (i.vec 1)
  let l ← vec3 (i.vec 2)
  let a ← vec3 (i.vec 3)
  let cp ← i.covPose
  let ct ← i.covTwist
  return { frame := odomFrame, child := robotBaseFrame, stamp := now, position := p, orientation := rpy r.x r.y r.z, twist := ⟨l, a⟩, covPose := cp, covTwist := ct }

end Verif.Control.RosData
