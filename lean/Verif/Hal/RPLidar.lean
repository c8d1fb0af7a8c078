import Mathlib.Algebra.Order.Field.Basic
/-!
Model of a laser scan: the loop of RPLidar::run, src/hal/RPLidar.cpp:81-124, and `RPLidarInput::run`
(includes/eeros/control/sensor/RPLidarInput.hpp:45-50, the outputs are copies).  Distances are exact (the code computes in `float`, so
that the distance 40/4 mm, exactly at the limit of 0.01 m, is also reported as infinite).  `K` is the type of the exact values.
-/
namespace Verif.Hal.RPLidar
variable {K : Type} [Field K] [LinearOrder K]

/-- `rplidar_response_measurement_node_hq_t`: all three are unsigned integers. -/
structure Node where
  angle : Nat
  dist : Nat
  quality : Nat
deriving DecidableEq, Repr

/-- Outputs; `none` is infinity.  The code has LASER_COUNT_MAX = 380 elements; the driver delivers at most as many nodes. -/
structure Out (K : Type) where
  ranges : Nat → Option K
  intensities : Nat → Option K
  angles : Nat → Option K

/-- Line 94: `while (nodes[i++].dist_mm_q2 == 0);`.  Behind the nodes of the scan the array is not initialised; reading there is
undefined (`none`). -/
def scanUp (nodes : List Node) : Nat → Nat → Option Nat
  | 0, _ => none
  | fuel + 1, i =>
    match nodes[i]? with
    | none => none
    | some n => if n.dist = 0 then scanUp nodes fuel (i + 1) else some (i + 1)

/-- Lines 96-97: `i = count - 1; while (nodes[i--].dist_mm_q2 == 0);`.  The argument is `i + 1`; 0 stands for the index -1. -/
def scanDown (nodes : List Node) : Nat → Option Nat
  | 0 => none
  | i + 1 =>
    match nodes[i]? with
    | none => none
    | some n => if n.dist = 0 then scanDown nodes i else some i

/-- Lines 105-109. -/
def range (n : Node) : Option K :=
  let v : K := (n.dist : K) / 4 / 1000
  if |v| < 1 / 100 then none else some v

/-- Lines 88-118 after a successful scan of `nodes`, sorted by the driver. -/
def process (nodes : List Node) : Option (Out K) := do
  let _ ← scanUp nodes (nodes.length + 1) 0
  let _ ← scanDown nodes nodes.length
  some {
    ranges := fun i => (nodes[i]?).bind range
    intensities := fun i => (nodes[i]?).map fun n => ((n.quality >>> 2 : Nat) : K)
    angles := fun i => (nodes[i]?).map fun n => (n.angle : K) * 90 / 16384 * (31415926535 / 10000000000) / 180 }

/-- The driver's answer to one call. -/
inductive Answer where
  | ok (nodes : List Node)
  | error

/-- One iteration of the loop; `none`: undefined. -/
def step (s : Out K) : Answer → Option (Out K)
  | .ok nodes => process nodes
  | .error => some s

def run (s : Out K) : List Answer → Option (Out K)
  | [] => some s
  | a :: l => (step s a).bind (run · l)

end Verif.Hal.RPLidar
