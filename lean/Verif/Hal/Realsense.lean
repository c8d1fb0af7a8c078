import Mathlib.Algebra.Ring.Defs
/-!
Model of `RealsenseT265::calc_transform` (src/hal/RealsenseT265.cpp:47-55): the transformation of a pose.  (`run`, 39, computes it and does not use it.)  `float` is a commutative ring.
-/
namespace Verif.Hal.Realsense

/-- `rs2_pose`: rotation (x, y, z, w) and translation. -/
structure Pose (K : Type) where
  x : K
  y : K
  z : K
  w : K
  tx : K
  ty : K
  tz : K

/-- The array with 16 elements, column by column (51-54). -/
def transform {K : Type} [CommRing K] (p : Pose K) : List K :=
  [-(1 - 2 * p.y * p.y - 2 * p.z * p.z), -(2 * p.x * p.y + 2 * p.z * p.w), -(2 * p.x * p.z - 2 * p.y * p.w), 0,
   2 * p.x * p.y - 2 * p.z * p.w, 1 - 2 * p.x * p.x - 2 * p.z * p.z, 2 * p.y * p.z + 2 * p.x * p.w, 0,
   -(2 * p.x * p.z + 2 * p.y * p.w), -(2 * p.y * p.z - 2 * p.x * p.w), -(1 - 2 * p.x * p.x - 2 * p.y * p.y), 0,
   p.tx, p.ty, p.tz, 1]

end Verif.Hal.Realsense
