/-
Model of the rotations, the cross product and the predicates of `math::Matrix`
(`/repo/includes/eeros/math/Matrix.hpp` 84-142, 303-349, 152-233, 796-822).  Rotations over ℝ with the exact
sine and cosine.
-/
import Verif.Math.Matrix
import Verif.Math.Inverse
import Mathlib.Analysis.SpecialFunctions.Trigonometric.Basic

namespace Verif.Math.Mat

/-- `rotx` (84-102); `g` = contents before. -/
noncomputable def rotx (a : ℝ) (g : Mat 3 3 ℝ) : Mat 3 3 ℝ :=
  ((((((((g.set 0 0 1).set 1 0 0).set 2 0 0).set 0 1 0).set 1 1 (Real.cos a)).set 2 1 (Real.sin a)).set 0 2 0).set 1 2
    (-Real.sin a)).set 2 2 (Real.cos a)

/-- `roty` (104-122). -/
noncomputable def roty (a : ℝ) (g : Mat 3 3 ℝ) : Mat 3 3 ℝ :=
  ((((((((g.set 0 0 (Real.cos a)).set 1 0 0).set 2 0 (-Real.sin a)).set 0 1 0).set 1 1 1).set 2 1 0).set 0 2
    (Real.sin a)).set 1 2 0).set 2 2 (Real.cos a)

/-- `rotz` (124-142). -/
noncomputable def rotz (a : ℝ) (g : Mat 3 3 ℝ) : Mat 3 3 ℝ :=
  ((((((((g.set 0 0 (Real.cos a)).set 1 0 (Real.sin a)).set 2 0 0).set 0 1 (-Real.sin a)).set 1 1
    (Real.cos a)).set 2 1 0).set 0 2 0).set 1 2 0).set 2 2 1

variable {M N : Nat} {T : Type} [CommRing T]

/-- `createSkewSymmetric` (802-814). -/
def skew (a : Mat 3 1 T) (g : Mat 3 3 T) : Mat 3 3 T :=
  ((((((((g.set 0 0 0).set 0 1 (-a.value 2)).set 0 2 (a.value 1)).set 1 0 (a.value 2)).set 1 1 0).set 1 2
    (-a.value 0)).set 2 0 (-a.value 1)).set 2 1 (a.value 0)).set 2 2 0

/-- `crossProduct` (816-822). -/
def cross (a b : Mat 3 1 T) (g : Mat 3 1 T) : Mat 3 1 T :=
  ((g.set 0 0 (a.at' 1 0 * b.at' 2 0 - a.at' 2 0 * b.at' 1 0)).set 1 0
    (a.at' 2 0 * b.at' 0 0 - a.at' 0 0 * b.at' 2 0)).set 2 0 (a.at' 0 0 * b.at' 1 0 - a.at' 1 0 * b.at' 0 0)

/-- `createDiag` (796-800). -/
def createDiag (v : T) (g g' : Mat M N T) : Mat M N T := smulR (eye g) v g'

variable [DecidableEq T]

/-- `isSymmetric` (303-305), square matrices only (otherwise it does not compile). -/
def isSymmetric (A : Mat M M T) (g : Mat M M T) : Bool := eqOp A (transpose A g)

/-- A scan as in 307-344: false at the first non-zero element at a position selected by `bad`. -/
def scan (bad : Nat → Nat → Bool) (A : Mat M N T) : Bool :=
  (List.range M).all fun m => (List.range N).all fun n => !(bad m n && decide (A.at' m n ≠ 0))

/-- `isDiagonal` (307-318). -/
def isDiagonal (A : Mat M N T) : Bool := scan (fun m n => decide (m ≠ n)) A
/-- `isLowerTriangular` (320-331). -/
def isLower (A : Mat M N T) : Bool := scan (fun m n => decide (m < n)) A
/-- `isUpperTriangular` (333-344). -/
def isUpper (A : Mat M N T) : Bool := scan (fun m n => decide (m > n)) A

/-- `isInvertible` (346-349) of a square matrix. -/
def isInvertible {K : Type} [Field K] [DecidableEq K] (g : (k : Nat) → Mat k k K) (n : Nat) (A : Mat n n K) : Bool :=
  decide (det g n A ≠ 0)

end Verif.Math.Mat
