import Verif.Math.Matrix
import Verif.Math.Rank
import Verif.Math.Inverse
import Verif.Math.Geometry
/-!
Unit tests of the project for matrices (/repo/test/math/matrix), replayed on the models: what the tests expect of the code the models do.
These are checks that the models fit the code, not proofs of properties; no claim refers to them.
-/
namespace Verif.Tests.Matrices
open Verif.Math Verif.Math.Mat

/-- Uninitialised contents. -/
def junk (M N : Nat) : Mat M N ℚ := ⟨fun i => 77 + i⟩
/-- `Matrix<M, N> A; A << ...`. -/
def m (M N : Nat) (vs : List ℚ) : Mat M N ℚ := (stream (junk M N) vs).getD (junk M N)
/-- `==` of the code, and every value of the list has been stored. -/
def same {M N : Nat} (A : Mat M N ℚ) (vs : List ℚ) : Bool := (stream (junk M N) vs).isSome && eqOp A (m M N vs)

/-! ### Characteristics.cpp -/

/-- 37-72: `testSwapingRows`. -/
example : same ((m 3 3 [1, 1, 0,  0, 0, 2,  1, 0, 0]).swapRows 0 1) [0, 0, 2,  1, 1, 0,  1, 0, 0] ∧
    same ((m 4 3 [1, 1, 0,  0, 0, 2,  1, 0, 0,  4, 5, 6]).swapRows 0 3) [4, 5, 6,  0, 0, 2,  1, 0, 0,  1, 1, 0] := by decide +kernel

/-- 74-162: `testGaussSorting`. -/
example : same (m 3 3 [1, 1, 0,  0, 0, 2,  1, 0, 0]).sort [1, 1, 0,  1, 0, 0,  0, 0, 2] ∧
    same (m 3 3 [0, 1, 0,  0, 0, 2,  1, 0, 0]).sort [1, 0, 0,  0, 1, 0,  0, 0, 2] ∧
    same (m 3 3 [5, 1, 3,  2, 1, 2,  5.25, 3.125, 2.5]).sort [5, 1, 3,  2, 1, 2,  5.25, 3.125, 2.5] ∧
    same (m 4 3 [1, 1, 0,  0, 0, 2,  1, 0, 0,  4, 5, 6]).sort [1, 1, 0,  1, 0, 0,  4, 5, 6,  0, 0, 2] ∧
    same (m 3 4 [1, 1, 0, 0,  0, 0, 2, 2,  1, 0, 0, 0]).sort [1, 1, 0, 0,  1, 0, 0, 0,  0, 0, 2, 2] ∧
    same (m 3 4 [2, 4, 6, 8,  1, 2, 3, 4,  0, 1, 1, 1]).sort [2, 4, 6, 8,  1, 2, 3, 4,  0, 1, 1, 1] := by decide +kernel

/-- 164-228: `testGaussRowElimination`. -/
example : same (m 3 3 [1, 1, 0,  0, 0, 2,  1, 0, 0]).gauss [1, 1, 0,  0, -1, 0,  0, 0, 2] ∧
    same (m 3 3 [1, 3, 2,  2, 4, 4,  3, 5, 6]).gauss [1, 3, 2,  0, -2, 0,  0, 0, 0] ∧
    same (m 3 4 [1, 2, 3, 4,  -1, 0, 1, 0,  3, 5, 6, 9]).gauss [1, 2, 3, 4,  0, 2, 4, 4,  0, 0, -1, -1] ∧
    same (m 3 4 [2, 4, 6, 8,  1, 2, 3, 5,  0, 1, 1, 1]).gauss [2, 4, 6, 8,  0, 0, 0, 1,  0, 1, 1, 1] := by decide +kernel

/-- What the table 260-364 says about a matrix: determinant, rank, trace, orthogonal, symmetric, lower and upper triangular. -/
def characteristics {n : Nat} (A : Mat n n ℚ) : ℚ × Nat × ℚ × Bool × Bool × Bool × Bool :=
  (det (fun k => junk k k) n A, A.rank, A.trace, isOrthogonal A (junk n n), isSymmetric A (junk n n), isLower A, isUpper A)
/-- 260-364 with the checks 366-582 (an invertible matrix is one whose determinant is not zero). -/
example : characteristics (m 3 3 [1, 0, 0,  0, 1, 0,  0, 0, 1]) = (1, 3, 3, true, true, true, true) := by decide +kernel
example : characteristics (m 3 3 [1, 3, 2,  2, 4, 4,  3, 5, 6]) = (0, 2, 11, false, false, false, false) := by decide +kernel
example : characteristics (m 2 2 [2, 5,  4, 6]) = (-8, 2, 8, false, false, false, false) := by decide +kernel
example : characteristics (m 4 4 [1, 3, 2, 6,  2, 4, 4, 3,  3, 5, 6, 1,  7, 9, 1, 4]) = (-26, 4, 15, false, false, false, false) := by decide +kernel
example : characteristics (m 4 4 [3, 7, 3, 0,  0, 2, -1, 1,  5, 4, 3, 2,  6, 6, 4, -1]) = (105, 4, 7, false, false, false, false) := by decide +kernel
example : characteristics (m 4 4 [3, 0, 0, 0,  1, 2, 0, 0,  2, 3, 3, 0,  3, 2, 4, -1]) = (-18, 4, 7, false, false, true, false) := by decide +kernel
example : characteristics (m 4 4 [3, 4.2, 1.3, 0.34,  0, 2, 1.3, 2,  0, 0, 3.1, 1.9,  0, 0, 0, -0.1]) = (-1.86, 4, 8, false, false, false, true) := by decide +kernel

/-! ### MatrixOperations2.cpp -/

/-- 25-86: addition; the subtraction 88-117 compares the wrong matrices, replayed as it is meant. -/
example : same (add (m 3 1 [1, 2, 3]) (m 3 1 [1, 2, 3]) (junk 3 1)) [2, 4, 6] ∧
    same (add (m 3 3 [1, 2, 3, 4, 5, 6, 7, 8, 9]) (m 3 3 [1, 2, 3, 4, 5, 6, 7, 8, 9]) (junk 3 3)) [2, 4, 6, 8, 10, 12, 14, 16, 18] ∧
    same (add (m 1 2 [1, 2]) (m 1 2 [1, 2]) (junk 1 2)) [2, 4] ∧ same (sub (m 3 1 [9, 8, 7]) (m 3 1 [1, 2, 3]) (junk 3 1)) [8, 6, 4] := by decide +kernel
/-- 120-201: multiplication. -/
example : same (mul (m 3 3 [1, 4, 7, 2, 5, 8, 3, 6, 9]) (m 3 1 [1, 2, 3]) (junk 3 1)) [30, 36, 42] ∧
    same (mul (m 2 2 [1, 2, 3, 4]) (m 2 2 [1, 2, 3, 4]) (junk 2 2)) [7, 10, 15, 22] ∧
    same (mul (m 4 3 [1, 2, 3, 4, 5, 6, 7, 8, 9, 10, 11, 12]) (m 3 2 [1, 2, 3, 4, 5, 6]) (junk 4 2)) [22, 28, 49, 64, 76, 100, 103, 136] := by decide +kernel
/-- 211-294: negation (the last with the constructor taking one value per element). -/
example : same (neg (m 3 1 [1, 2, 3]) (junk 3 1)) [-1, -2, -3] ∧ same (neg (m 1 2 [-1.5, 5]) (junk 1 2)) [1.5, -5] ∧
    eqOp (neg (ofArgs [1, 2, 3, 4, 5, 6] rfl : Mat 6 1 ℚ) (junk 6 1)) (ofArgs [-1, -2, -3, -4, -5, -6] rfl) ∧
    same (neg (m 3 3 [1, 2, 3, 4, 5, 6, 7, 8, 9]) (junk 3 3)) [-1, -2, -3, -4, -5, -6, -7, -8, -9] := by decide +kernel
/-- 297-358: transposition. -/
example : same (transpose (m 3 3 [1, 2, 3, 4, 5, 6, 7, 8, 9]) (junk 3 3)) [1, 4, 7, 2, 5, 8, 3, 6, 9] ∧ same (transpose (m 2 3 [1, 2, 3, 4, 5, 6]) (junk 3 2)) [1, 4, 2, 5, 3, 6] ∧
    same (transpose (m 3 1 [1, 2, 3]) (junk 1 3)) [1, 2, 3] := by decide +kernel

/-! ### ElementAccess.cpp -/

/-- Parts F and G: columns and rows. -/
def cols : List (Mat 3 1 ℚ) := [m 3 1 [-4, -3, -2], m 3 1 [-1, 0, 1], m 3 1 [2, 3, 4]]
def rows : List (Mat 1 3 ℚ) := [m 1 3 [-4, -1, 2], m 1 3 [-3, 0, 3], m 1 3 [-2, 1, 4]]
def byCols : Option (Mat 3 3 ℚ) := (List.range 3).foldlM (fun A c => (cols[c]?).bind (setCol A c)) (junk 3 3)
def byRows : Option (Mat 3 3 ℚ) := (List.range 3).foldlM (fun A r => (rows[r]?).bind (setRow A r)) (junk 3 3)
def shows (A : Option (Mat 3 3 ℚ)) : Bool := match A with
  | none => false
  | some A => ((List.range 3).flatMap fun n => (List.range 3).map fun k => A.get? k n) = [-4, -3, -2, -1, 0, 1, 2, 3, 4].map some &&
    ((List.range 9).map A.getI?) = [-4, -3, -2, -1, 0, 1, 2, 3, 4].map some &&
    (List.range 3).all fun c => ((getCol A c (junk 3 1)).bind fun x => (cols[c]?).map (eqOp x)) = some true && ((getRow A c (junk 1 3)).bind fun x => (rows[c]?).map (eqOp x)) = some true
example : shows byCols ∧ shows byRows := by decide +kernel

/-! ### Initialization.cpp (the commented part) -/

example : same (skew (m 3 1 [1, 2, 3]) (junk 3 3)) [0, -3, 2,  3, 0, -1,  -2, 1, 0] ∧ same (skew (m 3 1 [-5, -3, 0]) (junk 3 3)) [0, 0, -3,  0, 0, 5,  3, -5, 0] ∧
    same (createDiag 9 (junk 5 5) (junk 5 5)) [9, 0, 0, 0, 0,  0, 9, 0, 0, 0,  0, 0, 9, 0, 0,  0, 0, 0, 9, 0,  0, 0, 0, 0, 9] ∧
    (List.range 18).all (fun i => ((ofArgs [1, 2, 3, 4, 5, 6, 7, 8, 9, 10, 11, 12, 13, 14, 15, 16, 17, 18] rfl : Mat 6 3 ℚ).get? (i % 6) (i / 6)) = some (i + 1 : ℚ)) ∧
    same (fill (-4) (junk 2 2)) [-4, -4, -4, -4] ∧ same (eye (junk 3 3)) [1, 0, 0, 0, 1, 0, 0, 0, 1] ∧ same (zero (junk 4 2)) [0, 0, 0, 0, 0, 0, 0, 0] := by decide +kernel

/-! ### RelationalOperators.cpp (only six of the nine elements are set there, here all nine) -/

example : eqOp (zero (junk 3 3)) (zero (junk 3 3)) ∧ eqOp (fill 1 (junk 3 3)) (fill 2 (junk 3 3)) = false ∧
    same (zero (junk 3 3)) [0, 0, 0, 1, 0, 0, 0, 0, 0] = false ∧ eqOp (fill 1 (junk 3 3)) (fill (-1) (junk 3 3)) = false := by decide +kernel

end Verif.Tests.Matrices
