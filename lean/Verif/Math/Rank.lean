/-
Model of `Matrix::rank`, `gaussRowElimination`, `sortForGaussAlgorithm`, `swapRows`
(`/repo/includes/eeros/math/Matrix.hpp` 363-376, 826-874) and of `rank` of the 1x1 specialisation (1025).
Exact arithmetic over a field; elements are compared with zero exactly as in the code.
-/
import Verif.Math.Matrix
import Mathlib.Algebra.Field.Basic

namespace Verif.Math.Mat
variable {M N : Nat} {K : Type} [Field K] [DecidableEq K]

/-- `swapRows` (868-874). -/
def swapRows (A : Mat M N K) (rowA rowB : Nat) : Mat M N K :=
  (List.range N).foldl (fun A n =>
    let t := A.at' rowA n
    (A.set rowA n (A.at' rowB n)).set rowB n t) A

/-- The inner loop of `sortForGaussAlgorithm` (854-862).  Every pass increases `swapRow` or `completedRow`,
so `2 * M + 1` passes suffice (`sortInner_done`). -/
def sortInner : Nat → Nat → Mat M N K → Nat → Nat → Mat M N K × Nat × Nat
  | 0, _, A, cr, sw => (A, cr, sw)
  | fuel + 1, col, A, cr, sw =>
    if cr < M then
      if A.at' cr col = 0 ∧ sw < M ∧ cr < M - 1 then sortInner fuel col (A.swapRows cr sw) cr (sw + 1)
      else sortInner fuel col A (cr + 1) sw
    else (A, cr, sw)

/-- `sortForGaussAlgorithm` (849-866): `completedRow` is not set back for the next column. -/
def sort (A : Mat M N K) : Mat M N K :=
  ((List.range N).foldl (fun (st : Mat M N K × Nat × Nat) col =>
    let st := sortInner (2 * M + 1) col st.1 st.2.1 st.2.2
    (st.1, st.2.1, st.2.1 + 1)) (A, 0, 1)).1

/-- Elimination in one row (836-841): only the columns from `col` on are changed. -/
def elimRow (A : Mat M N K) (root col r : Nat) : Mat M N K :=
  if A.at' r col ≠ 0 then
    let f := A.at' r col / A.at' root col
    (List.range' col (N - col)).foldl (fun A n => A.set r n (A.at' r n - f * A.at' root n)) A
  else A

/-- The rows below the root row (833-843).  The loop condition reads an element of the root row, which the loop
does not change; it is tested in every pass. -/
def elimCol (A : Mat M N K) (col : Nat) : Mat M N K :=
  (List.range' (col + 1) (M - (col + 1))).foldl (fun A r =>
    if A.at' col col ≠ 0 then elimRow A col col r else A) A

/-- `gaussRowElimination` (826-847): `completedRow = completedColum` all the time. -/
def gauss (A : Mat M N K) : Mat M N K := (List.range N).foldl elimCol (sort A)

/-- `rank` (363-376): the number of rows with a non-zero element. -/
def rank (A : Mat M N K) : Nat :=
  (List.range M).foldl (fun c m => if (List.range N).any (fun n => (gauss A).at' m n ≠ 0) then c + 1 else c) 0

/-- `rank` of `Matrix<1, 1, T>` (1025). -/
def rank1 (A : Mat 1 1 K) : Nat := if A.value 0 = 0 then 1 else 0

end Verif.Math.Mat
