/-
C127: matrices with one element behave like matrices.
-/
import Verif.Math.Matrix1
import Mathlib.LinearAlgebra.Matrix.Rank
import Mathlib.LinearAlgebra.Matrix.NonsingularInverse
import Mathlib.LinearAlgebra.Matrix.Trace
import Mathlib.LinearAlgebra.Matrix.Diagonal
import Mathlib.LinearAlgebra.Matrix.IsDiag
import Mathlib.Data.Rat.Defs

namespace Verif.Math.Matrix1

/-- The matrix with the element `v`. -/
def toM {T : Type} (v : T) : Matrix (Fin 1) (Fin 1) T := fun _ _ => v

variable {T : Type} [Field T] [DecidableEq T]

theorem toM_inj (v w : T) : toM v = toM w ↔ v = w := ⟨fun h => congrFun (congrFun h 0) 0, fun h => by rw [h]⟩

theorem toM_one : toM (1 : T) = 1 := by
  ext i j
  rw [Subsingleton.elim i j, Matrix.one_apply_eq]
  rfl

theorem toM_mul (v w : T) : toM v * toM w = toM (v * w) := by
  ext i j
  simp [Matrix.mul_apply, toM]

theorem det_toM (v : T) : (toM v).det = v := by rw [Matrix.det_fin_one]; rfl

/-- **C127 (partial)** Zero, identity, sum, difference, determinant, trace, invertibility and inverse are those of the 1 × 1 matrix; it is always diagonal, symmetric and triangular.
Missing: rank, orthogonality, see `rank_violated`, `orthogonal_violated`; indices, see `index_violated`. -/
theorem algebra_partial (v w : T) :
    toM (zero : T) = 0 ∧ toM (eye : T) = 1 ∧ toM (addTo v w) = toM v + toM w ∧ toM (subFrom v w) = toM v - toM w ∧ det v = (toM v).det ∧ trace v = (toM v).trace ∧
      (isInvertible v = true ↔ IsUnit (toM v)) ∧ (∀ x, inverse v = some x → toM v * toM x = 1 ∧ toM x * toM v = 1) ∧ (inverse v = none ↔ ¬ IsUnit (toM v)) ∧
      (isSymmetric v = true ∧ Matrix.IsSymm (toM v)) ∧ (isDiagonal v = true ∧ Matrix.IsDiag (toM v)) := by
  have hu : IsUnit (toM v) ↔ v ≠ 0 := by rw [Matrix.isUnit_iff_isUnit_det, det_toM, isUnit_iff_ne_zero]
  refine ⟨rfl, toM_one, rfl, rfl, (det_toM v).symm, by simp [trace, toM, Matrix.trace], ?_, ?_, ?_, ⟨rfl, ?_⟩, ⟨rfl, ?_⟩⟩
  · rw [hu]; simp [isInvertible]
  · intro x hx
    unfold inverse at hx
    split at hx
    · cases hx
    · rename_i hv
      cases hx
      rw [toM_mul, toM_mul, mul_one_div_cancel hv, one_div_mul_cancel hv, toM_one]
      exact ⟨rfl, rfl⟩
  · rw [hu]
    unfold inverse
    split
    · rename_i hv; simp [hv]
    · rename_i hv; simp [hv]
  · rfl
  · intro i j hij
    exact absurd (Subsingleton.elim i j) hij

example : inverse (4 : ℚ) = some (1 / 4) ∧ toM (4 : ℚ) * toM (1 / 4) = 1 :=
  ⟨rfl, ((algebra_partial (4 : ℚ) 0).2.2.2.2.2.2.2.1 (1 / 4) rfl).1⟩

/-- **C127** An index 0 selects the element, any other below 256 is refused. -/
theorem index_partial (v x : T) (m n : Nat) (hm : m < 256) (hn : n < 256) :
    (get v m n = if m = 0 ∧ n = 0 then some v else none) ∧ (set v m n x = if m = 0 ∧ n = 0 then some x else none) ∧ (at1 v m = if m = 0 then some v else none) := by
  refine ⟨?_, ?_, rfl⟩
  · simp only [get, u8, Nat.mod_eq_of_lt hm, Nat.mod_eq_of_lt hn]
  · simp only [set, u8, Nat.mod_eq_of_lt hm, Nat.mod_eq_of_lt hn]

example : get (7 : ℚ) 0 1 = none := (index_partial (7 : ℚ) 0 0 1 (by decide) (by decide)).1

/-- **C127 violated**: indices are 8 bit numbers: an index which is a multiple of 256 is accepted, and rows and columns are not checked at all. -/
theorem index_violated (v : T) (a b n : Nat) : get v (256 * a) (256 * b) = some v ∧ getCol v n = some v ∧ getRow v n = some v := by
  refine ⟨?_, rfl, rfl⟩
  simp [get, u8]

/-- Element (256, 0) and column 3 of a 1 × 1 matrix. -/
example : get (7 : ℚ) 256 0 = some 7 ∧ getCol (7 : ℚ) 3 = some 7 := ⟨(index_violated (7 : ℚ) 1 0 0).1, rfl⟩

/-- The rank of the matrix: 0 for the zero matrix, 1 for any other. -/
theorem rank_toM (v : T) : (toM v).rank = if v = 0 then 0 else 1 := by
  split
  · rename_i h
    rw [h, show toM (0 : T) = 0 from rfl, Matrix.rank_zero]
  · rename_i h
    have hu : IsUnit (toM v) := by
      rw [Matrix.isUnit_iff_isUnit_det, det_toM, isUnit_iff_ne_zero]
      exact h
    rw [Matrix.rank_of_isUnit _ hu, Fintype.card_fin]

/-- **C127 violated**: `rank` is wrong for every matrix. -/
theorem rank_violated (v : T) : rank v ≠ (toM v).rank := by
  rw [rank_toM]
  unfold rank
  split <;> decide

example : rank (5 : ℚ) = 0 ∧ (toM (5 : ℚ)).rank = 1 := by
  refine ⟨rfl, ?_⟩
  rw [rank_toM]
  rfl

/-- **C127 (partial)** A matrix which is called orthogonal is. -/
theorem orthogonal_partial (v : T) (h : isOrthogonal v = true) : toM v * (toM v).transpose = 1 := by
  have hv : v = 1 := by simpa [isOrthogonal] using h
  rw [hv]
  show toM (1 : T) * toM (1 : T) = 1
  rw [toM_mul, mul_one, toM_one]

example : toM (1 : ℚ) * (toM (1 : ℚ)).transpose = 1 := orthogonal_partial 1 rfl

/-- **C127 violated**: the matrix (-1) is orthogonal and is not called so. -/
theorem orthogonal_violated : isOrthogonal (-1 : ℚ) = false ∧ toM (-1 : ℚ) * (toM (-1 : ℚ)).transpose = 1 := by
  refine ⟨by decide, ?_⟩
  show toM (-1 : ℚ) * toM (-1 : ℚ) = 1
  rw [toM_mul, neg_mul_neg, mul_one, toM_one]

end Verif.Math.Matrix1
