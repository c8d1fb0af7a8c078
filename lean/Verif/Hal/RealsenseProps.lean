import Verif.Hal.Realsense
import Mathlib.Algebra.Quaternion
import Mathlib.LinearAlgebra.Matrix.Determinant.Basic
import Mathlib.Tactic.LinearCombination
import Mathlib.Tactic.NormNum
/-!
Theorems about the transformation of a pose: it is the rotation of the unit quaternion after a rotation by 180 degrees about the y axis.
-/
namespace Verif.Hal.Realsense
open Matrix
variable {K : Type} [CommRing K]

/-- The matrix in the array. -/
def mat (p : Pose K) : Matrix (Fin 4) (Fin 4) K := fun i j => (transform p).getD (4 * j.val + i.val) 0

/-- The rotational part. -/
def rot (p : Pose K) : Matrix (Fin 3) (Fin 3) K := fun i j => mat p i.castSucc j.castSucc

/-- The quaternion of the pose. -/
def quat (p : Pose K) : Quaternion K := ⟨p.w, p.x, p.y, p.z⟩

/-- Specification: the rotation by the quaternion. -/
def turn (p : Pose K) (v : Quaternion K) : Quaternion K := quat p * v * star (quat p)

/-- Specification: half a turn about the y axis. -/
def half (v : Quaternion K) : Quaternion K := ⟨v.re, -v.imI, v.imJ, -v.imK⟩

/-- A point in space as a quaternion. -/
def pt (a b c : K) : Quaternion K := ⟨0, a, b, c⟩

@[simp] theorem pt_re (a b c : K) : (pt a b c).re = 0 := rfl
@[simp] theorem pt_imI (a b c : K) : (pt a b c).imI = a := rfl
@[simp] theorem pt_imJ (a b c : K) : (pt a b c).imJ = b := rfl
@[simp] theorem pt_imK (a b c : K) : (pt a b c).imK = c := rfl
@[simp] theorem quat_re (p : Pose K) : (quat p).re = p.w := rfl
@[simp] theorem quat_imI (p : Pose K) : (quat p).imI = p.x := rfl
@[simp] theorem quat_imJ (p : Pose K) : (quat p).imJ = p.y := rfl
@[simp] theorem quat_imK (p : Pose K) : (quat p).imK = p.z := rfl
@[simp] theorem half_re (v : Quaternion K) : (half v).re = v.re := rfl
@[simp] theorem half_imI (v : Quaternion K) : (half v).imI = -v.imI := rfl
@[simp] theorem half_imJ (v : Quaternion K) : (half v).imJ = v.imJ := rfl
@[simp] theorem half_imK (v : Quaternion K) : (half v).imK = -v.imK := rfl

/-- A unit quaternion. -/
def Unit (p : Pose K) : Prop := p.w * p.w + p.x * p.x + p.y * p.y + p.z * p.z = 1

/-- For a unit quaternion the matrix maps every point to the rotated point plus the translation. -/
theorem transforms_points (p : Pose K) (h : Unit p) (a b c : K) :
    (mat p).mulVec ![a, b, c, 1] =
      ![(turn p (half (pt a b c))).imI + p.tx, (turn p (half (pt a b c))).imJ + p.ty, (turn p (half (pt a b c))).imK + p.tz, 1] := by
  unfold Unit at h
  funext i
  fin_cases i
  · simp [Matrix.mulVec, dotProduct, Fin.sum_univ_succ, mat, transform, turn, Quaternion.re_mul, Quaternion.imI_mul, Quaternion.imJ_mul, Quaternion.imK_mul, Quaternion.re_star, Quaternion.imI_star, Quaternion.imJ_star, Quaternion.imK_star]
    linear_combination a * h
  · simp [Matrix.mulVec, dotProduct, Fin.sum_univ_succ, mat, transform, turn, Quaternion.re_mul, Quaternion.imI_mul, Quaternion.imJ_mul, Quaternion.imK_mul, Quaternion.re_star, Quaternion.imI_star, Quaternion.imJ_star, Quaternion.imK_star]
    linear_combination (-b) * h
  · simp [Matrix.mulVec, dotProduct, Fin.sum_univ_succ, mat, transform, turn, Quaternion.re_mul, Quaternion.imI_mul, Quaternion.imJ_mul, Quaternion.imK_mul, Quaternion.re_star, Quaternion.imI_star, Quaternion.imJ_star, Quaternion.imK_star]
    linear_combination c * h
  · simp [Matrix.mulVec, dotProduct, Fin.sum_univ_succ, mat, transform]

/-- For a unit quaternion the rotational part is a rotation: orthogonal with determinant 1. -/
theorem is_rotation (p : Pose K) (h : Unit p) : (rot p).transpose * rot p = 1 ∧ (rot p).det = 1 := by
  unfold Unit at h
  have hw : p.w * p.w = 1 - p.x * p.x - p.y * p.y - p.z * p.z := by linear_combination h
  constructor
  · ext i j
    fin_cases i <;> fin_cases j <;> simp [Matrix.mul_apply, Fin.sum_univ_succ, rot, mat, transform]
    · linear_combination (4 * p.z * p.z + 4 * p.y * p.y) * hw
    · linear_combination (4 * p.x * p.y) * hw
    · linear_combination (-4 * p.x * p.z) * hw
    · linear_combination (4 * p.x * p.y) * hw
    · linear_combination (4 * p.z * p.z + 4 * p.x * p.x) * hw
    · linear_combination (4 * p.y * p.z) * hw
    · linear_combination (-4 * p.x * p.z) * hw
    · linear_combination (4 * p.y * p.z) * hw
    · linear_combination (4 * p.x * p.x + 4 * p.y * p.y) * hw
  · rw [Matrix.det_fin_three]
    simp [rot, mat, transform]
    linear_combination (4 * (p.x * p.x + p.y * p.y + p.z * p.z)) * hw

/-- A rotation about an axis in space: (w, x, y, z) = (1, 1, 1, 1) / 2. -/
example : Unit (⟨1/2, 1/2, 1/2, 1/2, 3, 4, 5⟩ : Pose ℚ) ∧ (mat (⟨1/2, 1/2, 1/2, 1/2, 3, 4, 5⟩ : Pose ℚ)).mulVec ![1, 2, 7, 1] = ![-4, 3, 7, 1] := by
  constructor
  · norm_num [Unit]
  · funext i
    fin_cases i <;> simp [Matrix.mulVec, dotProduct, Fin.sum_univ_succ, mat, transform] <;> norm_num

/-- Without normalisation the result is not a rotation: a quaternion (0, s, 0, 0) scales the y axis by `1 - 2 s²`. -/
theorem not_normalised (s : K) : (rot (⟨s, 0, 0, 0, 0, 0, 0⟩ : Pose K)).mulVec ![0, 1, 0] = ![0, 1 - 2 * s * s, 0] := by
  funext i
  fin_cases i <;> simp [Matrix.mulVec, dotProduct, Fin.sum_univ_succ, rot, mat, transform]

/-- Case of `not_normalised`: a quaternion of length 2 turns the y axis and makes it seven times as long. -/
example : (rot (⟨2, 0, 0, 0, 0, 0, 0⟩ : Pose ℚ)).mulVec ![0, 1, 0] = ![0, -7, 0] := by rw [not_normalised]; norm_num

end Verif.Hal.Realsense
