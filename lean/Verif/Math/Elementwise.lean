import Verif.Math.MatrixProps
import Mathlib.LinearAlgebra.Matrix.Hadamard
import Mathlib.Tactic.Positivity
/-!
C326: the operations on matrices which work element by element (`/repo/includes/eeros/math/Matrix.hpp`): `multiplyElementWise`, a number added to, subtracted from
or divided by the elements, from the right and from the left.  The element type is any type with the operation, so the theorems on single elements hold for doubles
as they are computed; the algebraic laws are those of exact numbers.
-/
namespace Verif.Math.Elementwise
open Verif.Math Verif.Math.Mat
variable {M N : Nat} {T : Type}

/-- `multiplyElementWise`, 592-600. -/
def ewMul [Mul T] (A B g : Mat M N T) : Mat M N T := loop (fun m n => A.at' m n * B.at' m n) g
/-- `operator+(T)`, 612-620. -/
def addR [Add T] (A : Mat M N T) (c : T) (g : Mat M N T) : Mat M N T := loop (fun m n => A.at' m n + c) g
/-- `operator+(T, Matrix)`, 883-892. -/
def addL [Add T] (c : T) (A g : Mat M N T) : Mat M N T := loop (fun m n => c + A.at' m n) g
/-- `operator-(T)`, 637-645. -/
def subR [Sub T] (A : Mat M N T) (c : T) (g : Mat M N T) : Mat M N T := loop (fun m n => A.at' m n - c) g
/-- `operator-(T, Matrix)`, 894-903. -/
def subL [Sub T] (c : T) (A g : Mat M N T) : Mat M N T := loop (fun m n => c - A.at' m n) g
/-- `operator/(T)`, 662-670. -/
def divR [Div T] (A : Mat M N T) (c : T) (g : Mat M N T) : Mat M N T := loop (fun m n => A.at' m n / c) g
/-- `operator/(T, Matrix)`, 930-939. -/
def divL [Div T] (c : T) (A g : Mat M N T) : Mat M N T := loop (fun m n => c / A.at' m n) g

/-- C326: reading any element of a result (with the checked access) gives the operation on the elements at the same place; what the memory of the result contained before has
no influence.  No property of the operations is used: this holds for the operations of doubles and integers as they are. -/
theorem each_element [Add T] [Sub T] [Mul T] [Div T] (A B g : Mat M N T) (c : T) (m n : Nat) :
    (ewMul A B g).get? m n = (do some ((← A.get? m n) * (← B.get? m n))) ∧
    (addR A c g).get? m n = (A.get? m n).map (· + c) ∧ (addL c A g).get? m n = (A.get? m n).map (c + ·) ∧
    (subR A c g).get? m n = (A.get? m n).map (· - c) ∧ (subL c A g).get? m n = (A.get? m n).map (c - ·) ∧
    (divR A c g).get? m n = (A.get? m n).map (· / c) ∧ (divL c A g).get? m n = (A.get? m n).map (c / ·) := by
  by_cases h : m < M ∧ n < N
  · have key : ∀ f : Nat → Nat → T, (loop f g).value (M * n + m) = f m n := fun f => at_loop f g h.1 h.2
    simp [get?, h, ewMul, addR, addL, subR, subL, divR, divL, key, at']
  · simp [get?, h]

example : (divL 6 (⟨fun i => (i : ℚ) + 1⟩ : Mat 2 2 ℚ) ⟨fun _ => 0⟩).get? 1 1 = some (3 / 2) := by
  rw [(each_element (⟨fun i => (i : ℚ) + 1⟩ : Mat 2 2 ℚ) ⟨fun _ => 0⟩ ⟨fun _ => 0⟩ 6 1 1).2.2.2.2.2.2]
  norm_num [get?]

/-- C326: over a field the operations with a number on the left and on the right belong together: sums are the same, differences are opposite, a quotient is the product with the
reciprocal; the product by elements is commutative and distributes; dividing a number by a matrix undoes the product by elements wherever no element is 0. -/
theorem laws [Field T] (A B C g : Mat M N T) (c : T) :
    toM (addL c A g) = toM (addR A c g) ∧ toM (subL c A g) = -toM (subR A c g) ∧ toM (subR A c g) = toM (addR A (-c) g) ∧
    toM (divR A c g) = c⁻¹ • toM A ∧ toM (ewMul A B g) = (toM A).hadamard (toM B) ∧ toM (ewMul A B g) = toM (ewMul B A g) ∧
    toM (ewMul A (add B C g) g) = toM (ewMul A B g) + toM (ewMul A C g) ∧
    ((∀ i j, toM A i j ≠ 0) → toM (ewMul (divL c A g) A g) = toM (fill c g)) := by
  have hd : toM (divR A c g) = c⁻¹ • toM A := by
    ext i j
    simp only [toM, divR, at_loop _ _ i.2 j.2, Matrix.smul_apply, smul_eq_mul, div_eq_mul_inv, mul_comm]
  refine ⟨?_, ?_, ?_, hd, ?_, ?_, ?_, ?_⟩
  · ext i j; simp only [toM, addL, addR, at_loop _ _ i.2 j.2, add_comm]
  · ext i j; simp only [toM, subL, subR, at_loop _ _ i.2 j.2, Matrix.neg_apply, neg_sub]
  · ext i j; simp only [toM, subR, addR, at_loop _ _ i.2 j.2, sub_eq_add_neg]
  · ext i j; simp only [toM, ewMul, at_loop _ _ i.2 j.2, Matrix.hadamard_apply]
  · ext i j; simp only [toM, ewMul, at_loop _ _ i.2 j.2, mul_comm]
  · ext i j; simp only [toM, ewMul, add, at_loop _ _ i.2 j.2, Matrix.add_apply, mul_add]
  · intro h
    ext i j
    have := h i j
    simp only [toM] at this
    simp only [toM, ewMul, divL, fill, at_loop _ _ i.2 j.2]
    exact div_mul_cancel₀ c this

example : ∀ i j, toM (⟨fun i => (i : ℚ) + 1⟩ : Mat 2 2 ℚ) i j ≠ 0 := by
  intro i j; simp only [toM, at']; positivity

end Verif.Math.Elementwise
