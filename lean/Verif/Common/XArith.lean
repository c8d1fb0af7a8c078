import Verif.Common.XVal
import Mathlib.Algebra.Order.Field.Basic
/-!
Arithmetic on doubles including infinities and NaN (IEEE 754); finite values are exact elements of an ordered field, so there is neither rounding nor
overflow.  Zeros have no sign: division by zero is division by +0.
-/
namespace Verif.XVal
variable {K : Type} [Field K] [LinearOrder K]

/-- An infinity with the sign of `q`, NaN for 0. -/
def infOf (q : K) : XVal K := if 0 < q then .pinf else if q < 0 then .ninf else .nan

def neg : XVal K → XVal K
  | .fin a => .fin (-a)
  | .pinf => .ninf
  | .ninf => .pinf
  | .nan => .nan

/-- `a + b` -/
def add : XVal K → XVal K → XVal K
  | .nan, _ => .nan
  | _, .nan => .nan
  | .fin a, .fin b => .fin (a + b)
  | .fin _, .pinf => .pinf
  | .fin _, .ninf => .ninf
  | .pinf, .ninf => .nan
  | .ninf, .pinf => .nan
  | .pinf, _ => .pinf
  | .ninf, _ => .ninf

/-- `a - b` -/
def sub (a b : XVal K) : XVal K := add a (neg b)

/-- `a * b` -/
def mul : XVal K → XVal K → XVal K
  | .nan, _ => .nan
  | _, .nan => .nan
  | .fin a, .fin b => .fin (a * b)
  | .fin a, .pinf => infOf a
  | .fin a, .ninf => infOf (-a)
  | .pinf, .fin b => infOf b
  | .ninf, .fin b => infOf (-b)
  | .pinf, .pinf => .pinf
  | .ninf, .ninf => .pinf
  | .pinf, .ninf => .ninf
  | .ninf, .pinf => .ninf

/-- `a / b` -/
def div : XVal K → XVal K → XVal K
  | .nan, _ => .nan
  | _, .nan => .nan
  | .fin a, .fin b => if b = 0 then infOf a else .fin (a / b)
  | .fin _, _ => .fin 0
  | .pinf, .fin b => if b = 0 then .pinf else infOf b
  | .ninf, .fin b => if b = 0 then .ninf else infOf (-b)
  | _, _ => .nan

@[simp] theorem add_fin (a b : K) : add (.fin a) (.fin b) = .fin (a + b) := rfl
@[simp] theorem sub_fin (a b : K) : sub (.fin a) (.fin b) = .fin (a - b) := by simp [sub, neg, sub_eq_add_neg]
@[simp] theorem mul_fin (a b : K) : mul (.fin a) (.fin b) = .fin (a * b) := rfl
@[simp] theorem lt_fin (a b : K) : lt (.fin a) (.fin b) = decide (a < b) := rfl
@[simp] theorem nan_add (a : XVal K) : add .nan a = .nan := rfl
@[simp] theorem add_nan (a : XVal K) : add a .nan = .nan := by cases a <;> rfl
@[simp] theorem sub_nan (a : XVal K) : sub a .nan = .nan := add_nan a
@[simp] theorem nan_sub (a : XVal K) : sub .nan a = .nan := rfl
@[simp] theorem nan_mul (a : XVal K) : mul .nan a = .nan := rfl
@[simp] theorem mul_nan (a : XVal K) : mul a .nan = .nan := by cases a <;> rfl
@[simp] theorem nan_div (a : XVal K) : div .nan a = .nan := rfl
@[simp] theorem div_nan (a : XVal K) : div a .nan = .nan := by cases a <;> rfl
@[simp] theorem nan_lt (a : XVal K) : lt .nan a = false := rfl
@[simp] theorem lt_nan (a : XVal K) : lt a .nan = false := by cases a <;> rfl
theorem div_fin {a b : K} (h : b ≠ 0) : div (.fin a) (.fin b) = .fin (a / b) := by simp [div, h]

end Verif.XVal
