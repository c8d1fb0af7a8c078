/-
Model of the specialisation `Matrix<1,1,T>` (`/repo/includes/eeros/math/Matrix.hpp` 968-1050): a matrix with one element, which is the state.
`T` is a field (`double` without rounding).  `none`: `MatrixIndexOutOfBoundException`.
-/
import Mathlib.Algebra.Field.Basic

namespace Verif.Math.Matrix1

/-- Conversion of an index to `uint8_t`, the type of the arguments of `get`, `set`, `getCol`, `getRow` and `operator()(m, n)` (985-995). -/
def u8 (n : Nat) : Nat := n % 256

section
variable {T : Type}

/-- `get` (985), `operator()(m, n)` (993, 995). -/
def get (v : T) (m n : Nat) : Option T := if u8 m = 0 ∧ u8 n = 0 then some v else none

/-- `set` (991): the new value. -/
def set (_v : T) (m n : Nat) (x : T) : Option T := if u8 m = 0 ∧ u8 n = 0 then some x else none

/-- `operator()(i)`, `operator[](i)` (997-1003), with an `unsigned int`. -/
def at1 (v : T) (i : Nat) : Option T := if i = 0 then some v else none

/-- `getCol` (987), `getRow` (989): the index is not used. -/
def getCol (v : T) (_n : Nat) : Option T := some v
def getRow (v : T) (_m : Nat) : Option T := some v

end

variable {T : Type} [Field T] [DecidableEq T]

/-- `zero`, `eye`, `fill` (979-983). -/
def zero : T := 0
def eye : T := 1
def fill (x : T) : T := x

/-- 1007. -/
def isOrthogonal (v : T) : Bool := v = 1
/-- 1005, 1009-1015. -/
def isSymmetric (_v : T) : Bool := true
def isDiagonal (_v : T) : Bool := true
def isLowerTriangular (_v : T) : Bool := true
def isUpperTriangular (_v : T) : Bool := true
/-- 1017. -/
def isInvertible (v : T) : Bool := v ≠ 0
/-- 1025. -/
def rank (v : T) : Nat := if v = 0 then 1 else 0
/-- 1027, 1029. -/
def det (v : T) : T := v
def trace (v : T) : T := v
/-- `operator!` (1031); by a zero: not finite. -/
def inverse (v : T) : Option T := if v = 0 then none else some (1 / v)
/-- `operator+=`, `operator-=` (1035-1043), through the conversion to `T` (1033). -/
def addTo (v w : T) : T := v + w
def subFrom (v w : T) : T := v - w

end Verif.Math.Matrix1
