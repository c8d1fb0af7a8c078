import Mathlib.Order.Defs.LinearOrder
/-!
Exact values extended by the three special outcomes of IEEE doubles.

`XVal K` is `double` without rounding: a finite value of the linearly ordered type `K`,
plus/minus infinity, or NaN.  Comparisons follow IEEE 754 (every ordered comparison with NaN is
false, `!=` with NaN is true).  The sign of zero is not modelled.
-/
namespace Verif

/-- A `double` without rounding: finite, ±∞ or NaN. -/
inductive XVal (K : Type) where
  | fin (q : K)
  | pinf
  | ninf
  | nan
deriving DecidableEq, Repr

namespace XVal
variable {K : Type} [LinearOrder K]

/-- C++ `a < b` on doubles. -/
def lt : XVal K → XVal K → Bool
  | nan, _ => false
  | _, nan => false
  | fin a, fin b => decide (a < b)
  | ninf, ninf => false
  | ninf, _ => true
  | _, ninf => false
  | pinf, _ => false
  | fin _, pinf => true

/-- C++ `a == b` on doubles. -/
def eq : XVal K → XVal K → Bool
  | fin a, fin b => decide (a = b)
  | pinf, pinf => true
  | ninf, ninf => true
  | _, _ => false

/-- C++ `a <= b` on doubles. -/
def le (a b : XVal K) : Bool := lt a b || eq a b

/-- `std::isfinite`. -/
def isFinite : XVal K → Bool
  | fin _ => true
  | _ => false

/-- `std::isnan`. -/
def isNaN : XVal K → Bool
  | nan => true
  | _ => false

end XVal

/-- The comparisons the C++ templates use on their value type `T` (`double`, `bool`, ...). -/
class CppVal (V : Type) where
  lt : V → V → Bool
  eq : V → V → Bool

instance {K : Type} [LinearOrder K] : CppVal (XVal K) := ⟨XVal.lt, XVal.eq⟩
/-- `bool` in C++ compares as 0/1. -/
instance : CppVal Bool := ⟨fun a b => !a && b, fun a b => a == b⟩
instance : CppVal Int := ⟨fun a b => decide (a < b), fun a b => decide (a = b)⟩

end Verif
