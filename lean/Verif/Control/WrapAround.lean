import Mathlib.Algebra.Order.Floor.Defs
import Mathlib.Algebra.Order.Field.Basic
/-!
Model of `WrapAround` (includes/eeros/control/WrapAround.hpp) with exact arithmetic; vectors are handled element by element by the same
formula (105-135).
-/
namespace Verif.Control.WrapAround
variable {K : Type} [Field K] [LinearOrder K] [FloorRing K]

structure St (K : Type) where
  min : K
  max : K
  enabled : Bool

/-- Constructor, 37. -/
def new (min max : K) : St K := ⟨min, max, true⟩

/-- `calculateResult`, 92-103. -/
def wrap (s : St K) (x : K) : K :=
  let delta := |s.max - s.min|
  let num := x - s.min
  let tquot : K := (⌊num / delta⌋ : K)
  let out := num - tquot * delta
  if out < 0 then out + delta
  else if 0 < out then out + s.min
  else x

/-- `run`, 47-54. -/
def run (s : St K) (x : K) : K := if s.enabled then wrap s x else x

/-- `setMinMax`, 84-88: assigns the members to themselves. -/
def setMinMax (s : St K) (_min _max : K) : St K := { s with min := s.min, max := s.max }

end Verif.Control.WrapAround
