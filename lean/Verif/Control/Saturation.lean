import Verif.Common.XVal
/-!
Model of `Saturation` (includes/eeros/control/Saturation.hpp), scalar and vector.
-/
namespace Verif.Control.Saturation
variable {V : Type} [CppVal V]

/-- `calculateResult` for arithmetic types, 96-102. -/
def clamp (lower upper x : V) : V :=
  let out := x
  let out := if CppVal.lt upper x then upper else out
  if CppVal.lt x lower then lower else out

structure St (W : Type) where
  lower : W
  upper : W
  enabled : Bool

/-- Constructors, 31-43 (`neg` is the unary minus). -/
def new {W} (lower upper : W) : St W := ⟨lower, upper, true⟩
def newSym {W} (neg : W → W) (lim : W) : St W := new (neg lim) lim

/-- Scalar `run`, 53-60. -/
def run (s : St V) (x : V) : V := if s.enabled then clamp s.lower s.upper x else x

/-- Vector `run`, 53-60 with `calculateResult` for compound types, 104-112. -/
def runVec {n : Nat} (s : St (Fin n → V)) (x : Fin n → V) : Fin n → V :=
  if s.enabled then fun i => clamp (s.lower i) (s.upper i) (x i) else x

inductive Op (W : Type) where
  | enable
  | disable
  | setLimit (lower upper : W)

/-- 69-93. -/
def step {W} (s : St W) : Op W → St W
  | .enable => { s with enabled := true }
  | .disable => { s with enabled := false }
  | .setLimit l u => { s with lower := l, upper := u }

end Verif.Control.Saturation
