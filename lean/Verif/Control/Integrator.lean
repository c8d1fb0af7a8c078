import Mathlib.Algebra.Order.Field.Basic
/-!
Model of the integrator `I` (includes/eeros/control/I.hpp) for scalar floating point signals with exact arithmetic.
`none` is NaN (the value of a cleared signal); an input `none` is any value that is not finite.
-/
namespace Verif.Control.Integrator
variable {K : Type} [Field K] [LinearOrder K]

/-- 147-153; the safety level is an input of `run`. -/
structure St (K : Type) where
  first : Bool
  enabled : Bool
  prev : Option K
  prevTs : Nat
  upper : K
  lower : K
  hasLevel : Bool
  out : Option K

/-- Constructor, 34-37 with `clearLimits` 157-167; `M` is the largest double. -/
def new (M : K) : St K :=
  { first := true, enabled := false, prev := none, prevTs := 0, upper := M, lower := -M, hasLevel := false, out := none }

/-- Seconds from time stamp `t0` to `t1` (57-63). -/
def seconds (t0 t1 : Nat) : K := (t1 : K) / 1000000000 - (t0 : K) / 1000000000

/-- Lines 68-71: the value the output takes for `valprev`, `valin`, `dt`.  If `val` is NaN both comparisons are false. -/
def next (s : St K) (valprev valin : Option K) (dt : K) : Option K :=
  match valprev, valin with
  | some p, some x => let val := p + x * dt
    if val < s.upper ∧ s.lower < val then some val else some p
  | p, _ => p

/-- `run`, 53-75.  `levelReached` tells whether the current safety level is at least the active level. -/
def run (s : St K) (valin : Option K) (ts : Nat) (levelReached : Bool) : St K :=
  let enabled := if s.hasLevel then levelReached else s.enabled
  let dt : K := if s.first then 0 else seconds s.prevTs ts
  let output := if enabled then next s s.prev valin dt else s.prev
  { s with enabled := enabled, first := false, out := output, prev := output, prevTs := ts }

/-- `setLimit`, 119-125. -/
def setLimit (s : St K) (upper lower : K) : St K :=
  let s := { s with upper := upper, lower := lower }
  match s.prev with
  | none => s
  | some v =>
    let s := if upper < v then { s with prev := some upper } else s
    if v < lower then { s with prev := some lower } else s

inductive Op (K : Type) where
  | run (valin : Option K) (ts : Nat) (levelReached : Bool)
  | enable
  | disable
  | setInit (v : K)
  | setLimit (upper lower : K)
  | setActiveLevel

def step (s : St K) : Op K → St K
  | .run v t l => run s v t l
  | .enable => { s with enabled := true }
  | .disable => { s with enabled := false }
  | .setInit v => { s with prev := some v }
  | .setLimit u l => setLimit s u l
  | .setActiveLevel => { s with hasLevel := true }

def exec (s : St K) (ops : List (Op K)) : St K := ops.foldl step s

end Verif.Control.Integrator
