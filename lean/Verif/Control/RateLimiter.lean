import Mathlib.Algebra.Order.Field.Basic
/-!
Model of `RateLimiter` (includes/eeros/control/RateLimiter.hpp) for scalar signals and, element by element, for vectors, with exact
arithmetic and finite inputs.  Division by a zero time difference is the IEEE one: it gives an infinity of the sign of the numerator, or
NaN for 0/0.
-/
namespace Verif.Control.RateLimiter
variable {K : Type} [Field K] [LinearOrder K]

/-- 137-139. `prev = none` is NaN, the value of the cleared signal before the first run. -/
structure St (K : Type) where
  prev : Option K
  prevTs : Nat
  falling : K
  rising : K
  enabled : Bool

/-- Constructor with two rates, 59-63. -/
def new (falling rising : K) : St K := ⟨none, 0, falling, rising, false⟩
/-- Constructor with one rate, 47-51. -/
def newSym (rate : K) : St K := new (-rate) rate

/-- `rate > r` for `rate = num / dt`. -/
def rateGt (num dt r : K) : Bool := if dt = 0 then decide (0 < num) else decide (r < num / dt)
/-- `rate < r` for `rate = num / dt`. -/
def rateLt (num dt r : K) : Bool := if dt = 0 then decide (num < 0) else decide (num / dt < r)

/-- `calculateResult`, 142-150.  With `outPrev` NaN the rate is NaN and both comparisons are false. -/
def limit (s : St K) (x dt : K) : K :=
  match s.prev with
  | none => x
  | some p =>
    if rateGt (x - p) dt s.rising then dt * s.rising + p
    else if rateLt (x - p) dt s.falling then dt * s.falling + p
    else x

/-- `run`, 79-93; the output is the new `prev`. -/
def run (s : St K) (x : K) (ts : Nat) : St K :=
  let tin : K := (ts : K) / 1000000000
  let tprev : K := (s.prevTs : K) / 1000000000
  let out := if s.enabled then limit s x (tin - tprev) else x
  { s with prev := some out, prevTs := ts }

inductive Op (K : Type) where
  | run (x : K) (ts : Nat)
  | enable
  | disable
  | setRate (falling rising : K)

def step (s : St K) : Op K → St K
  | .run x t => run s x t
  | .enable => { s with enabled := true }
  | .disable => { s with enabled := false }
  | .setRate f r => { s with falling := f, rising := r }

def exec (s : St K) (ops : List (Op K)) : St K := ops.foldl step s

end Verif.Control.RateLimiter
