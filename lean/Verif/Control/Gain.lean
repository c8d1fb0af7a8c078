import Mathlib.Algebra.Order.Field.Basic
import Mathlib.Analysis.Real.Sqrt
/-!
Model of the block `Gain` (includes/eeros/control/Gain.hpp) with exact scalar gain and value.  All members are changed under the mutex except the
three flags (155-190, 205-207), which are single words; every call is one step.
-/
namespace Verif.Control.Gain
variable {K : Type} [Field K] [LinearOrder K]

/-- 281-288. -/
structure St (K : Type) where
  gain : K
  max : K
  min : K
  target : K
  diff : K
  enabled : Bool
  smooth : Bool

/-- Constructor with limits, 73-79. -/
def new (c max min : K) : St K := { gain := c, max := max, min := min, target := c, diff := 0, enabled := true, smooth := false }

/-- Lines 110-124. -/
def glide (g target diff : K) : K :=
  let g1 := if g < target then (if g + diff > target then target else g + diff) else g
  if g1 > target then (if g1 - diff < target then target else g1 - diff) else g1

/-- Lines 126-132. -/
def limit (g min max : K) : K :=
  let g1 := if g > max then max else g
  if g1 < min then min else g1

/-- `run`, 107-142, linear gain (`parabolic` off). -/
def run (s : St K) (x : K) : St K × K :=
  let g := if s.smooth then glide s.gain s.target s.diff else s.gain
  let g := limit g s.min s.max
  ({ s with gain := g }, if s.enabled then g * x else x)

inductive Op (K : Type) where
  | run (x : K)
  | setGain (c : K)
  | setMax (c : K)
  | setMin (c : K)
  | setDiff (c : K)
  | enable (b : Bool)
  | smooth (b : Bool)

/-- `setGain` 219-229, `setMaxGain` 237-240, `setMinGain` 248-251, `setGainDiff` 258-261, `enable`/`disable` 155-172,
`enableSmoothChange` 188-190. -/
def step (s : St K) : Op K → St K × Option K
  | .run x => let r := run s x; (r.1, some r.2)
  | .setGain c => (if c ≤ s.max ∧ s.min ≤ c then (if s.smooth then { s with target := c } else { s with gain := c }) else s, none)
  | .setMax c => ({ s with max := c }, none)
  | .setMin c => ({ s with min := c }, none)
  | .setDiff c => ({ s with diff := c }, none)
  | .enable b => ({ s with enabled := b }, none)
  | .smooth b => ({ s with smooth := b }, none)

def exec (s : St K) (ops : List (Op K)) : St K := ops.foldl (fun s op => (step s op).1) s

/-- The `n`-fold run without other calls. -/
def runs (s : St K) : List K → St K
  | [] => s
  | x :: xs => runs (run s x).1 xs

/-- `calculateParabolic`, 305-314, over the reals. -/
noncomputable def parabolic (gain sp value : ℝ) : ℝ :=
  if |value| > sp then
    (if value ≥ 0 then gain * Real.sqrt (sp * (2 * value - sp)) else gain * -Real.sqrt (sp * (-2 * value - sp)))
  else gain * value

end Verif.Control.Gain
