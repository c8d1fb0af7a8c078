import Verif.Common.XVal
import Mathlib.Analysis.Real.Sqrt
/-!
Model of the camera which locates a pattern of four markers: the loop of PixyCam::run, includes/eeros/hal/PixyCam.hpp:121-211.
Arithmetic is exact over the reals, with the special values where the code divides.  The angle is left out of the raw computation
(`phi` is an input of the filter); the library of the camera is represented by the buffer of blocks and their number.
-/
namespace Verif.Hal.PixyCam
open Verif

/-- Position of a marker in pixels; the four blocks of the camera's buffer, line 123-127. -/
abbrev Dots := Fin 4 → ℝ × ℝ

/-- Lines 135-145, the index of the first dot whose coordinate `f` is not exceeded downwards: `if (f i < f m) m = i`. -/
noncomputable def argmin (f : Fin 4 → ℝ) : Fin 4 := [0, 1, 2, 3].foldl (fun m i => if f i < f m then i else m) 0

/-- The same for the maximum: `if (f i > f m) m = i`. -/
noncomputable def argmax (f : Fin 4 → ℝ) : Fin 4 := [0, 1, 2, 3].foldl (fun m i => if f m < f i then i else m) 0

noncomputable def ixMin (d : Dots) : Fin 4 := argmin fun i => (d i).1
noncomputable def ixMax (d : Dots) : Fin 4 := argmax fun i => (d i).1
noncomputable def iyMin (d : Dots) : Fin 4 := argmin fun i => (d i).2
noncomputable def iyMax (d : Dots) : Fin 4 := argmax fun i => (d i).2

/-- Line 135-137 and 149: `xO` (the sum is built from the left). -/
noncomputable def xO (d : Dots) : ℝ := 0 + (d 0).1 / 4 + (d 1).1 / 4 + (d 2).1 / 4 + (d 3).1 / 4 - 316 / 2
/-- Line 150: `yO`. -/
noncomputable def yO (d : Dots) : ℝ := 0 + (d 0).2 / 4 + (d 1).2 / 4 + (d 2).2 / 4 + (d 3).2 / 4 - 208 / 2

/-- Distance of two dots as in lines 154-157. -/
noncomputable def dist (p q : ℝ × ℝ) : ℝ := Real.sqrt ((p.1 - q.1) * (p.1 - q.1) + (p.2 - q.2) * (p.2 - q.2))

/-- Lines 154-157. -/
noncomputable def distCam (d : Dots) : ℝ := (dist (d (ixMax d)) (d (ixMin d)) + dist (d (iyMax d)) (d (iyMin d))) / 2

/-- Division of doubles with finite operands and a divisor which is not negative. -/
noncomputable def div (a b : ℝ) : XVal ℝ :=
  if b = 0 then (if 0 < a then .pinf else if a < 0 then .ninf else .nan) else .fin (a / b)

/-- Lines 160-162. -/
noncomputable def height (d : Dots) : XVal ℝ := div (93 * 0.915) (distCam d)

/-- Two of the conditions in lines 165-172 for one dot. -/
def inRegion (p : ℝ × ℝ) : Prop := 10 < p.1 ∧ p.1 < 316 - 10 ∧ 10 < p.2 ∧ p.2 < 208 - 10

/-- Lines 165-175. -/
def markersInRange (d : Dots) : Prop :=
  inRegion (d (ixMin d)) ∧ inRegion (d (ixMax d)) ∧ inRegion (d (iyMin d)) ∧ inRegion (d (iyMax d))

/-- Lines 177-178. -/
def valid (d : Dots) : Prop := (height d).lt (.fin 1.2) = true ∧ markersInRange d

/-- Line 152-153. -/
noncomputable def distWorld : ℝ := 0.335 * (3.02 / (3.02 + 1.43))

/-- Line 180-181: the raw position. -/
noncomputable def xS (d : Dots) : XVal ℝ := div (xO d * distWorld) (distCam d)
noncomputable def yS (d : Dots) : XVal ℝ := div (yO d * distWorld) (distCam d)

/-- Addition of doubles. -/
def add : XVal ℝ → XVal ℝ → XVal ℝ
  | .nan, _ => .nan
  | _, .nan => .nan
  | .fin a, .fin b => .fin (a + b)
  | .fin _, x => x
  | x, .fin _ => x
  | .pinf, .pinf => .pinf
  | .ninf, .ninf => .ninf
  | _, _ => .nan

/-- Multiplication with a positive finite factor. -/
def scale (k : ℝ) : XVal ℝ → XVal ℝ
  | .fin a => .fin (a * k)
  | x => x

/-- Line 197 resp. 199, `alpha` between 0 and 1. -/
noncomputable def lowpass (alpha : ℝ) (x prev : XVal ℝ) : XVal ℝ := add (scale alpha x) (scale (1 - alpha) prev)

structure St where
  first : Bool
  valid : Prop
  nofBlocks : Nat
  xPrev : XVal ℝ
  yPrev : XVal ℝ
  phiPrev : XVal ℝ
  raw : XVal ℝ × XVal ℝ × XVal ℝ
  out : XVal ℝ × XVal ℝ × XVal ℝ

/-- Lines 219-230; the vectors are zero. -/
def init : St := ⟨true, False, 0, .fin 0, .fin 0, .fin 0, (.fin 0, .fin 0, .fin 0), (.fin 0, .fin 0, .fin 0)⟩

/-- What the library delivers: number of blocks seen in the picture, the buffer, and the angle computed from it (lines 183-184). -/
structure Picture where
  numBlocks : Nat
  dots : Dots
  phi : XVal ℝ

/-- One iteration, lines 121-211. -/
noncomputable def step (s : St) (p : Picture) : St :=
  let x := xS p.dots
  let y := yS p.dots
  let xf := if s.first then x else lowpass 0.05 x s.xPrev
  let yf := if s.first then y else lowpass 0.05 y s.yPrev
  let pf := if s.first then p.phi else lowpass 0.1 p.phi s.phiPrev
  { first := false
    valid := valid p.dots
    nofBlocks := p.numBlocks
    xPrev := xf
    yPrev := yf
    phiPrev := pf
    raw := (x, y, p.phi)
    out := (yf, xf, pf) }

/-- State after the pictures `l`, oldest first. -/
noncomputable def run (l : List Picture) : St := l.foldl step init

end Verif.Hal.PixyCam
