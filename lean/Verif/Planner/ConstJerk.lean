/-
Model of `control::PathPlannerConstJerk` (`/repo/includes/eeros/control/PathPlannerConstJerk.hpp`) in exact real
arithmetic, for vectors of any size `n + 1`.  `run` and the writing part of `move` hold the same mutex (76, 267), so a history is a
sequence of calls.  Time stamps of the outputs are left out.  The search for the smallest normalised limit (197-208) and the
rounding to multiples of the sampling time (220-221) are the same code as in the constant-acceleration planner (`ConstAcc.lean`).
-/
import Verif.Planner.ConstAcc
import Mathlib.Analysis.SpecialFunctions.Pow.Real

namespace Verif.Planner.ConstJerk
open ConstAcc (Vec eps minNorm ceilTo)
variable {n : Nat}

/-- Position, velocity, acceleration and jerk of one element (`std::array<T, 4>`, one row). -/
structure Y where
  pos : ℝ
  vel : ℝ
  acc : ℝ
  jerk : ℝ

/-- Parameters of the constructor (47-48). -/
structure Cfg (n : Nat) where
  velMax : Vec n
  jerk : Vec n
  dt : ℝ

/-- What `move` computes (214-265): the phase lengths, the jerk `d1j` and the start position `d1p`.  The other coefficient members are
the functions `poly` of these four. -/
structure Coef (n : Nat) where
  dT1 : ℝ
  dT2 : ℝ
  d1j : Vec n
  d1p : Vec n

/-- Coefficients of one phase: `a t^3 + b t^2 + c t + d` for the position, `vb t^2 + vc t + vd` for the velocity, `ac t + ad` for
the acceleration, `j` for the jerk.  Coefficients which do not occur in the code are zero. -/
structure Poly where
  a : ℝ
  b : ℝ
  c : ℝ
  d : ℝ
  vb : ℝ
  vc : ℝ
  vd : ℝ
  ac : ℝ
  ad : ℝ
  j : ℝ

/-- Lines 227-265. -/
noncomputable def poly (d1j dT1 dT2 d1p : ℝ) : Nat → Poly
  | 1 => { a := d1j / 6, b := 0, c := 0, d := d1p
           vb := d1j / 2, vc := 0, vd := 0, ac := d1j, ad := 0, j := d1j }
  | 2 => { a := -d1j / 6, b := d1j / 2 * dT1, c := d1j / 2 * dT1 ^ 2, d := d1j / 6 * dT1 ^ 3 + d1p
           vb := -d1j / 2, vc := d1j * dT1, vd := d1j / 2 * dT1 ^ 2, ac := -d1j, ad := d1j * dT1, j := -d1j }
  | 3 => { a := 0, b := 0, c := d1j * dT1 ^ 2, d := d1j * dT1 ^ 3 + d1p
           vb := 0, vc := 0, vd := d1j * dT1 ^ 2, ac := 0, ad := 0, j := 0 }
  | 4 => { a := -d1j / 6, b := 0, c := d1j * dT1 ^ 2, d := d1j * (dT1 ^ 2 * dT2 + dT1 ^ 3) + d1p
           vb := -d1j / 2, vc := 0, vd := d1j * dT1 ^ 2, ac := -d1j, ad := 0, j := -d1j }
  | _ => { a := d1j / 6, b := -d1j / 2 * dT1, c := d1j / 2 * dT1 ^ 2
           d := d1j * (dT1 ^ 2 * dT2 + 11 / 6 * dT1 ^ 3) + d1p
           vb := d1j / 2, vc := -d1j * dT1, vd := d1j / 2 * dT1 ^ 2, ac := d1j, ad := -d1j * dT1, j := d1j }

/-- The values written in case `r` of the switch (85-88, 97-100, 109-112, 121-124, 133-136). -/
noncomputable def ph (c : Coef n) (r : Nat) (t : ℝ) (i : Fin (n + 1)) : Y :=
  let p := poly (c.d1j i) c.dT1 c.dT2 (c.d1p i) r
  ⟨p.a * t ^ 3 + p.b * t ^ 2 + p.c * t + p.d, p.vb * t ^ 2 + p.vc * t + p.vd, p.ac * t + p.ad, p.j⟩

/-- The length compared with in case `r` (84, 96, 108, 120, 132). -/
def dur (c : Coef n) (r : Nat) : ℝ := if r = 3 then c.dT2 else c.dT1

/-- `last` is also what `run` writes to the outputs: `y` starts as `last` (77) and every element written to `y` is
copied to `last` (152-155). -/
structure St (n : Nat) where
  finished : Bool
  range : Nat
  t : ℝ
  c : Coef n
  endPos : Vec n
  last : Fin (n + 1) → Y

def St.put (s : St n) (i : Fin (n + 1)) (y : Y) : St n := { s with last := Function.update s.last i y }

/-- Body of the loop 81-156 for element `i`.  The cases 1 to 5 (83-142) have the same form; case 6 is 143-149. -/
noncomputable def elem (s : St n) (i : Fin (n + 1)) : St n :=
  if 1 ≤ s.range ∧ s.range ≤ 5 then
    let s1 := if s.t ≤ dur s.c s.range then s.put i (ph s.c s.range s.t i) else s
    if |s.t - dur s.c s.range| < eps ∧ i.val = n then { s1 with range := s.range + 1, t := 0 } else s1
  else if s.range = 6 then { s.put i ⟨s.endPos i, 0, 0, 0⟩ with finished := true }
  else s

/-- `run` (75-169). -/
noncomputable def run (dt : ℝ) (s : St n) : St n :=
  let s := { s with t := s.t + dt }
  if s.finished then s else (List.finRange (n + 1)).foldl elem s

/-- `cbrt` of a positive number. -/
noncomputable def cbrt (x : ℝ) : ℝ := x ^ ((1:ℝ) / 3)

/-- The two times before rounding (210-217), from the normalised limits. -/
noncomputable def times (velNorm jerkNorm : ℝ) : ℝ × ℝ :=
  let velNormMax := 1 / (2 * cbrt (1 / (2 * jerkNorm)))
  let velNorm := if velNorm > velNormMax then velNormMax else velNorm
  let dT1 := Real.sqrt (velNorm / jerkNorm)
  let dT2 := 1 / velNorm - 4 * dT1 * 0.5
  (dT1, if dT2 < 0 then 0 else dT2)

/-- Lines 224-231. -/
noncomputable def coef (dT1 dT2 : ℝ) (start distance : Vec n) : Coef n :=
  let velNorm := 1 / (dT2 + 4 * dT1 * 0.5)
  { dT1 := dT1, dT2 := dT2, d1j := fun i => velNorm * distance i / dT1 ^ 2, d1p := start }

open Classical in
/-- `move(start, end)` (187-272); only the positions matter. -/
noncomputable def move (g : Cfg n) (s : St n) (start end_ : Vec n) : St n × Bool :=
  if !s.finished then (s, false)
  else
    let distance : Vec n := fun i => end_ i - start i
    let s := { s with endPos := end_ }
    if (∀ i, distance i = 0) then (s, false)
    else
      let ts := times ((minNorm g.velMax distance).untopD 0) ((minNorm g.jerk distance).untopD 0)
      let c := coef (ceilTo g.dt ts.1) (ceilTo g.dt ts.2) start distance
      ({ s with c := c, finished := false, range := 1, t := 0 }, true)

/-- `k` calls of `run`. -/
noncomputable def runs (dt : ℝ) : Nat → St n → St n
  | 0, s => s
  | k + 1, s => run dt (runs dt k s)

end Verif.Planner.ConstJerk
