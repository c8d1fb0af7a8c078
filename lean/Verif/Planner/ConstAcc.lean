/-
Model of `control::PathPlannerConstAcc` (`/repo/includes/eeros/control/PathPlannerConstAcc.hpp`) and of the parts
of `TrajectoryGenerator` (`/repo/includes/eeros/control/TrajectoryGenerator.hpp`) it uses.  Exact real arithmetic
(`ConstAccClock.lean` treats the clock in double arithmetic); vectors of any size `n + 1`.  `run` and the writing part of `move` hold the same mutex
(74, 217), so a history is a sequence of calls.  Time stamps of the outputs are left out.
-/
import Mathlib.Analysis.Real.Sqrt
import Mathlib.Algebra.Order.Floor.Ring
import Mathlib.Data.List.FinRange
import Mathlib.Order.WithBot

namespace Verif.Planner

/-- Position, velocity and acceleration of one element (`std::array<T, 3>`, one row). -/
structure Y where
  pos : ℝ
  vel : ℝ
  acc : ℝ

namespace ConstAcc
variable {n : Nat}

abbrev Vec (n : Nat) := Fin (n + 1) → ℝ

/-- Parameters of the constructor (46-47). -/
structure Cfg (n : Nat) where
  velMax : Vec n
  acc : Vec n
  dec : Vec n
  dt : ℝ

/-- The members 284-290: phase lengths and polynomial coefficients. -/
structure Coef (n : Nat) where
  dT1 : ℝ
  dT2 : ℝ
  dT3 : ℝ
  a1p : Vec n
  c1p : Vec n
  b1v : Vec n
  c1a : Vec n
  b2p : Vec n
  c2p : Vec n
  c2v : Vec n
  c2a : Vec n
  a3p : Vec n
  b3p : Vec n
  c3p : Vec n
  b3v : Vec n
  c3v : Vec n
  c3a : Vec n

/-- `last` is also what `run` writes to the outputs: `y` starts as `last` (75) and every element written to `y` is
copied to `last` (122-124). -/
structure St (n : Nat) where
  finished : Bool
  range : Nat
  t : ℝ
  c : Coef n
  endPos : Vec n
  last : Fin (n + 1) → Y

/-- The tolerance `1e-12` (87, 98, 109). -/
noncomputable def eps : ℝ := 1 / 1000000000000

/-- `y[0][i] = ..; y[1][i] = ..; y[2][i] = ..` together with 122-124. -/
def St.put (s : St n) (i : Fin (n + 1)) (p v a : ℝ) : St n := { s with last := Function.update s.last i ⟨p, v, a⟩ }

/-- Body of the loop 79-125 for element `i`. -/
noncomputable def elem (s : St n) (i : Fin (n + 1)) : St n :=
  match s.range with
  | 1 =>
    let s1 := if s.t ≤ s.c.dT1 then
      s.put i (s.c.a1p i * s.t ^ 2 + s.c.c1p i) (s.c.b1v i * s.t) (s.c.c1a i) else s
    if |s.t - s.c.dT1| < eps ∧ i.val = n then { s1 with range := 2, t := 0 } else s1
  | 2 =>
    let s1 := if s.t ≤ s.c.dT2 then
      s.put i (s.c.b2p i * s.t + s.c.c2p i) (s.c.c2v i) (s.c.c2a i) else s
    if s.c.dT2 < eps ∨ (|s.t - s.c.dT2| < eps ∧ i.val = n) then { s1 with range := 3, t := 0 } else s1
  | 3 =>
    let s1 := if s.t ≤ s.c.dT3 then
      s.put i (s.c.a3p i * s.t ^ 2 + s.c.b3p i * s.t + s.c.c3p i) (s.c.b3v i * s.t + s.c.c3v i) (s.c.c3a i) else s
    if |s.t - s.c.dT3| < eps ∧ i.val = n then { s1 with range := 4, t := 0 } else s1
  | 4 => { s.put i (s.endPos i) 0 0 with finished := true }
  | _ => s

/-- `run` (73-136). -/
noncomputable def run (dt : ℝ) (s : St n) : St n :=
  let s := { s with t := s.t + dt }
  if s.finished then s else (List.finRange (n + 1)).foldl elem s

/-- `fabs(lim / distance)` (166-168); the limits are not zero, division by zero gives infinity. -/
noncomputable def norm1 (lim d : ℝ) : WithTop ℝ := if d = 0 then ⊤ else ((|lim / d| : ℝ) : WithTop ℝ)

/-- The minimum search (172-177). -/
noncomputable def minNorm (lim d : Vec n) : WithTop ℝ :=
  (List.finRange (n + 1)).foldl (fun m i => if norm1 (lim i) (d i) < m then norm1 (lim i) (d i) else m)
    (norm1 (lim 0) (d 0))

/-- The three times before rounding (180-187), from the normalised limits. -/
noncomputable def times (velNorm accNorm decNorm : ℝ) : ℝ × ℝ × ℝ :=
  let velNormMax := Real.sqrt (2 * (accNorm * decNorm) / (accNorm + decNorm))
  let velNorm := if velNorm > velNormMax then velNormMax else velNorm
  let dT1 := velNorm / accNorm
  let dT3 := velNorm / decNorm
  let dT2 := 1 / velNorm - (dT1 + dT3) * 0.5
  (dT1, if dT2 < 0 then 0 else dT2, dT3)

/-- `ceil(x / dt) * dt` (190-192). -/
noncomputable def ceilTo (dt x : ℝ) : ℝ := (⌈x / dt⌉ : ℝ) * dt

/-- Lines 196-215. -/
noncomputable def coef (dT1 dT2 dT3 : ℝ) (start distance : Vec n) : Coef n :=
  let velNorm := 1 / (dT2 + (dT1 + dT3) / 2)
  let vel : Vec n := fun i => velNorm * distance i
  let c1a : Vec n := fun i => vel i / dT1
  let a1p : Vec n := fun i => 0.5 * c1a i
  let c2p : Vec n := fun i => a1p i * dT1 ^ 2 + start i
  let c3a : Vec n := fun i => -vel i / dT3
  { dT1 := dT1, dT2 := dT2, dT3 := dT3
    c1a := c1a, b1v := c1a, a1p := a1p, c1p := start
    c2a := fun _ => 0, c2v := vel, b2p := vel, c2p := c2p
    c3a := c3a, b3v := c3a, c3v := vel, a3p := fun i => 0.5 * c3a i, b3p := vel
    c3p := fun i => vel i * dT2 + c2p i }

open Classical in
/-- `move(start, end)` (154-222); only the positions matter. -/
noncomputable def move (g : Cfg n) (s : St n) (start end_ : Vec n) : St n × Bool :=
  if !s.finished then (s, false)
  else
    let distance : Vec n := fun i => end_ i - start i
    let s := { s with endPos := end_ }
    if (∀ i, distance i = 0) then (s, false)
    else
      let ts := times ((minNorm g.velMax distance).untopD 0) ((minNorm g.acc distance).untopD 0)
        ((minNorm g.dec distance).untopD 0)
      let c := coef (ceilTo g.dt ts.1) (ceilTo g.dt ts.2.1) (ceilTo g.dt ts.2.2) start distance
      ({ s with c := c, finished := false, range := 1, t := 0 }, true)

/-- `move(end)` (TrajectoryGenerator.hpp:67-72): from the last position. -/
noncomputable def moveTo (g : Cfg n) (s : St n) (end_ : Vec n) : St n × Bool :=
  move g s (fun i => (s.last i).pos) end_

/-- `setStart` (231-235). -/
def setStart (s : St n) (start : Fin (n + 1) → Y) : St n := { s with last := start, finished := true }

/-- `k` calls of `run`. -/
noncomputable def runs (dt : ℝ) : Nat → St n → St n
  | 0, s => s
  | k + 1, s => run dt (runs dt k s)

end ConstAcc
end Verif.Planner
