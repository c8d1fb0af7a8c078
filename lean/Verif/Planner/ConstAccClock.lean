/-
The clock of `control::PathPlannerConstAcc` (`/repo/includes/eeros/control/PathPlannerConstAcc.hpp:73-136`) in IEEE double
arithmetic.  All quantities are natural multiples of `2^-u` for a fixed `u`; sums and products are rounded to 53 binary digits,
round half to even.  `ConstAcc.lean` treats the same function, with its outputs, in exact arithmetic.
-/
import Mathlib.Data.Nat.Log
import Mathlib.Tactic.Linarith
import Mathlib.Tactic.Ring

namespace Verif.Planner.Clock

/-- Rounding to 53 binary digits, half to even (`n` counts multiples of `2^-u`; no overflow). -/
def rnd (n : Nat) : Nat :=
  if n < 2 ^ 53 then n
  else
    let e := n.log2 - 52
    let q := n / 2 ^ e
    let r := n % 2 ^ e
    if 2 ^ e < 2 * r ∨ (2 * r = 2 ^ e ∧ q % 2 = 1) then (q + 1) * 2 ^ e else q * 2 ^ e

/-- The double `1e-12` is `4951760157141521 * 2^-92`. -/
def epsM : Nat := 4951760157141521

/-- `x < 1e-12` for `x` multiples of `2^-u`. -/
def small (u x : Nat) : Bool := decide (x * 2 ^ 92 < epsM * 2 ^ u)

/-- `fabs(t - dT) < 1e-12` (87, 98, 109); the difference is rounded too. -/
def near (u t D : Nat) : Bool := small u (rnd ((t - D) + (D - t)))

/-- The part of the state the clock needs: `finished`, `range`, `t`, and the phase and time from which the outputs in `last`
were computed last (80-125; 0 as phase: nothing computed yet). -/
structure St where
  finished : Bool
  range : Nat
  t : Nat
  shown : Nat × Nat
deriving DecidableEq

/-- Parameters: unit, sampling time and the three phase lengths `dT1`, `dT2`, `dT3`. -/
structure Par where
  u : Nat
  dt : Nat
  D1 : Nat
  D2 : Nat
  D3 : Nat

/-- `run` (73-136) for one element. -/
def run (g : Par) (s : St) : St :=
  let t := rnd (s.t + g.dt)
  let s := { s with t := t }
  if s.finished then s
  else match s.range with
  | 1 =>
    let s := if t ≤ g.D1 then { s with shown := (1, t) } else s
    if near g.u t g.D1 then { s with range := 2, t := 0 } else s
  | 2 =>
    let s := if t ≤ g.D2 then { s with shown := (2, t) } else s
    if small g.u g.D2 ∨ near g.u t g.D2 then { s with range := 3, t := 0 } else s
  | 3 =>
    let s := if t ≤ g.D3 then { s with shown := (3, t) } else s
    if near g.u t g.D3 then { s with range := 4, t := 0 } else s
  | 4 => { s with finished := true, shown := (4, 0) }
  | _ => s

/-- After a successful `move` (217-221). -/
def start : St := ⟨false, 1, 0, (0, 0)⟩

def runs (g : Par) : Nat → St
  | 0 => start
  | k + 1 => run g (runs g k)

/-- Phase lengths `ceil(..) * dt` (190-192) for phases of `m1`, `m2`, `m3` samples. -/
def planned (u dt m1 m2 m3 : Nat) : Par := ⟨u, dt, rnd (m1 * dt), rnd (m2 * dt), rnd (m3 * dt)⟩

end Verif.Planner.Clock
