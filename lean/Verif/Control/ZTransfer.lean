/-
Model of `control::ZTransferFunction<ORDER>` (`/repo/includes/eeros/control/ZTransferFunction.hpp`), in exact arithmetic over a field.  The input
is connected; time stamps are left out.  The fraction is the one of `Verif.Math.Fraction`.

Every `run` reads the elements with index -1 of the arrays `last_in` and `last_out` (72-75 with `i = 0`).  What such a read gives is a parameter of the
model: `none` means that the behaviour is undefined, `some v` that the value `v` is read.
-/
import Verif.Math.Fraction
import Mathlib.Data.Rat.Defs

namespace Verif.Control.ZTransfer
open Verif.Math.Fraction
variable {K : Type} [Field K] {n m : Nat}

/-- The arrays 80-81.  The constructors (17-21) do not initialise them. -/
structure St (n : Nat) (K : Type) where
  lastIn : Fin (n + 1) → K
  lastOut : Fin (n + 1) → K

/-- Reading element `i` of an array of `N = n + 1` elements. -/
def rd (oob : Option K) (a : Fin (n + 1) → K) (i : Int) : Option K :=
  if h : 0 ≤ i ∧ i < n + 1 then some (a ⟨i.toNat, by omega⟩) else oob

/-- `a[k] = v`. -/
def wr (a : Fin (n + 1) → K) (k : Nat) (v : K) : Fin (n + 1) → K := fun i => if (i : Nat) = k then v else a i

/-- The loop 72-75 for the indices `k - 1` down to 0. -/
def shift (oobIn oobOut : Option K) : Nat → St n K → Option (St n K)
  | 0, s => some s
  | k + 1, s => do
    let v ← rd oobIn s.lastIn ((k : Int) - 1)
    let s := { s with lastIn := wr s.lastIn k v }
    let w ← rd oobOut s.lastOut ((k : Int) - 1)
    shift oobIn oobOut k { s with lastOut := wr s.lastOut k w }

/-- The output value (62-67) for the input `x`; the loop 64-66 starts at 1. -/
def value (f : Frac n K) (s : St n K) (x : K) : K :=
  ((List.finRange n).foldl (fun acc i => acc + (s.lastIn i.succ * f.num.c i.succ - s.lastOut i.succ * f.den.c i.succ))
    (x * f.num.c 0)) / f.den.c 0

/-- `run` (61-76): new state and output. -/
def run (oobIn oobOut : Option K) (f : Frac n K) (s : St n K) (x : K) : Option (St n K × K) := do
  let s := { s with lastIn := wr s.lastIn 0 x }
  let y := value f s x
  let s ← shift oobIn oobOut (n + 1) { s with lastOut := wr s.lastOut 0 y }
  pure (s, y)

/-- `run` is called with the inputs `x 0`, `x 1`, ...; `oob` gives the values found outside of the arrays: the state before run `k`. -/
def states (oob : Nat → Option K × Option K) (f : Frac n K) (s : St n K) (x : Nat → K) : Nat → Option (St n K)
  | 0 => some s
  | k + 1 => (states oob f s x k).bind fun s' => (run (oob k).1 (oob k).2 f s' (x k)).map Prod.fst

/-- Output of run `k`. -/
def output (oob : Nat → Option K × Option K) (f : Frac n K) (s : St n K) (x : Nat → K) (k : Nat) : Option K :=
  (states oob f s x k).bind fun s' => (run (oob k).1 (oob k).2 f s' (x k)).map Prod.snd

/-- `PT1` (23-25); the constructor (20-21) takes the denominator first. -/
def PT1 (Ts k T1 : K) : Frac 1 K := Frac.ofVecs [k * Ts] [Ts + T1, -T1]

/-- `D` (27-29). -/
def D (Ts Tv : K) : Frac 1 K := Frac.ofVecs [Tv, -Tv] [Ts]

/-- `I` (31-33). -/
def I (Ts Tn : K) : Frac 1 K := Frac.ofVecs [Ts] [Tn, -Tn]

/-- `DT1` (35-37). -/
def DT1 (Ts Tv T1 : K) : Frac 1 K := Frac.ofVecs [Tv, -Tv] [Ts + T1, -T1]

/-- `PID` (39-41) with `operator+` (52-59) and `operator*` (48-50). -/
def PID (Ts Kp Tn Tv Tv1 : K) : Frac 2 K := (((I Ts Tn).add (DT1 Ts Tv Tv1)).addC 1).smul Kp

end Verif.Control.ZTransfer
