/-
Model of `control::KalmanFilter` (`/repo/includes/eeros/control/filter/KalmanFilter.hpp`) on top of the matrix
model.  Exact real arithmetic.  Prediction and correction are serialised by a mutex (213, 230), so a run is a
sequence of the two.  Inputs are given as vectors (the signal plumbing 214-217, 238-245 and time stamps are left
out).  `G` is the content of uninitialised local matrices.
-/
import Verif.Math.Inverse
import Mathlib.Data.Real.Basic

namespace Verif.Control.Kalman
open Verif.Math

/-- Sizes: `n` states, `q` inputs, `p` outputs, `v` random variables. -/
structure Params (n q p v : Nat) where
  Ad : Mat n n ℝ
  Bd : Mat n q ℝ
  C : Mat p n ℝ
  D : Mat p q ℝ
  Gd : Mat n v ℝ
  Q : Mat v v ℝ
  R : Mat p p ℝ

structure St (n : Nat) where
  x : Mat n 1 ℝ
  P : Mat n n ℝ
  first : Bool

variable {n q p v : Nat} (G : (a b : Nat) → Mat a b ℝ)

/-- `GdQGdT` (113, 140, 167). -/
def noise (k : Params n q p v) : Mat n n ℝ :=
  Mat.mul (Mat.mul k.Gd k.Q (G _ _)) (Mat.transpose k.Gd (G _ _)) (G _ _)

/-- Constructors without initial values (102-114, 129-141): `x` zero and `P` the identity. -/
def init0 : St n := ⟨Mat.zero (G _ _), Mat.eye (G _ _), true⟩

/-- `prediction` (212-224). -/
def predict (k : Params n q p v) (u : Mat q 1 ℝ) (s : St n) : St n :=
  { s with
    x := Mat.add (Mat.mul k.Ad s.x (G _ _)) (Mat.mul k.Bd u (G _ _)) (G _ _)
    P := Mat.add (Mat.mul (Mat.mul k.Ad s.P (G _ _)) (Mat.transpose k.Ad (G _ _)) (G _ _)) (noise G k) (G _ _) }

/-- `CPCTR` (246). -/
def innov (k : Params n q p v) (P : Mat n n ℝ) : Mat p p ℝ :=
  Mat.add (Mat.mul (Mat.mul k.C P (G _ _)) (Mat.transpose k.C (G _ _)) (G _ _)) k.R (G _ _)

/-- The update for a given inverse `B` of the innovation covariance (247-254). -/
def update (k : Params n q p v) (y : Mat p 1 ℝ) (u : Mat q 1 ℝ) (s : St n) (B : Mat p p ℝ) : St n :=
  let K := Mat.mul (Mat.mul s.P (Mat.transpose k.C (G _ _)) (G _ _)) B (G _ _)
  let dy := Mat.sub (Mat.sub y (Mat.mul k.C s.x (G _ _)) (G _ _)) (Mat.mul k.D u (G _ _)) (G _ _)
  { s with
    x := Mat.add s.x (Mat.mul K dy (G _ _)) (G _ _)
    P := Mat.mul (Mat.sub (Mat.eye (G _ _)) (Mat.mul K k.C (G _ _)) (G _ _)) s.P (G _ _) }

/-- `correction` (229-256): the first call changes nothing; `none` = an exception of `operator!` or an infinite
element. -/
noncomputable def correct (k : Params n q p v) (y : Mat p 1 ℝ) (u : Mat q 1 ℝ) (s : St n) : Option (St n) :=
  if s.first then some { s with first := false }
  else match Mat.inv (fun k => G k k) p (innov G k s.P) with
    | .ok B => some (update G k y u s B)
    | _ => none

/-- One call by a time domain. -/
inductive Op (q p : Nat) where
  | predict (u : Mat q 1 ℝ)
  | correct (y : Mat p 1 ℝ) (u : Mat q 1 ℝ)

noncomputable def step (k : Params n q p v) (s : St n) : Op q p → Option (St n)
  | .predict u => some (predict G k u s)
  | .correct y u => correct G k y u s

noncomputable def run (k : Params n q p v) (s : St n) : List (Op q p) → Option (St n)
  | [] => some s
  | op :: ops => (step G k s op).bind fun s => run k s ops

end Verif.Control.Kalman
