import Mathlib.Algebra.Order.Field.Basic
/-!
Models of `MedianFilter`, `MovingAverageFilter` and `LowPassFilter` (includes/eeros/control/filter) over exact scalars without NaN (the order used
by `std::sort` is not a strict weak order with NaN, its result is then unspecified).  A C++ array is a function from indices.
-/
namespace Verif.Control.Filters
variable {K : Type} [Field K] [LinearOrder K]

/-- `a[i] = v`. -/
def upd (a : Nat → K) (i : Nat) (v : K) : Nat → K := fun j => if j = i then v else a j

namespace Median

/-- MedianFilter.hpp:111-114. -/
structure St (K : Type) where
  N : Nat
  cur : Nat → K
  enabled : Bool

/-- Constructor, 43-45 and 111: zeros. -/
def new (N : Nat) : St K := { N := N, cur := fun _ => 0, enabled := true }

/-- The loop 63-65 after `n` passes. -/
def shift (a : Nat → K) : Nat → (Nat → K)
  | 0 => a
  | n+1 => let a' := shift a n; upd a' n (a' (n+1))

/-- The contents of the array `temp` (68-69). -/
def values (s : St K) : List K := (List.range s.N).map s.cur

/-- `run`, 62-77: new state and output value.  `std::sort` is modelled by a merge sort; `none` would be an access outside of `temp`. -/
def run (s : St K) (x : K) : St K × Option K :=
  let cur := upd (shift s.cur (s.N - 1)) (s.N - 1) x
  let s' := { s with cur := cur }
  (s', if s.enabled then ((values s').mergeSort (fun a b => decide (a ≤ b)))[s.N / 2]? else some x)

inductive Op (K : Type) where
  | run (x : K)
  | enable
  | disable

/-- `run`, `enable` 87-89, `disable` 99-101. -/
def step (s : St K) : Op K → St K × Option (Option K)
  | .run x => let r := run s x; (r.1, some r.2)
  | .enable => ({ s with enabled := true }, none)
  | .disable => ({ s with enabled := false }, none)

def exec (s : St K) (ops : List (Op K)) : St K := ops.foldl (fun s op => (step s op).1) s

end Median

namespace MovingAverage

/-- MovingAverageFilter.hpp:111-113.  The block keeps a pointer to the caller's coefficients; the model assumes they do not change. -/
structure St (K : Type) where
  N : Nat
  c : Nat → K
  prev : Nat → K
  enabled : Bool

/-- Constructor, 45-47. -/
def new (N : Nat) (c : Nat → K) : St K := { N := N, c := c, prev := fun _ => 0, enabled := true }

/-- The loop 67-70 after `n` passes, starting from `result` of line 66. -/
def loop (c : Nat → K) (prev : Nat → K) (r : K) : Nat → (Nat → K) × K
  | 0 => (prev, r)
  | n+1 =>
    let p := loop c prev r n
    let prev' := upd p.1 n (p.1 (n+1))
    (prev', p.2 + c n * prev' n)

/-- `run`, 64-78. -/
def run (s : St K) (x : K) : St K × K :=
  let p := loop s.c s.prev (s.c (s.N - 1) * x) (s.N - 1)
  ({ s with prev := upd p.1 (s.N - 1) x }, if s.enabled then p.2 else x)

inductive Op (K : Type) where
  | run (x : K)
  | enable
  | disable

def step (s : St K) : Op K → St K × Option K
  | .run x => let r := run s x; (r.1, some r.2)
  | .enable => ({ s with enabled := true }, none)
  | .disable => ({ s with enabled := false }, none)

def exec (s : St K) (ops : List (Op K)) : St K := ops.foldl (fun s op => (step s op).1) s

end MovingAverage

namespace LowPass

/-- LowPassFilter.hpp:104-107. -/
structure St (K : Type) where
  alpha : K
  first : Bool
  enabled : Bool
  prev : Option K

/-- Constructor, 42-44; `prev.clear()` sets NaN. -/
def new (alpha : K) : St K := { alpha := alpha, first := true, enabled := true, prev := none }

/-- `run`, 58-72; an output `none` is NaN. -/
def run (s : St K) (x : K) : St K × Option K :=
  let valprev := if s.first then some x else s.prev
  let out := if s.enabled then valprev.map (fun p => x * s.alpha + p * (1 - s.alpha)) else some x
  ({ s with first := false, prev := out }, out)

inductive Op (K : Type) where
  | run (x : K)
  | enable
  | disable

def step (s : St K) : Op K → St K × Option (Option K)
  | .run x => let r := run s x; (r.1, some r.2)
  | .enable => ({ s with enabled := true }, none)
  | .disable => ({ s with enabled := false }, none)

/-- The outputs of a history. -/
def outs : St K → List (Op K) → List (Option K)
  | _, [] => []
  | s, op :: ops => (match (step s op).2 with | some o => [o] | none => []) ++ outs (step s op).1 ops

end LowPass
end Verif.Control.Filters
