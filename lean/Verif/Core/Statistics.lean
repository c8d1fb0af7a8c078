import Mathlib.Algebra.Order.Field.Basic
/-!
Model of `src/core/Statistics.cpp` with exact arithmetic over an ordered field `K`.
`M` is `std::numeric_limits<double>::max()`; `lowest()` is `-M`.
-/
namespace Verif.Core.Statistics
variable {K : Type} [Field K] [LinearOrder K]

/-- Statistics.hpp:13-21. -/
structure St (K : Type) where
  count : Nat
  last : K
  min : K
  max : K
  mean : K
  variance : K
  A : K
  B : K

/-- `reset`, Statistics.cpp:25-34 (also the constructor, 7-9). -/
def reset (M : K) : St K :=
  { count := 0, last := 0, min := M, max := -M, mean := 0, variance := 0, A := 0, B := 0 }

/-- `add`, Statistics.cpp:11-23. -/
def add (s : St K) (value : K) : St K :=
  let min := if value < s.min then value else s.min
  let max := if s.max < value then value else s.max
  let count := s.count + 1
  let A := s.A + value
  let B := s.B + value * value
  let mean := A / (count : K)
  { count := count, last := value, min := min, max := max, A := A, B := B, mean := mean,
    variance := (B - 2 * mean * A) / (count : K) + mean * mean }

inductive Op (K : Type) where
  | add (v : K)
  | reset

def step (M : K) (s : St K) : Op K → St K
  | .add v => add s v
  | .reset => reset M

/-- Any history of calls. -/
def exec (M : K) (ops : List (Op K)) : St K := ops.foldl (step M) (reset M)

/-- Specification: the values added since the last reset. -/
def sample : List (Op K) → List K → List K
  | [], acc => acc
  | .add v :: ops, acc => sample ops (acc ++ [v])
  | .reset :: ops, _ => sample ops []

end Verif.Core.Statistics
