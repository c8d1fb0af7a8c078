import Verif.Common.XVal
import Mathlib.Data.Int.Log
import Mathlib.Data.Rat.Floor
/-!
Model of `logger::pretty` (includes/eeros/logger/Pretty.hpp:12-126), which writes a number with three digits behind the point and a unit prefix.
`double` is exact (rational numbers and the special values); `log10` and `pow` are exact.  Truncation of `log10(x)` to an integer is the integer logarithm.
-/
namespace Verif.Logger.Pretty

/-- What is written: sign, digits before and behind the point, exponent of ten. -/
structure Parts where
  neg : Bool
  left : Nat
  right : Nat
  /-- `log10(x) >= 0` -/
  positive : Bool
  r : Nat
deriving DecidableEq, Repr

/-- Lines 24-39 for `1e-12 <= x`. -/
def split (neg : Bool) (x : ℚ) : Parts :=
  let positive := decide (1 ≤ x)
  let l : Nat := if positive then (Int.log 10 x).toNat else (-Int.clog 10 x).toNat
  let r := l / 3 * 3 + (if positive then 0 else 3)
  let y := if positive then x / 10 ^ r else x * 10 ^ r
  ⟨neg, ⌊y⌋₊, ⌊(y - ⌊y⌋₊) * 1000⌋₊, positive, r⟩

/-- The unit (62-123). -/
def unit (positive : Bool) (r : Nat) : List Char :=
  if positive then
    match r with
    | 0 => [' ']
    | 3 => ['k']
    | 6 => ['M']
    | 9 => ['G']
    | 12 => ['T']
    | r => 'e' :: '+' :: Nat.toDigits 10 r
  else
    match r with
    | 0 => [' ']
    | 3 => ['m']
    | 6 => ['u']
    | 9 => ['n']
    | 12 => ['p']
    | r => 'e' :: '-' :: Nat.toDigits 10 r

/-- The text (42-123). -/
def text (p : Parts) : List Char :=
  (if p.left < 10 then [' ', ' '] else if p.left < 100 then [' '] else []) ++ [if p.neg then '-' else ' '] ++ Nat.toDigits 10 p.left ++ ['.'] ++
  (if p.right < 10 then ['0', '0'] else if p.right < 100 then ['0'] else []) ++ Nat.toDigits 10 p.right ++ unit p.positive p.r

/-- `pretty` (12-126).  `none`: undefined, the conversion of a value which is not finite to `int` (28). -/
def pretty : XVal ℚ → Option (List Char)
  | .fin x =>
    let neg := decide (x < 0)
    let x := if neg then -x else x
    some (if x < 1 / 10 ^ 12 then "   0.000 ".toList else text (split neg x))
  | _ => none

end Verif.Logger.Pretty
