/-
Model of `Matrix::det` (`/repo/includes/eeros/math/Matrix.hpp` 378-434, 1027) and of the inverse
`Matrix::operator!` (672-749, 1031).

Exact arithmetic over a field.  `g` supplies the contents of uninitialised local matrices: one matrix for
each size.  `det` for size 0 cannot be instantiated (static_assert 30).
-/
import Verif.Math.Matrix
import Mathlib.Algebra.Ring.Defs
import Mathlib.Algebra.Field.Defs

namespace Verif.Math.Mat
variable {K : Type} [CommRing K] [Div K] [DecidableEq K]

/-- The two `while` loops which copy the sub matrix without column 0 and without row `ignoredRow`
(401-417); state `(y, subMatrix)`, inner state `(x, subMatrix)`. -/
def subLoop {n : Nat} (A : Mat (n+1) (n+1) K) (ignoredRow : Nat) (g : Mat n n K) : Mat n n K :=
  ((List.range (n+1)).foldl (fun (st : Nat × Mat n n K) a =>
    let S := ((List.range' 1 n).foldl (fun (xs : Nat × Mat n n K) b =>
      if a ≠ ignoredRow then (xs.1 + 1, xs.2.set st.1 xs.1 (A.at' a b)) else xs) (0, st.2)).2
    (if a ≠ ignoredRow then st.1 + 1 else st.1, S)) (0, g)).2

/-- `det` (378-434) for a square matrix. -/
def det (g : (k : Nat) → Mat k k K) : (n : Nat) → Mat n n K → K
  | 0, _ => 0
  | 1, A => A.at' 0 0                                                     -- 1027
  | 2, A => A.at' 0 0 * A.at' 1 1 - A.at' 0 1 * A.at' 1 0                 -- 381
  | 3, A =>                                                               -- 385-390
    A.at' 0 0 * A.at' 1 1 * A.at' 2 2 + A.at' 0 1 * A.at' 1 2 * A.at' 2 0 +
    A.at' 0 2 * A.at' 1 0 * A.at' 2 1 - A.at' 0 2 * A.at' 1 1 * A.at' 2 0 -
    A.at' 0 0 * A.at' 1 2 * A.at' 2 1 - A.at' 0 1 * A.at' 1 0 * A.at' 2 2
  | n+4, A =>                                                             -- 397-427
    (List.range (n+4)).foldl (fun d m =>
      let detSub := det g (n+3) (subLoop A m (g (n+3)))
      if m % 2 = 0 then d + A.at' m 0 * detSub else d - A.at' m 0 * detSub) 0

/-- `isOrthogonal` (295-301). -/
def isOrthogonal {n : Nat} (A : Mat n n K) (g : Mat n n K) : Bool :=
  eqOp (mul A (transpose A g) g) (eye g)

/-- `operator/(T)` (662-670). -/
def divS {n : Nat} (A : Mat n n K) (c : K) (g : Mat n n K) : Mat n n K := loop (fun i j => A.at' i j / c) g

/-- "matrix of minors" step (710-724) for position `(m, n')`; state `(a, b, smallerPart)`.  Note the
bitwise and of line 722. -/
def minor {n : Nat} (A : Mat (n+1) (n+1) K) (m n' : Nat) (S : Mat n n K) : Mat n n K :=
  ((List.range (n+1)).foldl (fun (st : Nat × Nat × Mat n n K) u =>
    let st := (List.range (n+1)).foldl (fun (st : Nat × Nat × Mat n n K) w =>
      if u ≠ m ∧ w ≠ n' then (st.1, (st.2.1 + 1) % n, st.2.2.set st.1 st.2.1 (A.at' u w)) else st) st
    if u ≠ m then ((st.1 + 1) &&& n, st.2.1, st.2.2) else st) (0, 0, S)).2.2

/-- Result of `operator!`. -/
inductive InvRes (n : Nat) (K : Type) where
  /-- `Fault` -/
  | fault
  /-- the result contains an infinity (1/0) -/
  | infinite
  | ok (B : Mat n n K)

/-- The general branch (704-748): `smallerPart` is declared outside of the loops and carried along. -/
def cofactors {n : Nat} (g : (k : Nat) → Mat k k K) (A : Mat (n+1) (n+1) K) (d : K) : Mat (n+1) (n+1) K :=
  ((List.range (n+1)).foldl (fun (st : Mat n n K × Mat (n+1) (n+1) K) m =>
    (List.range (n+1)).foldl (fun (st : Mat n n K × Mat (n+1) (n+1) K) n' =>
      let S := minor A m n' st.1
      let r := if m % 2 = 0 then (if n' % 2 ≠ 0 then - det g n S else det g n S)
        else (if n' % 2 ≠ 0 then det g n S else - det g n S)
      (S, st.2.set m n' (r / d))) st) (g n, g (n+1))).2

/-- `operator!` (672-749) and for 1x1 matrices line 1031, which has no check. -/
def inv (g : (k : Nat) → Mat k k K) : (n : Nat) → Mat n n K → InvRes n K
  | 0, _ => .fault
  | 1, A => if A.at' 0 0 = 0 then .infinite else .ok ⟨fun _ => 1 / A.at' 0 0⟩
  | n+2, A =>
    let d := det g (n+2) A
    if d = 0 then .fault
    else if isOrthogonal A (g (n+2)) then .ok (transpose A (g (n+2)))
    else match n, A with
      | 0, A =>
        let R := (((((g 2).set 0 0 (A.at' 1 1)).set 1 0 (- A.at' 1 0)).set 0 1 (- A.at' 0 1)).set 1 1 (A.at' 0 0))
        .ok (divS R d (g 2))
      | 1, A =>
        let R := (g 3).set 0 0 (A.at' 1 1 * A.at' 2 2 - A.at' 1 2 * A.at' 2 1)
        let R := R.set 1 0 (A.at' 1 2 * A.at' 2 0 - A.at' 1 0 * A.at' 2 2)
        let R := R.set 2 0 (A.at' 1 0 * A.at' 2 1 - A.at' 1 1 * A.at' 2 0)
        let R := R.set 0 1 (A.at' 0 2 * A.at' 2 1 - A.at' 0 1 * A.at' 2 2)
        let R := R.set 1 1 (A.at' 0 0 * A.at' 2 2 - A.at' 0 2 * A.at' 2 0)
        let R := R.set 2 1 (A.at' 0 1 * A.at' 2 0 - A.at' 0 0 * A.at' 2 1)
        let R := R.set 0 2 (A.at' 0 1 * A.at' 1 2 - A.at' 0 2 * A.at' 1 1)
        let R := R.set 1 2 (A.at' 0 2 * A.at' 1 0 - A.at' 0 0 * A.at' 1 2)
        let R := R.set 2 2 (A.at' 0 0 * A.at' 1 1 - A.at' 0 1 * A.at' 1 0)
        .ok (divS R d (g 3))
      | k+2, A => .ok (transpose (cofactors g A d) (g (k+4)))

end Verif.Math.Mat
