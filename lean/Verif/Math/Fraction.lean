/-
Model of `math::Polynome<ORDER>` and `math::Fraction<ORDER>` (`/repo/includes/eeros/math/Fraction.hpp`).
The coefficient array `double c[N]`, `N = ORDER + 1`, is a function on `Fin (n + 1)`, so every access is in
bounds by typing.  Exact arithmetic over a field.
-/
import Mathlib.Algebra.Field.Basic
import Mathlib.Data.Fin.Basic

namespace Verif.Math.Fraction
variable {K : Type} [Field K] {n m : Nat}

/-- `Polynome<n>` (58-143). -/
structure Poly (n : Nat) (K : Type) where
  c : Fin (n + 1) → K

/-- `Polynome()` (63-66). -/
def Poly.zero : Poly n K := ⟨fun _ => 0⟩

/-- `Polynome(const std::vector<double>&)` (68-76): missing coefficients are zero, surplus ones ignored. -/
def Poly.ofVec (v : List K) : Poly n K := ⟨fun i => if (i : Nat) < v.length then v.getD i 0 else 0⟩

/-- Conversion from another order (78-87): truncates or fills with zeros. -/
def Poly.conv (p : Poly m K) : Poly n K := ⟨fun i => if h : (i : Nat) < m + 1 then p.c ⟨i, h⟩ else 0⟩

/-- `p.c[k] += v`. -/
def Poly.addAt (p : Poly n K) (k : Fin (n + 1)) (v : K) : Poly n K := ⟨fun i => if i = k then p.c i + v else p.c i⟩

/-- `operator*(Polynome)` (89-99). -/
def Poly.mul (p : Poly n K) (q : Poly m K) : Poly (n + m) K :=
  (List.finRange (n + 1)).foldl (fun r (i : Fin (n+1)) =>
    (List.finRange (m + 1)).foldl (fun r (j : Fin (m+1)) => r.addAt ⟨i + j, by omega⟩ (p.c i * q.c j)) r) Poly.zero

/-- `operator*(double)` (101-108): the result is cleared by its constructor, then `+=`. -/
def Poly.smul (p : Poly n K) (k : K) : Poly n K :=
  (List.finRange (n + 1)).foldl (fun r i => r.addAt i (p.c i * k)) Poly.zero

/-- `operator+(Polynome)` (110-126). -/
def Poly.add (p : Poly n K) (q : Poly m K) : Poly (max n m) K :=
  ⟨fun i => if h : (i : Nat) < m + 1 ∧ (i : Nat) < n + 1 then p.c ⟨i, h.2⟩ + q.c ⟨i, h.1⟩
    else if h : (i : Nat) < n + 1 then p.c ⟨i, h⟩
    else if h : (i : Nat) < m + 1 then q.c ⟨i, h⟩ else 0⟩

/-- `operator+(double)` (128-132). -/
def Poly.addC (p : Poly n K) (r : K) : Poly n K := ⟨fun i => if i = 0 then p.c 0 + r else p.c i⟩

/-- `Fraction<n>` (12-55). -/
structure Frac (n : Nat) (K : Type) where
  num : Poly n K
  den : Poly n K

/-- `Fraction(n)` (17-18): the denominator is the zero polynomial. -/
def Frac.ofVec (v : List K) : Frac n K := ⟨Poly.ofVec v, Poly.zero⟩

/-- `Fraction(n, d)` (20-21). -/
def Frac.ofVecs (v d : List K) : Frac n K := ⟨Poly.ofVec v, Poly.ofVec d⟩

/-- `operator*(Fraction)` (23-29). -/
def Frac.mul (f : Frac n K) (g : Frac m K) : Frac (n + m) K := ⟨f.num.mul g.num, f.den.mul g.den⟩

/-- `operator*(double)` (31-36). -/
def Frac.smul (f : Frac n K) (k : K) : Frac n K := ⟨f.num.smul k, f.den⟩

/-- `operator+(Fraction)` (38-44); both products and their sum have the order `n + m`. -/
def Frac.add (f : Frac n K) (g : Frac m K) : Frac (n + m) K :=
  ⟨⟨fun i => ((f.num.mul g.den).add (f.den.mul g.num)).c ⟨i, by omega⟩⟩, f.den.mul g.den⟩

/-- `operator+(double)` (46-51). -/
def Frac.addC (f : Frac n K) (r : K) : Frac n K :=
  ⟨⟨fun i => (f.num.add (f.den.smul r)).c ⟨i, by omega⟩⟩, f.den⟩

/-- `operator/(Polynome)` of polynomials (134-140). -/
def Poly.div (p : Poly n K) (q : Poly m K) : Frac (max n m) K := ⟨p.conv, q.conv⟩

end Verif.Math.Fraction
