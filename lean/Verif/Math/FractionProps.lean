/-
C50: arithmetic of polynomials and fractions is pointwise.
-/
import Verif.Math.Fraction
import Mathlib.Algebra.BigOperators.Fin
import Mathlib.Tactic.Ring
import Mathlib.Tactic.FieldSimp
import Mathlib.Data.Rat.Defs

namespace Verif.Math.Fraction
variable {K : Type} [Field K] {n m : Nat}

/-- Specification: the value of a polynomial with the coefficient of `x^i` at index `i`. -/
def Poly.eval (p : Poly n K) (x : K) : K := ∑ i : Fin (n + 1), p.c i * x ^ (i : Nat)

/-- Specification: the value of a fraction. -/
def Frac.eval (f : Frac n K) (x : K) : K := f.num.eval x / f.den.eval x

theorem eval_zero (x : K) : (Poly.zero : Poly n K).eval x = 0 := by simp [Poly.eval, Poly.zero]

theorem eval_addAt (p : Poly n K) (k : Fin (n + 1)) (v x : K) :
    (p.addAt k v).eval x = p.eval x + v * x ^ (k : Nat) := by
  unfold Poly.eval Poly.addAt
  have : ∀ i : Fin (n+1), (if i = k then p.c i + v else p.c i) * x ^ (i : Nat) =
      p.c i * x ^ (i : Nat) + (if i = k then v * x ^ (k : Nat) else 0) := by
    intro i
    by_cases h : i = k
    · subst h; simp; ring
    · simp [h]
  simp only [this, Finset.sum_add_distrib, Finset.sum_ite_eq', Finset.mem_univ, if_true]

theorem eval_foldl (l : List (Fin m)) (k : Fin m → Fin (n + 1)) (v : Fin m → K) (x : K) :
    ∀ p : Poly n K, (l.foldl (fun r j => r.addAt (k j) (v j)) p).eval x =
      p.eval x + (l.map fun j => v j * x ^ (k j : Nat)).sum := by
  induction l with
  | nil => intro p; simp
  | cons a l ih =>
    intro p
    rw [List.foldl_cons, ih, eval_addAt, List.map_cons, List.sum_cons, add_assoc]

theorem sum_finRange (f : Fin m → K) : ((List.finRange m).map f).sum = ∑ i, f i :=
  (Fin.sum_univ_def f).symm

/-- **C50** product of polynomials. -/
theorem eval_mul (p : Poly n K) (q : Poly m K) (x : K) : (p.mul q).eval x = p.eval x * q.eval x := by
  unfold Poly.mul
  have : ∀ (l : List (Fin (n+1))) (r : Poly (n+m) K),
      (l.foldl (fun r (i : Fin (n+1)) => (List.finRange (m + 1)).foldl
        (fun r (j : Fin (m+1)) => r.addAt ⟨i + j, by omega⟩ (p.c i * q.c j)) r) r).eval x =
      r.eval x + (l.map fun i => p.c i * x ^ (i : Nat) * q.eval x).sum := by
    intro l
    induction l with
    | nil => intro r; simp
    | cons a l ih =>
      intro r
      rw [List.foldl_cons, ih, eval_foldl, List.map_cons, List.sum_cons, ← add_assoc]
      congr 2
      rw [sum_finRange, Poly.eval, Finset.mul_sum]
      apply Finset.sum_congr rfl
      intro j _
      simp only [pow_add]; ring
  rw [this, eval_zero, zero_add, sum_finRange, ← Finset.sum_mul]
  rfl

/-- **C50** scalar multiple. -/
theorem eval_smul (p : Poly n K) (k x : K) : (p.smul k).eval x = p.eval x * k := by
  unfold Poly.smul
  rw [eval_foldl _ (fun i => i) (fun i => p.c i * k), eval_zero, zero_add, sum_finRange, Poly.eval, Finset.sum_mul]
  apply Finset.sum_congr rfl
  intro j _
  ring

/-- Filling with zeros does not change the value. -/
theorem eval_fill (p : Poly n K) (k : Nat) (hk : n ≤ k) (x : K) :
    ∑ i : Fin (k + 1), (if h : (i : Nat) < n + 1 then p.c ⟨i, h⟩ else 0) * x ^ (i : Nat) = p.eval x := by
  unfold Poly.eval
  rw [Fin.sum_univ_eq_sum_range (fun i => (if h : i < n + 1 then p.c ⟨i, h⟩ else 0) * x ^ i) (k+1)]
  have h2 : ∑ i : Fin (n+1), p.c i * x ^ (i : Nat) =
      ∑ i ∈ Finset.range (n+1), (if h : i < n + 1 then p.c ⟨i, h⟩ else 0) * x ^ i := by
    rw [← Fin.sum_univ_eq_sum_range (fun i => (if h : i < n + 1 then p.c ⟨i, h⟩ else 0) * x ^ i) (n+1)]
    apply Finset.sum_congr rfl
    intro i _
    simp
  rw [h2]
  symm
  apply Finset.sum_subset
  · intro i hi; simp only [Finset.mem_range] at *; omega
  · intro i _ hi
    simp only [Finset.mem_range] at hi
    rw [dif_neg hi, zero_mul]

/-- **C50** sum of polynomials of any two orders. -/
theorem eval_add (p : Poly n K) (q : Poly m K) (x : K) : (p.add q).eval x = p.eval x + q.eval x := by
  rw [← eval_fill p (max n m) (le_max_left _ _) x, ← eval_fill q (max n m) (le_max_right _ _) x,
    ← Finset.sum_add_distrib]
  unfold Poly.eval Poly.add
  apply Finset.sum_congr rfl
  intro i _
  simp only
  by_cases h1 : (i : Nat) < n + 1
  · by_cases h2 : (i : Nat) < m + 1
    · simp [h1, h2]; ring
    · simp [h1, h2]
  · by_cases h2 : (i : Nat) < m + 1
    · simp [h1, h2]
    · simp [h1, h2]

/-- **C50** adding a constant. -/
theorem eval_addC (p : Poly n K) (r x : K) : (p.addC r).eval x = p.eval x + r := by
  have : p.addC r = p.addAt 0 r := by
    unfold Poly.addC Poly.addAt
    congr 1
    funext i
    by_cases h : i = 0
    · subst h; simp
    · simp [h]
  rw [this, eval_addAt]
  simp

/-- Constructing from coefficients: coefficient `i` of the vector belongs to `x^i`. -/
theorem eval_ofVec (v : List K) (hv : v.length ≤ n + 1) (x : K) :
    (Poly.ofVec v : Poly n K).eval x = ∑ i : Fin v.length, v[i] * x ^ (i : Nat) := by
  unfold Poly.eval Poly.ofVec
  simp only
  rw [Fin.sum_univ_eq_sum_range (fun i => (if i < v.length then v.getD i 0 else 0) * x ^ i) (n+1)]
  have h2 : ∑ i : Fin v.length, v[i] * x ^ (i : Nat) =
      ∑ i ∈ Finset.range v.length, (if i < v.length then v.getD i 0 else 0) * x ^ i := by
    rw [← Fin.sum_univ_eq_sum_range (fun i => (if i < v.length then v.getD i 0 else 0) * x ^ i) v.length]
    apply Finset.sum_congr rfl
    intro i _
    simp
  rw [h2]
  symm
  apply Finset.sum_subset
  · intro i hi; simp only [Finset.mem_range] at *; omega
  · intro i _ hi
    simp only [Finset.mem_range] at hi
    rw [if_neg hi, zero_mul]

theorem eval_conv (p : Poly m K) (h : m ≤ n) (x : K) : (p.conv : Poly n K).eval x = p.eval x := eval_fill p n h x

/-- **C50** All fraction operations are pointwise wherever the denominators do not vanish. -/
theorem frac_pointwise (f : Frac n K) (g : Frac m K) (k x : K) (hf : f.den.eval x ≠ 0) (hg : g.den.eval x ≠ 0) :
    (f.mul g).eval x = f.eval x * g.eval x ∧ (f.smul k).eval x = f.eval x * k ∧
    (f.add g).eval x = f.eval x + g.eval x ∧ (f.addC k).eval x = f.eval x + k := by
  have hadd : (f.add g).num.eval x = f.num.eval x * g.den.eval x + f.den.eval x * g.num.eval x := by
    rw [← eval_mul, ← eval_mul, ← eval_add]
    unfold Poly.eval Frac.add
    simp only
    have hnm : max (n + m) (n + m) = n + m := max_self _
    refine Fintype.sum_equiv (finCongr (by omega)) _ _ ?_
    intro i; rfl
  have haddC : (f.addC k).num.eval x = f.num.eval x + f.den.eval x * k := by
    rw [← eval_smul, ← eval_add]
    unfold Poly.eval Frac.addC
    simp only
    refine Fintype.sum_equiv (finCongr (by omega)) _ _ ?_
    intro i; rfl
  refine ⟨?_, ?_, ?_, ?_⟩
  · unfold Frac.eval Frac.mul
    simp only [eval_mul]
    field_simp
  · unfold Frac.eval Frac.smul
    simp only [eval_smul]
    field_simp
  · unfold Frac.eval
    rw [hadd, show (f.add g).den = f.den.mul g.den from rfl, eval_mul]
    field_simp
  · unfold Frac.eval
    rw [haddC, show (f.addC k).den = f.den from rfl]
    field_simp


/-- 1/(1+x) times and plus 1/(1-x) at 3. -/
example : ((Frac.ofVecs [1] [1, 1] : Frac 1 ℚ).mul (Frac.ofVecs [1] [1, -1] : Frac 1 ℚ)).eval 3 = -1 / 8 := by
  rw [(frac_pointwise (Frac.ofVecs [1] [1, 1] : Frac 1 ℚ) (Frac.ofVecs [1] [1, -1] : Frac 1 ℚ) 0 3 (by decide +kernel) (by decide +kernel)).1]
  decide +kernel

/-- **C50** The quotient of two polynomials of any orders. -/
theorem eval_div (p : Poly n K) (q : Poly m K) (x : K) : (p.div q).eval x = p.eval x / q.eval x := by
  unfold Frac.eval Poly.div
  simp only
  rw [eval_conv p (le_max_left _ _), eval_conv q (le_max_right _ _)]

/-- Finding (outside the quantifier of C50): `Fraction(n)` has the zero polynomial as denominator, so its value
is a division by zero everywhere, and the same holds for every product with it. -/
theorem ofVec_denominator_zero (v : List K) (g : Frac m K) (x : K) :
    (Frac.ofVec v : Frac n K).den.eval x = 0 ∧ ((Frac.ofVec v : Frac n K).mul g).den.eval x = 0 := by
  refine ⟨eval_zero x, ?_⟩
  rw [show ((Frac.ofVec v : Frac n K).mul g).den = Poly.zero.mul g.den from rfl, eval_mul, eval_zero, zero_mul]

/-- Example: (1 + x)(1 - x) = 1 - x² at x = 3 and 1/(1+x) + 1/(1-x) = 2/(1-x²). -/
example : ((Poly.ofVec [1, 1] : Poly 1 ℚ).mul (Poly.ofVec [1, -1] : Poly 1 ℚ)).c 2 = -1 := by decide +kernel
example : (Frac.ofVecs [1] [1, 1] : Frac 1 ℚ).den.eval 3 = 4 := by decide +kernel

end Verif.Math.Fraction
