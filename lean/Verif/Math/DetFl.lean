import Verif.Math.InverseProps
import Verif.Common.Error
import Mathlib.Data.Nat.Factorial.Basic
/-!
`Matrix::operator*`, `Matrix::det`, `Matrix::isInvertible` and the test of `Matrix::operator!` (includes/eeros/math/Matrix.hpp:564-576, 378-434, 346-349, 677) with the rounding of doubles.
The copies of elements are those of `Verif.Math.Inverse`.
-/
namespace Verif.Math.DetFl
open Verif.Common.Round
open Verif.Math.Mat (subLoop at_subLoop toM)

/-- `operator*(Matrix)`, 564-576: products and sums round. -/
def mul {M N P : Nat} (A : Mat M N ℚ) (B : Mat N P ℚ) (g : Mat M P ℚ) : Mat M P ℚ :=
  Mat.loop (fun m k => (List.range N).foldl (fun acc n => rnd (acc + rnd (A.at' m n * B.at' n k))) 0) g

/-- Product of three factors from left to right. -/
def prod3 (a b c : ℚ) : ℚ := rnd (rnd (a * b) * c)

/-- `det`, 378-434; every operation rounds. -/
def det (g : (k : Nat) → Mat k k ℚ) : (n : Nat) → Mat n n ℚ → ℚ
  | 0, _ => 0
  | 1, A => A.at' 0 0                                                     -- 1027
  | 2, A => rnd (rnd (A.at' 0 0 * A.at' 1 1) - rnd (A.at' 0 1 * A.at' 1 0))   -- 381
  | 3, A =>                                                               -- 385-390
    rnd (rnd (rnd (rnd (rnd (prod3 (A.at' 0 0) (A.at' 1 1) (A.at' 2 2) + prod3 (A.at' 0 1) (A.at' 1 2) (A.at' 2 0)) +
    prod3 (A.at' 0 2) (A.at' 1 0) (A.at' 2 1)) - prod3 (A.at' 0 2) (A.at' 1 1) (A.at' 2 0)) -
    prod3 (A.at' 0 0) (A.at' 1 2) (A.at' 2 1)) - prod3 (A.at' 0 1) (A.at' 1 0) (A.at' 2 2))
  | n+4, A =>                                                             -- 397-427
    (List.range (n+4)).foldl (fun d m =>
      let detSub := det g (n+3) (subLoop A m (g (n+3)))
      if m % 2 = 0 then rnd (d + rnd (A.at' m 0 * detSub)) else rnd (d - rnd (A.at' m 0 * detSub))) 0

/-- `isInvertible`, 346-349, for a square matrix. -/
def isInvertible (g : (k : Nat) → Mat k k ℚ) (n : Nat) (A : Mat n n ℚ) : Bool := det g n A ≠ 0

/-! ### Properties: C148 -/

/-- C148: the error of the matrix product, for all sizes: one rounding per summand and one for the product. -/
theorem mul_error {M N P : Nat} (A : Mat M N ℚ) (B : Mat N P ℚ) (g : Mat M P ℚ) (i : Fin M) (j : Fin P) :
    |toM (mul A B g) i j - (toM A * toM B) i j| ≤ ((1 + 1 / 2 ^ 53) ^ (N + 1) - 1) * ∑ n : Fin N, |toM A i n * toM B n j| := by
  have key : ∀ k, k ≤ N → Approx (k + 1) ((List.range k).foldl (fun acc n => rnd (acc + rnd (A.at' i n * B.at' n j))) 0)
      ((List.range k).map (fun n => A.at' i n * B.at' n j)).sum ((List.range k).map (fun n => |A.at' i n * B.at' n j|)).sum := by
    intro k
    induction k with
    | zero => intro _; simpa using (Approx.exact 0).weaken (l := 1) (by omega)
    | succ k ih =>
      intro hk
      have h1 : Approx 1 (rnd (A.at' i k * B.at' k j)) (A.at' i k * B.at' k j) |A.at' i k * B.at' k j| := (Approx.exact _).round
      have := ((ih (by omega)).add (h1.weaken (by omega : 1 ≤ k + 1))).round
      rw [List.range_succ]
      simpa using this
  have h := (key N le_rfl).err
  have e1 : toM (mul A B g) i j = (List.range N).foldl (fun acc n => rnd (acc + rnd (A.at' i n * B.at' n j))) 0 := by
    simp only [toM, mul, Mat.at_loop _ _ i.2 j.2]
  have hs : ∀ (f : Nat → ℚ) (k : Nat), ((List.range k).map f).sum = ∑ n : Fin k, f n := by
    intro f k
    induction k with
    | zero => simp
    | succ k ih => rw [List.range_succ, Fin.sum_univ_castSucc]; simp [ih]
  rw [e1, Matrix.mul_apply]
  rw [hs, hs] at h
  exact h

theorem prod3_approx {a b c B : ℚ} (ha : |a| ≤ B) (hb : |b| ≤ B) (hc : |c| ≤ B) : Approx 2 (prod3 a b c) (a * b * c) (B ^ 3) := by
  have h : ∀ {x : ℚ}, |x| ≤ B → Approx 0 x x B := fun h => (Approx.exact _).larger h
  have := (((h ha).mul (h hb)).round.mul (h hc)).round
  rwa [show B * B * B = B ^ 3 by ring] at this

/-- C148: for every size the error of the determinant is bounded: at most n² roundings, relative to n! Bⁿ, where `B` bounds the elements. -/
theorem det_approx (g : (k : Nat) → Mat k k ℚ) (B : ℚ) : ∀ (n : Nat) (A : Mat (n + 1) (n + 1) ℚ), (∀ i j, i < n + 1 → j < n + 1 → |A.at' i j| ≤ B) →
    Approx ((n + 1) ^ 2) (det g (n + 1) A) (Mat.det g (n + 1) A) ((n + 1).factorial * B ^ (n + 1)) := by
  intro n
  induction n with
  | zero =>
    intro A h
    have := ((Approx.exact (A.at' 0 0)).larger (h 0 0 (by omega) (by omega))).weaken (l := 1) (by omega)
    simpa [det, Mat.det] using this
  | succ n ih =>
    intro A h
    have hB : 0 ≤ B := le_trans (abs_nonneg _) (h 0 0 (by omega) (by omega))
    have hx : ∀ {x : ℚ}, |x| ≤ B → Approx 0 x x B := fun h => (Approx.exact _).larger h
    match n, ih, A, h with
    | 0, _, A, h =>
      have h1 := ((hx (h 0 0 (by omega) (by omega))).mul (hx (h 1 1 (by omega) (by omega)))).round
      have h2 := ((hx (h 0 1 (by omega) (by omega))).mul (hx (h 1 0 (by omega) (by omega)))).round
      have h3 := ((h1.sub h2).round).weaken (l := (0 + 1 + 1) ^ 2) (by norm_num)
      have e : B * B + B * B = ((0 + 1 + 1).factorial : ℚ) * B ^ (0 + 1 + 1) := by norm_num [Nat.factorial]; ring
      rw [e] at h3
      exact h3
    | 1, _, A, h =>
      have p : ∀ a b c d e f, a < 3 → b < 3 → c < 3 → d < 3 → e < 3 → f < 3 →
          Approx 2 (prod3 (A.at' a b) (A.at' c d) (A.at' e f)) (A.at' a b * A.at' c d * A.at' e f) (B ^ 3) :=
        fun a b c d e f ha hb hc hd he hf => prod3_approx (h a b ha hb) (h c d hc hd) (h e f he hf)
      have q1 := ((p 0 0 1 1 2 2 (by omega) (by omega) (by omega) (by omega) (by omega) (by omega)).add (p 0 1 1 2 2 0 (by omega) (by omega) (by omega) (by omega) (by omega) (by omega))).round
      have q2 := (q1.add ((p 0 2 1 0 2 1 (by omega) (by omega) (by omega) (by omega) (by omega) (by omega)).weaken (by omega))).round
      have q3 := (q2.sub ((p 0 2 1 1 2 0 (by omega) (by omega) (by omega) (by omega) (by omega) (by omega)).weaken (by omega))).round
      have q4 := (q3.sub ((p 0 0 1 2 2 1 (by omega) (by omega) (by omega) (by omega) (by omega) (by omega)).weaken (by omega))).round
      have q5 := (q4.sub ((p 0 1 1 0 2 2 (by omega) (by omega) (by omega) (by omega) (by omega) (by omega)).weaken (by omega))).round
      have q6 := q5.weaken (l := (1 + 1 + 1) ^ 2) (by norm_num)
      have e : B ^ 3 + B ^ 3 + B ^ 3 + B ^ 3 + B ^ 3 + B ^ 3 = ((1 + 1 + 1).factorial : ℚ) * B ^ (1 + 1 + 1) := by norm_num [Nat.factorial]; ring
      rw [e] at q6
      exact q6
    | n+2, ih, A, h =>
      have hsub : ∀ m, m < n + 4 → Approx ((n + 3) ^ 2) (det g (n + 3) (subLoop A m (g (n + 3)))) (Mat.det g (n + 3) (subLoop A m (g (n + 3)))) ((n + 3).factorial * B ^ (n + 3)) := by
        intro m hm
        refine ih _ ?_
        intro i j hi hj
        rw [at_subLoop A m hm _ hi hj]
        apply h
        · unfold Mat.skip; split <;> omega
        · omega
      set C : ℚ := B * ((n + 3).factorial * B ^ (n + 3)) with hC
      have key : ∀ k, k ≤ n + 4 → Approx ((n + 3) ^ 2 + 1 + k)
          ((List.range k).foldl (fun d m =>
            let detSub := det g (n+3) (subLoop A m (g (n+3)))
            if m % 2 = 0 then rnd (d + rnd (A.at' m 0 * detSub)) else rnd (d - rnd (A.at' m 0 * detSub))) 0)
          ((List.range k).foldl (fun d m =>
            let detSub := Mat.det g (n+3) (subLoop A m (g (n+3)))
            if m % 2 = 0 then d + A.at' m 0 * detSub else d - A.at' m 0 * detSub) 0) (k * C) := by
        intro k
        induction k with
        | zero => intro _; simpa using (Approx.exact 0).weaken (l := (n + 3) ^ 2 + 1 + 0) (by omega)
        | succ k ihk =>
          intro hk
          have i1 := ihk (by omega)
          have i2 := ((hx (h k 0 (by omega) (by omega))).mul (hsub k (by omega))).round
          have e : (((k + 1 : ℕ) : ℚ)) * C = k * C + C := by push_cast; ring
          rw [List.range_succ, List.foldl_append, List.foldl_append, List.foldl_cons, List.foldl_nil, List.foldl_cons, List.foldl_nil, e]
          dsimp only
          by_cases hp : k % 2 = 0
          · rw [if_pos hp, if_pos hp]
            exact (i1.add (i2.weaken (by omega))).round
          · rw [if_neg hp, if_neg hp]
            exact (i1.sub (i2.weaken (by omega))).round
      have hk := (key (n + 4) le_rfl).weaken (l := (n + 2 + 1 + 1) ^ 2) (by ring_nf; omega)
      have e : (((n + 4 : ℕ) : ℚ)) * C = ((n + 2 + 1 + 1).factorial : ℚ) * B ^ (n + 2 + 1 + 1) := by
        rw [hC, Nat.factorial_succ (n + 2 + 1)]
        push_cast
        ring
      rw [e] at hk
      exact hk

/-- C148: the error of the determinant, for all sizes and all elements bounded by `B`. -/
theorem det_error (g : (k : Nat) → Mat k k ℚ) (n : Nat) (A : Mat (n + 1) (n + 1) ℚ) (B : ℚ) (h : ∀ i j, |toM A i j| ≤ B) :
    |det g (n + 1) A - (toM A).det| ≤ ((1 + 1 / 2 ^ 53) ^ ((n + 1) ^ 2) - 1) * ((n + 1).factorial * B ^ (n + 1)) := by
  have := (det_approx g B n A (fun i j hi hj => h ⟨i, hi⟩ ⟨j, hj⟩)).err
  rw [Mat.det_eq] at this
  exact this

/-- C148: a matrix whose determinant is greater than the bound of the error is recognised as invertible. -/
theorem invertible_partial (g : (k : Nat) → Mat k k ℚ) (n : Nat) (A : Mat (n + 1) (n + 1) ℚ) (B : ℚ) (h : ∀ i j, |toM A i j| ≤ B)
    (hd : ((1 + 1 / 2 ^ 53) ^ ((n + 1) ^ 2) - 1) * ((n + 1).factorial * B ^ (n + 1)) < |(toM A).det|) : isInvertible g (n + 1) A = true := by
  have he := det_error g n A B h
  simp only [isInvertible, ne_eq, decide_not, Bool.not_eq_true', decide_eq_false_iff_not]
  intro h0
  rw [h0, zero_sub, abs_neg] at he
  linarith

theorem rnd_eq_zero {x : ℚ} (h : rnd x = 0) : x = 0 := by
  have := rnd_rel x
  rw [h, zero_sub, abs_neg] at this
  have h0 := abs_nonneg x
  have : |x| = 0 := by linarith
  exact abs_eq_zero.1 this

/-- C148: for 2x2 matrices the sign of the determinant is never wrong; a singular matrix is always recognised. -/
theorem sign_2x2_partial (g : (k : Nat) → Mat k k ℚ) (A : Mat 2 2 ℚ) :
    (0 < det g 2 A → 0 < (toM A).det) ∧ (det g 2 A < 0 → (toM A).det < 0) ∧ ((toM A).det = 0 → isInvertible g 2 A = false) := by
  have hd : (toM A).det = A.at' 0 0 * A.at' 1 1 - A.at' 0 1 * A.at' 1 0 := by rw [Matrix.det_fin_two]; rfl
  have hf : det g 2 A = rnd (rnd (A.at' 0 0 * A.at' 1 1) - rnd (A.at' 0 1 * A.at' 1 0)) := rfl
  rw [hd]
  generalize A.at' 0 0 * A.at' 1 1 = x at *
  generalize A.at' 0 1 * A.at' 1 0 = y at *
  have key : ∀ x y : ℚ, x ≤ y → rnd (rnd x - rnd y) ≤ 0 := by
    intro x y h
    have : rnd x - rnd y ≤ 0 := by linarith [rnd_mono h]
    calc rnd (rnd x - rnd y) ≤ rnd 0 := rnd_mono this
      _ = 0 := rnd_zero
  refine ⟨?_, ?_, ?_⟩
  · intro h
    by_contra hc
    have := key x y (by linarith)
    rw [hf] at h
    linarith
  · intro h
    by_contra hc
    have := key y x (by linarith)
    have e : rnd (rnd x - rnd y) = - rnd (rnd y - rnd x) := by rw [← rnd_neg_eq]; congr 1; ring
    rw [hf, e] at h
    linarith
  · intro h
    have : x = y := by linarith
    simp [isInvertible, hf, this, rnd_zero]

/-- Matrix with these rows. -/
def mat2 (a b c d : ℚ) : Mat 2 2 ℚ := ⟨fun k => if k = 0 then a else if k = 1 then c else if k = 2 then b else d⟩

/-- C148 violated: the matrix (1 + e, 1 + 2e; 1, 1 + e) with e = 2^-k has the determinant e² and is taken for singular, its inversion throws a fault. -/
theorem taken_for_singular_violated (g : (k : Nat) → Mat k k ℚ) (k : Nat) (h1 : 27 ≤ k) (h2 : k ≤ 51) :
    isInvertible g 2 (mat2 (1 + 1 / 2 ^ k) (1 + 2 / 2 ^ k) 1 (1 + 1 / 2 ^ k)) = false ∧
    (toM (mat2 (1 + 1 / 2 ^ k) (1 + 2 / 2 ^ k) 1 (1 + 1 / 2 ^ k))).det = (1 / 2 ^ k) ^ 2 := by
  obtain ⟨j, rfl⟩ : ∃ j, k = j + 27 := ⟨k - 27, by omega⟩
  obtain ⟨i, hi⟩ : ∃ i, 24 = j + i := ⟨24 - j, by omega⟩
  have hij : (2:ℚ) ^ i * 2 ^ j = 2 ^ 24 := by rw [← pow_add, hi]; congr 1; omega
  have hp : (1:ℚ) ≤ 2 ^ j := one_le_pow₀ (by norm_num)
  have hi' : (2:ℚ) ^ i = 2 ^ 24 / 2 ^ j := by rw [eq_div_iff (by positivity)]; exact hij
  have hle : 1 / (2:ℚ) ^ j ≤ 1 := by rw [div_le_one (by positivity)]; exact hp
  have hpos : 0 < 1 / (2:ℚ) ^ j := by positivity
  have e0 : (1:ℚ) / 2 ^ (j + 27) = (1 / 2 ^ j) / 2 ^ 27 := by rw [pow_add]; field_simp
  have e0' : (2:ℚ) / 2 ^ (j + 27) = (1 / 2 ^ j) / 2 ^ 26 := by rw [pow_add]; field_simp
  have hi'' : (2:ℚ) ^ i = 2 ^ 24 * (1 / 2 ^ j) := by rw [hi']; ring
  constructor
  · have hx : rnd ((1 + 1 / 2 ^ (j + 27)) * (1 + 1 / 2 ^ (j + 27))) = 1 + 2 / 2 ^ (j + 27) := by
      rw [rnd_pos (mul_self_nonneg _), fl_eq _ 0 (2 ^ 52 + 2 ^ (i + 2)) ?_ ?_ ?_]
      · rw [e0']
        push_cast
        rw [pow_add, hi'']
        generalize 1 / (2:ℚ) ^ j = t
        norm_num
        ring
      · rw [e0]
        generalize 1 / (2:ℚ) ^ j = t at *
        norm_num
        nlinarith
      · rw [e0]
        generalize 1 / (2:ℚ) ^ j = t at *
        norm_num
        nlinarith
      · rw [e0]
        push_cast
        rw [pow_add, hi'']
        generalize 1 / (2:ℚ) ^ j = t at *
        have e : (1 + t / 2 ^ 27) * (1 + t / 2 ^ 27) / 2 ^ (-52 : ℤ) - (2 ^ 52 + 2 ^ 24 * t * 2 ^ 2) = t * t / 4 := by
          norm_num; ring
        have h3 : |t * t / 4| < 1 / 2 := by
          rw [abs_of_pos (by positivity)]
          nlinarith
        rw [← e] at h3
        norm_num at h3 ⊢
        exact h3
    have hy : rnd ((1 + 2 / 2 ^ (j + 27)) * 1) = 1 + 2 / 2 ^ (j + 27) := by
      rw [mul_one, ← hx]; exact rnd_idem _
    have : det g 2 (mat2 (1 + 1 / 2 ^ (j + 27)) (1 + 2 / 2 ^ (j + 27)) 1 (1 + 1 / 2 ^ (j + 27))) =
        rnd (rnd ((1 + 1 / 2 ^ (j + 27)) * (1 + 1 / 2 ^ (j + 27))) - rnd ((1 + 2 / 2 ^ (j + 27)) * 1)) := rfl
    rw [hx, hy, sub_self, rnd_zero] at this
    unfold isInvertible
    rw [this]
    rfl
  · have : (toM (mat2 (1 + 1 / 2 ^ (j + 27)) (1 + 2 / 2 ^ (j + 27)) 1 (1 + 1 / 2 ^ (j + 27)))).det =
        (1 + 1 / 2 ^ (j + 27)) * (1 + 1 / 2 ^ (j + 27)) - (1 + 2 / 2 ^ (j + 27)) * 1 := by rw [Matrix.det_fin_two]; rfl
    rw [this]
    ring

/-- A 3x3 matrix of doubles whose second row is twice the first: (0.1, 0.7, 0.4; 0.2, 1.4, 0.8; 0.7, 0.1, 0.9). -/
def sing : Mat 3 3 ℚ :=
  ⟨fun k => [rnd (1 / 10), 2 * rnd (1 / 10), rnd (7 / 10), rnd (7 / 10), 2 * rnd (7 / 10), rnd (1 / 10), rnd (4 / 10), 2 * rnd (4 / 10), rnd (9 / 10)].getD k 0⟩

/-- C148 violated: a singular 3x3 matrix is taken for invertible; `operator!` returns a matrix for it. -/
theorem taken_for_invertible_violated (g : (k : Nat) → Mat k k ℚ) : isInvertible g 3 sing = true ∧ (toM sing).det = 0 := by
  constructor
  · have : det g 3 sing ≠ 0 := by
      have h : rnd (rnd (rnd (rnd (rnd (prod3 (sing.at' 0 0) (sing.at' 1 1) (sing.at' 2 2) + prod3 (sing.at' 0 1) (sing.at' 1 2) (sing.at' 2 0)) +
        prod3 (sing.at' 0 2) (sing.at' 1 0) (sing.at' 2 1)) - prod3 (sing.at' 0 2) (sing.at' 1 1) (sing.at' 2 0)) -
        prod3 (sing.at' 0 0) (sing.at' 1 2) (sing.at' 2 1)) - prod3 (sing.at' 0 1) (sing.at' 1 0) (sing.at' 2 2)) ≠ 0 := by decide +kernel
      exact h
    simp [isInvertible, this]
  · rw [Matrix.det_fin_three]
    simp [toM, sing, Mat.at']
    ring

/-- Case of `invertible_partial`: the matrix (2, 1; 1, 3). -/
example : ((1 + 1 / 2 ^ 53 : ℚ) ^ ((1 + 1) ^ 2) - 1) * ((1 + 1).factorial * 3 ^ (1 + 1)) < |(toM (mat2 2 1 1 3)).det| := by
  rw [Matrix.det_fin_two]
  norm_num [toM, Mat.at', mat2, Nat.factorial]

/-- Case of `taken_for_singular_violated`. -/
example : (27 : Nat) ≤ 30 ∧ 30 ≤ 51 := by omega

end Verif.Math.DetFl
