/-
C278: matrices with integer elements (`Matrix<M, N, int>`, `/repo/includes/eeros/math/Matrix.hpp`, used in
`/repo/examples/logger/LoggerTest.cpp` 43-44 and in most tests of `/repo/test/math/matrix`).

The functions `det` and `inv` of `Verif.Math.Inverse` are used with the integers instead of a field; the division is
the one of C++, which cuts off (`Int.tdiv`).  The overflow of `int` is modelled for the 2x2 determinant (381):
every operation on `int` has a defined result only if this fits into 32 bits.
-/
import Verif.Math.InverseProps
import Mathlib.Data.Int.Basic
import Mathlib.Algebra.Group.Int.Units
import Mathlib.Tactic.Ring

set_option linter.unusedSectionVars false

namespace Verif.Math.Mat

section generic
variable {K : Type} [CommRing K] [Div K] [DecidableEq K]

/-- What the branches of `operator!` compute, for any type of elements: the transposed matrix if the matrix is orthogonal, otherwise the adjugate divided element by element by the determinant. -/
theorem inv_elements (g : (k : Nat) → Mat k k K) (n : Nat) (A : Mat n n K) (hn : n = 3 ∨ ∃ k, 1 ≤ k ∧ n = 2 ^ k)
    (hd : (toM A).det ≠ 0) : ∃ B, inv g n A = .ok B ∧
      ((toM A * (toM A).transpose = 1 ∧ toM B = (toM A).transpose) ∨
        (toM A * (toM A).transpose ≠ 1 ∧ ∀ i j, toM B i j = (toM A).adjugate i j / (toM A).det)) := by
  have h2 : 2 ≤ n := by
    rcases hn with rfl | ⟨k, hk, rfl⟩
    · omega
    · calc 2 = 2 ^ 1 := rfl
        _ ≤ 2 ^ k := Nat.pow_le_pow_right (by omega) hk
  obtain ⟨m, rfl⟩ : ∃ m, n = m + 2 := ⟨n - 2, by omega⟩
  have hdet : det g (m+2) A = (toM A).det := det_eq g (m+1) A
  unfold inv
  simp only [hdet]
  rw [if_neg hd]
  by_cases ho : isOrthogonal A (g (m+2)) = true
  · rw [if_pos ho]
    rw [isOrthogonal_iff] at ho
    exact ⟨_, rfl, Or.inl ⟨ho, toM_transpose ..⟩⟩
  · rw [if_neg ho]
    rw [isOrthogonal_iff] at ho
    match m, A, hn, hd, hdet, ho with
    | 0, A, _, hd, hdet, ho =>
      refine ⟨_, rfl, Or.inr ⟨ho, ?_⟩⟩
      intro i j
      change Mat.at' _ _ _ = _
      simp only [divS, at_loop _ _ i.2 j.2]
      congr 1
      rw [Matrix.adjugate_fin_two]
      fin_cases i <;> fin_cases j <;> simp [at_set, toM]
    | 1, A, _, hd, hdet, ho =>
      refine ⟨_, rfl, Or.inr ⟨ho, ?_⟩⟩
      intro i j
      change Mat.at' _ _ _ = _
      simp only [divS, at_loop _ _ i.2 j.2]
      congr 1
      rw [Matrix.adjugate_fin_three]
      fin_cases i <;> fin_cases j <;> simp [at_set, toM] <;> ring
    | m+2, A, hn, hd, hdet, ho =>
      obtain ⟨k, _, hk⟩ : ∃ k, 1 ≤ k ∧ m + 2 + 2 = 2 ^ k := by
        rcases hn with h | h
        · omega
        · exact h
      refine ⟨_, rfl, Or.inr ⟨ho, ?_⟩⟩
      intro i j
      change Mat.at' _ _ _ = _
      rw [at_transpose _ _ i.2 j.2]
      exact at_cofactors (n := m+2) hk g A _ i j

end generic

/-- The division of `int`: cuts off towards zero. -/
@[reducible] def cDiv : Div ℤ := ⟨Int.tdiv⟩

/-- `operator!` (672-749, 1031) of `Matrix<n, n, int>`; for 1x1 matrices `.infinite` stands for the division by zero, which is undefined for `int`. -/
def invInt (g : (k : Nat) → Mat k k ℤ) (n : Nat) (A : Mat n n ℤ) : InvRes n ℤ := @inv ℤ _ cDiv _ g n A

/-- `isInvertible` (346-349) of a square matrix of `int`. -/
def isInvertibleInt (g : (k : Nat) → Mat k k ℤ) (n : Nat) (A : Mat n n ℤ) : Bool := decide (det g n A ≠ 0)

/-- **C278** (determinant) `det` is the determinant for every size. -/
theorem det_int (g : (k : Nat) → Mat k k ℤ) (n : Nat) (A : Mat (n+1) (n+1) ℤ) : det g (n+1) A = (toM A).det :=
  det_eq g n A

/-- **C278** (elements of the inverse) For the sizes for which `operator!` is right in exact arithmetic every element of the result is the element of the exact inverse (in ℚ), cut off towards zero: `adj i j = det * B i j + r` with a rest `r` smaller than the determinant and with the sign of the numerator. -/
theorem inv_cut (g : (k : Nat) → Mat k k ℤ) (n : Nat) (A : Mat n n ℤ) (hn : n = 3 ∨ ∃ k, 1 ≤ k ∧ n = 2 ^ k)
    (hd : (toM A).det ≠ 0) : ∃ B, invInt g n A = .ok B ∧ ∀ i j,
      |(toM A).adjugate i j - (toM A).det * toM B i j| < |(toM A).det| ∧
      0 ≤ ((toM A).adjugate i j - (toM A).det * toM B i j) * (toM A).adjugate i j := by
  letI := cDiv
  obtain ⟨B, hB, h⟩ := inv_elements g n A hn hd
  refine ⟨B, hB, ?_⟩
  rcases h with ⟨ho, h⟩ | ⟨_, h⟩
  · intro i j
    have hadj : (toM A).adjugate = (toM A).det • toM B := by
      have h1 : (toM A).adjugate * (toM A) * (toM A).transpose = (toM A).adjugate := by
        rw [Matrix.mul_assoc, ho, Matrix.mul_one]
      rw [← h1, Matrix.adjugate_mul, Matrix.smul_mul, Matrix.one_mul, h]
    rw [hadj, Matrix.smul_apply, smul_eq_mul, sub_self]
    exact ⟨by simpa using hd, by simp⟩
  · intro i j
    rw [h i j]
    change |(toM A).adjugate i j - (toM A).det * ((toM A).adjugate i j).tdiv (toM A).det| < _ ∧
      0 ≤ ((toM A).adjugate i j - (toM A).det * ((toM A).adjugate i j).tdiv (toM A).det) * _
    generalize (toM A).adjugate i j = x
    generalize (toM A).det = d at hd
    have hr : x - d * x.tdiv d = x.tmod d := by
      have := Int.mul_tdiv_add_tmod x d
      linarith
    rw [hr]
    constructor
    · rw [Int.abs_eq_natAbs, Int.abs_eq_natAbs]
      rw [Int.natAbs_tmod]
      exact_mod_cast Nat.mod_lt _ (Int.natAbs_pos.2 hd)
    · rcases le_total 0 x with hx | hx
      · exact mul_nonneg (Int.tmod_nonneg _ hx) hx
      · apply mul_nonneg_of_nonpos_of_nonpos _ hx
        have := Int.tmod_nonneg d (a := -x) (by omega)
        rw [Int.neg_tmod] at this
        omega

/-- **C278** (inverse) For these sizes the result of `operator!` is the inverse exactly if the determinant is 1 or -1; with the determinant 0 a `Fault` is thrown. -/
theorem inv_int_iff (g : (k : Nat) → Mat k k ℤ) (n : Nat) (A : Mat n n ℤ) (hn : n = 3 ∨ ∃ k, 1 ≤ k ∧ n = 2 ^ k) :
    ((toM A).det = 0 → invInt g n A = .fault) ∧
    ((toM A).det ≠ 0 → ∃ B, invInt g n A = .ok B ∧
      (toM A * toM B = 1 ∧ toM B * toM A = 1 ↔ (toM A).det = 1 ∨ (toM A).det = -1)) := by
  constructor
  · intro hd
    letI := cDiv
    have h2 : 2 ≤ n := by
      rcases hn with rfl | ⟨k, hk, rfl⟩
      · omega
      · calc 2 = 2 ^ 1 := rfl
          _ ≤ 2 ^ k := Nat.pow_le_pow_right (by omega) hk
    obtain ⟨m, rfl⟩ : ∃ m, n = m + 2 := ⟨n - 2, by omega⟩
    have hdet : det g (m+2) A = (toM A).det := det_eq g (m+1) A
    unfold invInt inv
    simp only [hdet, if_pos hd]
  · intro hd
    obtain ⟨B, hB, h⟩ := inv_cut g n A hn hd
    refine ⟨B, hB, ?_⟩
    constructor
    · rintro ⟨h1, _⟩
      have : (toM A).det * (toM B).det = 1 := by rw [← Matrix.det_mul, h1, Matrix.det_one]
      exact Int.eq_one_or_neg_one_of_mul_eq_one this
    · intro h1
      have hu : |(toM A).det| = 1 := by rcases h1 with h | h <;> rw [h] <;> rfl
      have hadj : (toM A).adjugate = (toM A).det • toM B := by
        ext i j
        have := (h i j).1
        rw [hu] at this
        rw [Matrix.smul_apply, smul_eq_mul]
        have := Int.abs_lt_one_iff.1 this
        omega
      have hdd : (toM A).det * (toM A).det = 1 := by rcases h1 with h | h <;> rw [h] <;> rfl
      have hB' : toM B = (toM A).det • (toM A).adjugate := by rw [hadj, smul_smul, hdd, one_smul]
      rw [hB', Matrix.mul_smul, Matrix.smul_mul, Matrix.mul_adjugate, Matrix.adjugate_mul, smul_smul, hdd, one_smul]
      exact ⟨rfl, rfl⟩

/-- **C278** (1x1, line 1031) `1 / v`: right exactly for 1 and -1, zero for all others, undefined for zero. -/
theorem inv_int_1x1 (g : (k : Nat) → Mat k k ℤ) (A : Mat 1 1 ℤ) :
    (toM A 0 0 = 0 → invInt g 1 A = .infinite) ∧
    (toM A 0 0 ≠ 0 → ∃ B, invInt g 1 A = .ok B ∧
      toM B 0 0 = if toM A 0 0 = 1 ∨ toM A 0 0 = -1 then toM A 0 0 else 0) := by
  letI := cDiv
  constructor
  · intro h
    have h' : A.at' 0 0 = 0 := h
    simp only [invInt, inv, if_pos h']
  · intro h
    have h' : ¬ A.at' 0 0 = 0 := h
    refine ⟨⟨fun _ => 1 / A.at' 0 0⟩, by simp only [invInt, inv, if_neg h'], ?_⟩
    change Int.tdiv 1 (A.at' 0 0) = if A.at' 0 0 = 1 ∨ A.at' 0 0 = -1 then A.at' 0 0 else 0
    generalize A.at' 0 0 = v at h'
    by_cases h1 : v = 1
    · subst h1; rfl
    · by_cases h2 : v = -1
      · subst h2; rfl
      · rw [if_neg (by tauto)]
        rcases lt_or_ge v 0 with hv | hv
        · have : v = -(-v) := by omega
          rw [this, Int.tdiv_neg, Int.tdiv_eq_zero_of_lt (by omega) (by omega), neg_zero]
        · exact Int.tdiv_eq_zero_of_lt (by omega) (by omega)

/-- **C278 violated**: `isInvertible` says true for every matrix with a determinant which is not zero, but if this is not 1 or -1 no integer matrix is the inverse, and what `operator!` returns is none. -/
theorem invertible_violated (g : (k : Nat) → Mat k k ℤ) (n : Nat) (A : Mat n n ℤ) (hn : n = 3 ∨ ∃ k, 1 ≤ k ∧ n = 2 ^ k)
    (hd : 1 < |(toM A).det|) :
    isInvertibleInt g n A = true ∧ (∃ B, invInt g n A = .ok B ∧ toM A * toM B ≠ 1) ∧ ∀ B : Matrix (Fin n) (Fin n) ℤ, toM A * B ≠ 1 := by
  have hno : ∀ B : Matrix (Fin n) (Fin n) ℤ, toM A * B ≠ 1 := by
    intro B h1
    have : (toM A).det * B.det = 1 := by rw [← Matrix.det_mul, h1, Matrix.det_one]
    rcases Int.eq_one_or_neg_one_of_mul_eq_one this with h | h <;> rw [h] at hd <;> simp at hd
  have hd0 : (toM A).det ≠ 0 := by
    intro h; rw [h] at hd; simp at hd
  obtain ⟨B, hB, _⟩ := inv_cut g n A hn hd0
  refine ⟨?_, ⟨B, hB, hno _⟩, hno⟩
  have h2 : 2 ≤ n := by
    rcases hn with rfl | ⟨k, hk, rfl⟩
    · omega
    · calc 2 = 2 ^ 1 := rfl
        _ ≤ 2 ^ k := Nat.pow_le_pow_right (by omega) hk
  obtain ⟨m, rfl⟩ : ∃ m, n = m + 2 := ⟨n - 2, by omega⟩
  unfold isInvertibleInt
  rw [decide_eq_true_eq, det_eq g (m+1) A]
  exact hd0

/-! ### Overflow of the 2x2 determinant -/

/-- The result of an operation on `int`: defined only if it fits into 32 bits. -/
def fit (x : ℤ) : Option ℤ := if -2147483648 ≤ x ∧ x ≤ 2147483647 then some x else none

/-- `det` of `Matrix<2, 2, int>` (381) operation by operation; `none` = overflow, undefined behaviour. -/
def det2Int (a b c d : ℤ) : Option ℤ := do
  let p ← fit (a * d)
  let q ← fit (b * c)
  fit (p - q)

theorem fit_iff (x y : ℤ) : fit x = some y ↔ (-2147483648 ≤ x ∧ x ≤ 2147483647) ∧ y = x := by
  unfold fit
  split
  · rename_i h; simp [h, eq_comm]
  · rename_i h; simp [h]

/-- **C278** (overflow) The 2x2 determinant is defined exactly if both products and their difference fit, and is then the determinant. -/
theorem det2_defined_iff (a b c d v : ℤ) : det2Int a b c d = some v ↔
    (-2147483648 ≤ a * d ∧ a * d ≤ 2147483647) ∧ (-2147483648 ≤ b * c ∧ b * c ≤ 2147483647) ∧
    (-2147483648 ≤ !![a, b; c, d].det ∧ !![a, b; c, d].det ≤ 2147483647) ∧ v = !![a, b; c, d].det := by
  rw [Matrix.det_fin_two_of]
  unfold det2Int
  simp only [Option.bind_eq_bind, Option.bind_eq_some_iff, fit_iff]
  constructor
  · rintro ⟨p, ⟨hp, rfl⟩, q, ⟨hq, rfl⟩, h, rfl⟩
    exact ⟨hp, hq, h, rfl⟩
  · rintro ⟨hp, hq, h, rfl⟩
    exact ⟨_, ⟨hp, rfl⟩, _, ⟨hq, rfl⟩, h, rfl⟩

/-- **C278** (overflow) With all elements of magnitude at most 32767 it never overflows; this is the largest such bound. -/
theorem det2_small_ok : (∀ a b c d : ℤ, |a| ≤ 32767 → |b| ≤ 32767 → |c| ≤ 32767 → |d| ≤ 32767 →
      det2Int a b c d = some !![a, b; c, d].det) ∧
    det2Int 32768 32768 (-32768) 32768 = none := by
  refine ⟨?_, by decide⟩
  intro a b c d ha hb hc hd
  rw [det2_defined_iff, Matrix.det_fin_two_of]
  have h1 : |a * d| ≤ 32767 * 32767 := by
    rw [abs_mul]; exact mul_le_mul ha hd (abs_nonneg _) (by norm_num)
  have h2 : |b * c| ≤ 32767 * 32767 := by
    rw [abs_mul]; exact mul_le_mul hb hc (abs_nonneg _) (by norm_num)
  rw [abs_le] at h1 h2
  refine ⟨⟨by linarith [h1.1], by linarith [h1.2]⟩, ⟨by linarith [h2.1], by linarith [h2.2]⟩, ⟨by linarith [h1.1, h2.2], by linarith [h1.2, h2.1]⟩, rfl⟩

/-- **C278 violated** (overflow): every matrix with four equal elements above 46340 has the determinant 0, but its computation overflows. -/
theorem det2_overflow_violated (a : ℤ) (h : 46341 ≤ a) : !![a, a; a, a].det = 0 ∧ det2Int a a a a = none := by
  refine ⟨by rw [Matrix.det_fin_two_of]; ring, ?_⟩
  rw [Option.eq_none_iff_forall_ne_some]
  intro v hv
  rw [det2_defined_iff] at hv
  nlinarith [hv.1.2]

/-- Uninitialised memory of the examples. -/
private def g0 : (k : Nat) → Mat k k ℤ := fun _ => ⟨fun _ => 77⟩

/-- Non-vacuity of `inv_int_iff` and `invertible_violated`: a matrix with determinant 1 and one with determinant 5. -/
example : (toM (⟨fun i => [2, 1, 5, 3].getD i 0⟩ : Mat 2 2 ℤ)).det = 1 ∧
    (∃ B, invInt g0 2 ⟨fun i => [2, 1, 5, 3].getD i 0⟩ = .ok B ∧ (B.at' 0 0, B.at' 0 1, B.at' 1 0, B.at' 1 1) = (3, -5, -1, 2)) ∧
    (∃ B, invInt g0 2 ⟨fun i => [2, 1, 1, 3].getD i 0⟩ = .ok B ∧ (B.at' 0 0, B.at' 0 1, B.at' 1 0, B.at' 1 1) = (0, 0, 0, 0)) ∧
    1 < |(toM (⟨fun i => [2, 1, 1, 3].getD i 0⟩ : Mat 2 2 ℤ)).det| :=
  ⟨by rw [Matrix.det_fin_two]; decide, ⟨_, rfl, by decide +kernel⟩, ⟨_, rfl, by decide +kernel⟩, by rw [Matrix.det_fin_two]; decide⟩

/-- Cases of `inv_cut`, `inv_int_iff` and `invertible_violated`. -/
example := inv_cut g0 2 ⟨fun i => [2, 1, 1, 3].getD i 0⟩ (Or.inr ⟨1, by decide, rfl⟩) (by rw [Matrix.det_fin_two]; decide)
example := inv_int_iff g0 2 ⟨fun i => [2, 1, 5, 3].getD i 0⟩ (Or.inr ⟨1, by decide, rfl⟩)
example := invertible_violated g0 2 ⟨fun i => [2, 1, 1, 3].getD i 0⟩ (Or.inr ⟨1, by decide, rfl⟩) (by rw [Matrix.det_fin_two]; decide)

end Verif.Math.Mat
