import Verif.Math.GeometryProps
import Verif.Common.Ieee
import Verif.Common.Error
import Mathlib.Algebra.Order.BigOperators.Ring.Finset
/-!
Model of `Matrix::norm` (`/repo/includes/eeros/math/Matrix.hpp` 751-759), exactly over the real numbers and with IEEE doubles.  The square root of the C
library is a function of the environment; of it only the values at 0, infinity and NaN are used.
-/
namespace Verif.Math.Norm
open Verif.Math Verif.Math.Mat
variable {M N : Nat} {T : Type}

/-- The loop of `norm` (752-757) for an element type with the given operations. -/
def sumSq (add mul : T → T → T) (zero : T) (A : Mat M N T) : T :=
  (List.range M).foldl (fun r m => (List.range N).foldl (fun r n => add r (mul (A.at' m n) (A.at' m n))) r) zero

/-- `norm` over the real numbers, 751-759. -/
noncomputable def norm (A : Mat M N ℝ) : ℝ := Real.sqrt (sumSq (· + ·) (· * ·) 0 A)

/-- `norm` with doubles and the square root `sqrt` of the library. -/
def normD (sqrt : XVal ℚ → XVal ℚ) (A : Mat M N (XVal ℚ)) : XVal ℚ := sqrt (sumSq Common.Ieee.add Common.Ieee.mul (.fin 0) A)

/-- Specification: the elements of a matrix, row by row. -/
def elems (A : Mat M N T) : List T := (List.range M).flatMap fun m => (List.range N).map fun n => A.at' m n

theorem sumSq_elems (add mul : T → T → T) (zero : T) (A : Mat M N T) :
    sumSq add mul zero A = (elems A).foldl (fun r x => add r (mul x x)) zero := by
  unfold sumSq elems
  rw [List.foldl_flatMap]
  simp only [List.foldl_map]

/-! ### Exactly -/

theorem foldl_add_sq (l : List ℕ) (f : ℕ → ℝ) (r : ℝ) : l.foldl (fun r n => r + f n) r = r + (l.map f).sum := by
  induction l generalizing r with
  | nil => simp
  | cons x xs ih => rw [List.foldl_cons, ih]; simp [add_assoc]

theorem sum_range (f : ℕ → ℝ) (k : ℕ) : ((List.range k).map f).sum = ∑ i : Fin k, f i := by
  induction k with
  | zero => simp
  | succ k ih => rw [List.range_succ, List.map_append, List.sum_append, ih, Fin.sum_univ_castSucc]; simp

theorem sumSq_eq (A : Mat M N ℝ) : sumSq (· + ·) (· * ·) 0 A = ∑ i : Fin M, ∑ j : Fin N, toM A i j * toM A i j := by
  unfold sumSq
  have h : ∀ (r : ℝ) (m : ℕ), (List.range N).foldl (fun r n => r + A.at' m n * A.at' m n) r = r + ∑ j : Fin N, A.at' m j * A.at' m j := by
    intro r m
    rw [foldl_add_sq _ (fun n => A.at' m n * A.at' m n), sum_range (fun n => A.at' m n * A.at' m n)]
  simp only [h]
  rw [foldl_add_sq _ (fun m => ∑ j : Fin N, A.at' m j * A.at' m j), sum_range (fun m => ∑ j : Fin N, A.at' m j * A.at' m j)]
  simp [toM]

/-- C324: the norm is the Frobenius norm: its square is the sum of the squares of all elements, and the trace of the product with the transpose. -/
theorem norm_sq (A : Mat M N ℝ) : 0 ≤ norm A ∧ norm A ^ 2 = ∑ i : Fin M, ∑ j : Fin N, toM A i j ^ 2 ∧ norm A ^ 2 = (toM A * (toM A).transpose).trace := by
  have h0 : 0 ≤ sumSq (· + ·) (· * ·) 0 A := by
    rw [sumSq_eq]; exact Finset.sum_nonneg fun i _ => Finset.sum_nonneg fun j _ => mul_self_nonneg _
  refine ⟨Real.sqrt_nonneg _, ?_, ?_⟩
  · rw [norm, Real.sq_sqrt h0, sumSq_eq]
    simp only [sq]
  · rw [norm, Real.sq_sqrt h0, sumSq_eq]
    simp [Matrix.trace, Matrix.mul_apply]

example : norm (⟨fun i => if i = 0 then 3 else 4⟩ : Mat 2 1 ℝ) ^ 2 = 25 := by
  rw [(norm_sq _).2.1]; simp [toM, at']; norm_num

theorem norm_eq (A : Mat M N ℝ) : norm A = Real.sqrt (∑ p : Fin M × Fin N, toM A p.1 p.2 ^ 2) := by
  rw [norm, sumSq_eq, Fintype.sum_prod_type]
  simp only [sq]

/-- C324: the norm is 0 exactly for the zero matrix. -/
theorem norm_zero_iff (A : Mat M N ℝ) : norm A = 0 ↔ toM A = 0 := by
  rw [norm_eq, Real.sqrt_eq_zero (Finset.sum_nonneg fun _ _ => sq_nonneg _), Finset.sum_eq_zero_iff_of_nonneg (fun _ _ => sq_nonneg _)]
  constructor
  · intro h
    ext i j
    simpa using h (i, j) (Finset.mem_univ _)
  · intro h p _
    simp [h]

/-- C324: multiplication with a number multiplies the norm with its absolute value. -/
theorem norm_smul (A g : Mat M N ℝ) (c : ℝ) : norm (smulR A c g) = |c| * norm A := by
  rw [norm_eq, norm_eq]
  have : (∑ p : Fin M × Fin N, toM (smulR A c g) p.1 p.2 ^ 2) = c ^ 2 * ∑ p : Fin M × Fin N, toM A p.1 p.2 ^ 2 := by
    rw [Finset.mul_sum]
    refine Finset.sum_congr rfl fun p _ => ?_
    rw [toM_smulR]; ring
  rw [this, Real.sqrt_mul (sq_nonneg c), Real.sqrt_sq_eq_abs]

/-- C324: the triangle inequality. -/
theorem norm_add_le (A B g : Mat M N ℝ) : norm (add A B g) ≤ norm A + norm B := by
  have ha := (norm_sq A).1
  have hb := (norm_sq B).1
  rw [norm_eq (add A B g)]
  refine Real.sqrt_le_iff.2 ⟨by linarith, ?_⟩
  have cs : (∑ p : Fin M × Fin N, toM A p.1 p.2 * toM B p.1 p.2) ≤ norm A * norm B := by
    have h := Finset.sum_mul_sq_le_sq_mul_sq Finset.univ (fun p : Fin M × Fin N => toM A p.1 p.2) (fun p => toM B p.1 p.2)
    refine le_trans (le_abs_self _) ?_
    rw [← Real.sqrt_sq_eq_abs]
    refine Real.sqrt_le_iff.2 ⟨mul_nonneg ha hb, ?_⟩
    rw [mul_pow, norm_eq A, norm_eq B, Real.sq_sqrt (Finset.sum_nonneg fun _ _ => sq_nonneg _), Real.sq_sqrt (Finset.sum_nonneg fun _ _ => sq_nonneg _)]
    exact h
  have e : (∑ p : Fin M × Fin N, toM (add A B g) p.1 p.2 ^ 2) = norm A ^ 2 + 2 * (∑ p : Fin M × Fin N, toM A p.1 p.2 * toM B p.1 p.2) + norm B ^ 2 := by
    rw [norm_eq A, norm_eq B, Real.sq_sqrt (Finset.sum_nonneg fun _ _ => sq_nonneg _), Real.sq_sqrt (Finset.sum_nonneg fun _ _ => sq_nonneg _), Finset.mul_sum,
      ← Finset.sum_add_distrib, ← Finset.sum_add_distrib]
    refine Finset.sum_congr rfl fun p _ => ?_
    rw [toM_add, Matrix.add_apply]; ring
  rw [e]
  nlinarith

/-- C324: orthogonal matrices, in particular all rotations, keep the norm. -/
theorem norm_orthogonal {P : Nat} (Q : Mat M M ℝ) (hQ : toM Q * (toM Q).transpose = 1) (A g : Mat M P ℝ) : norm (mul Q A g) = norm A := by
  have hQ' : (toM Q).transpose * toM Q = 1 := mul_eq_one_comm.1 hQ
  have key : norm (mul Q A g) ^ 2 = norm A ^ 2 := by
    rw [(norm_sq _).2.2, (norm_sq _).2.2, toM_mul, Matrix.transpose_mul, ← Matrix.mul_assoc, Matrix.mul_assoc (toM Q), Matrix.mul_assoc, Matrix.trace_mul_comm,
      ]
    rw [Matrix.mul_assoc, Matrix.mul_assoc, hQ', Matrix.mul_one]
  exact (sq_eq_sq₀ (norm_sq _).1 (norm_sq _).1).1 key

/-- C324: rotations keep the length of every vector. -/
theorem norm_rotation (a : ℝ) (g R : Mat 3 3 ℝ) (hR : R = rotx a g ∨ R = roty a g ∨ R = rotz a g) (v h : Mat 3 1 ℝ) : norm (mul R v h) = norm v :=
  norm_orthogonal R (rot_orthogonal a g R hR).1 v h

example : norm (mul (rotz 1 ⟨fun _ => 0⟩) (⟨fun i => i⟩ : Mat 3 1 ℝ) ⟨fun _ => 0⟩) = norm (⟨fun i => i⟩ : Mat 3 1 ℝ) :=
  norm_rotation 1 ⟨fun _ => 0⟩ _ (Or.inr (Or.inr rfl)) _ _

/-! ### With IEEE doubles -/
open Verif.Common.Round Verif.Common

/-- The loop with doubles over the list of the elements. -/
def sumD (l : List (XVal ℚ)) : XVal ℚ := l.foldl (fun r x => Ieee.add r (Ieee.mul x x)) (.fin 0)

/-- Not negative, or NaN. -/
def Pos : XVal ℚ → Prop
  | .fin a => 0 ≤ a
  | .pinf => True
  | .ninf => False
  | .nan => True

theorem round_pos {x : ℚ} (h : 0 ≤ x) : Ieee.round x = .pinf ∨ ∃ y, 0 ≤ y ∧ Ieee.round x = .fin y := by
  have h0 : 0 ≤ Ieee.rndS x := by rw [Ieee.rndS_pos h]; exact Ieee.flS_nonneg x
  unfold Ieee.round
  split
  · exact Or.inl rfl
  · split
    · exfalso; have := Ieee.lim_pos; linarith
    · exact Or.inr ⟨_, h0, rfl⟩

/-- The square of a double: NaN for NaN, infinity for infinities, otherwise not negative. -/
theorem sq_cases (x : XVal ℚ) : (x = .nan ∧ Ieee.mul x x = .nan) ∨ (x ≠ .nan ∧ (Ieee.mul x x = .pinf ∨ ∃ y, 0 ≤ y ∧ Ieee.mul x x = .fin y)) := by
  cases x with
  | nan => exact Or.inl ⟨rfl, rfl⟩
  | pinf => exact Or.inr ⟨by simp, Or.inl rfl⟩
  | ninf => exact Or.inr ⟨by simp, Or.inl rfl⟩
  | fin a => exact Or.inr ⟨by simp, round_pos (mul_self_nonneg a)⟩

theorem add_cases {r q : XVal ℚ} (hr : r = .pinf ∨ ∃ y, 0 ≤ y ∧ r = .fin y) (hq : q = .pinf ∨ ∃ y, 0 ≤ y ∧ q = .fin y) :
    (Ieee.add r q = .pinf ∨ ∃ y, 0 ≤ y ∧ Ieee.add r q = .fin y) ∧ ((r = .pinf ∨ q = .pinf) → Ieee.add r q = .pinf) := by
  rcases hr with rfl | ⟨a, ha, rfl⟩
  · rcases hq with rfl | ⟨b, hb, rfl⟩
    · exact ⟨Or.inl rfl, fun _ => rfl⟩
    · exact ⟨Or.inl rfl, fun _ => rfl⟩
  · rcases hq with rfl | ⟨b, hb, rfl⟩
    · exact ⟨Or.inl rfl, fun _ => rfl⟩
    · exact ⟨round_pos (add_nonneg ha hb), by rintro (h | h) <;> cases h⟩

theorem sumD_snoc (l : List (XVal ℚ)) (x : XVal ℚ) : sumD (l ++ [x]) = Ieee.add (sumD l) (Ieee.mul x x) := by simp [sumD]

theorem sumD_cases (l : List (XVal ℚ)) :
    (XVal.nan ∈ l → sumD l = .nan) ∧ (XVal.nan ∉ l → (sumD l = .pinf ∨ ∃ y, 0 ≤ y ∧ sumD l = .fin y) ∧ ((∃ x ∈ l, Ieee.mul x x = .pinf) → sumD l = .pinf)) := by
  induction l using List.reverseRecOn with
  | nil => exact ⟨by simp, fun _ => ⟨Or.inr ⟨0, le_refl _, rfl⟩, by simp⟩⟩
  | append_singleton l x ih =>
    rw [sumD_snoc]
    constructor
    · intro h
      by_cases hl : XVal.nan ∈ l
      · rw [ih.1 hl]; rfl
      · have hx : x = .nan := by
          rcases List.mem_append.1 h with h | h
          · exact absurd h hl
          · exact (by simpa using h : XVal.nan = x).symm
        subst hx
        rcases (ih.2 hl).1 with h1 | ⟨y, _, h1⟩ <;> rw [h1] <;> rfl
    · intro h
      have hl : XVal.nan ∉ l := fun h' => h (by simp [h'])
      have hx : x ≠ .nan := fun h' => h (by simp [h'])
      rcases sq_cases x with ⟨h1, _⟩ | ⟨_, h2⟩
      · exact absurd h1 hx
      · obtain ⟨h3, h4⟩ := add_cases (ih.2 hl).1 h2
        refine ⟨h3, ?_⟩
        rintro ⟨z, hz, hz2⟩
        rcases List.mem_append.1 hz with hz | hz
        · exact h4 (Or.inl ((ih.2 hl).2 ⟨z, hz, hz2⟩))
        · have : z = x := by simpa using hz
          subst this
          exact h4 (Or.inr hz2)

/-- What is used of the square root of the library. -/
structure IsSqrt (f : XVal ℚ → XVal ℚ) : Prop where
  zero : f (.fin 0) = .fin 0
  inf : f .pinf = .pinf
  nan : f .nan = .nan
  /-- the root of a number which is not negative is a number which is not negative -/
  fin : ∀ a : ℚ, 0 ≤ a → ∃ y, 0 ≤ y ∧ f (.fin a) = .fin y

/-- C324: with doubles the norm is NaN exactly if an element is NaN, otherwise it is infinite or a number which is not negative. -/
theorem normD_nan_iff (f : XVal ℚ → XVal ℚ) (hf : IsSqrt f) (A : Mat M N (XVal ℚ)) :
    (normD f A = .nan ↔ .nan ∈ elems A) ∧ (.nan ∉ elems A → normD f A = .pinf ∨ ∃ y, 0 ≤ y ∧ normD f A = .fin y) := by
  have e : sumSq Ieee.add Ieee.mul (.fin 0) A = sumD (elems A) := sumSq_elems _ _ _ A
  have h2 : .nan ∉ elems A → normD f A = .pinf ∨ ∃ y, 0 ≤ y ∧ normD f A = .fin y := by
    intro h
    unfold normD
    rw [e]
    rcases ((sumD_cases (elems A)).2 h).1 with h1 | ⟨y, hy, h1⟩
    · left; rw [h1, hf.inf]
    · right; rw [h1]; exact hf.fin y hy
  refine ⟨⟨fun h => ?_, fun h => ?_⟩, h2⟩
  · by_contra hn
    rcases h2 hn with h3 | ⟨y, _, h3⟩ <;> rw [h] at h3 <;> cases h3
  · unfold normD; rw [e, (sumD_cases (elems A)).1 h, hf.nan]

theorem sq_over {a : ℚ} (h : 2 ^ (512 : ℤ) ≤ |a|) : Ieee.mul (.fin a) (.fin a) = .pinf := by
  show Ieee.round (a * a) = .pinf
  rw [Ieee.round_pinf]
  have h1 : (2:ℚ) ^ (512:ℤ) * 2 ^ (512:ℤ) ≤ |a| * |a| := mul_le_mul h h (by positivity) (abs_nonneg _)
  rw [abs_mul_abs_self, ← zpow_add₀ (by norm_num)] at h1
  refine le_trans ?_ h1
  unfold Ieee.over
  have : (2:ℚ) ^ (512 + 512 : ℤ) = 2 ^ (53:ℕ) * 2 ^ (971:ℤ) := by rw [← zpow_natCast, ← zpow_add₀ (by norm_num)]; norm_num
  rw [this]
  exact mul_le_mul_of_nonneg_right (by norm_num) (by positivity)

/-- C324 violated: a finite element of 2^512 or more makes the norm infinite, although the norm of e.g. a single element is a double. -/
theorem overflow_violated (f : XVal ℚ → XVal ℚ) (hf : IsSqrt f) (A : Mat M N (XVal ℚ)) (hn : .nan ∉ elems A) (a : ℚ) (ha : .fin a ∈ elems A)
    (h : 2 ^ (512 : ℤ) ≤ |a|) : normD f A = .pinf := by
  have e : sumSq Ieee.add Ieee.mul (.fin 0) A = sumD (elems A) := sumSq_elems _ _ _ A
  unfold normD
  rw [e, ((sumD_cases (elems A)).2 hn).2 ⟨_, ha, sq_over h⟩, hf.inf]

theorem sq_under {a : ℚ} (h : |a| ≤ 2 ^ (-538 : ℤ)) : Ieee.mul (.fin a) (.fin a) = .fin 0 := by
  show Ieee.round (a * a) = .fin 0
  have h1 : a * a ≤ 2 ^ (-1076:ℤ) := by
    have := mul_le_mul h h (abs_nonneg _) (by positivity)
    rw [abs_mul_abs_self, ← zpow_add₀ (by norm_num)] at this
    exact this
  have h0 := mul_self_nonneg a
  have hsmall : Ieee.rndS (a * a) = 0 := by
    have hr := Ieee.rndS_nearest (a * a) Ieee.rep_zero
    rw [sub_zero, abs_of_nonneg h0] at hr
    have hb : |Ieee.rndS (a * a)| ≤ 2 * (a * a) := by
      have := abs_sub_abs_le_abs_sub (Ieee.rndS (a * a)) (a * a)
      rw [abs_sub_comm, abs_of_nonneg h0] at this
      linarith
    have hlt : |Ieee.rndS (a * a)| < 2 ^ (-1074:ℤ) := by
      refine lt_of_le_of_lt (le_trans hb (mul_le_mul_of_nonneg_left h1 (by norm_num))) ?_
      have : (2:ℚ) ^ (-1074:ℤ) = 2 ^ (2:ℕ) * 2 ^ (-1076:ℤ) := by rw [← zpow_natCast, ← zpow_add₀ (by norm_num)]; norm_num
      rw [this]
      have h2 : (0:ℚ) < 2 ^ (-1076:ℤ) := by positivity
      nlinarith
    obtain ⟨m, k, _, hk, hx⟩ := Ieee.rndS_rep (a * a)
    rw [hx] at hlt ⊢
    by_cases hm : m = 0
    · simp [hm]
    · exfalso
      rw [abs_mul, abs_of_pos (Ieee.two_pos k)] at hlt
      have h2 : (1:ℚ) ≤ |(m:ℚ)| := by rw [← Int.cast_abs]; exact_mod_cast Int.one_le_abs hm
      have h3 : (2:ℚ) ^ (-1074:ℤ) ≤ 2 ^ k := Ieee.zpow_le_iff.2 hk
      have := Ieee.two_pos k
      nlinarith
  unfold Ieee.round
  rw [hsmall]
  have := Ieee.lim_pos
  rw [if_neg (by linarith), if_neg (by linarith)]

/-- C324 violated: the norm is 0 for every matrix whose elements are all at most 2^-538, although it is not the zero matrix. -/
theorem underflow_violated (f : XVal ℚ → XVal ℚ) (hf : IsSqrt f) (A : Mat M N (XVal ℚ)) (h : ∀ x ∈ elems A, ∃ a : ℚ, x = .fin a ∧ |a| ≤ 2 ^ (-538 : ℤ)) :
    normD f A = .fin 0 := by
  have e : sumSq Ieee.add Ieee.mul (.fin 0) A = sumD (elems A) := sumSq_elems _ _ _ A
  have hs : ∀ l : List (XVal ℚ), (∀ x ∈ l, ∃ a : ℚ, x = .fin a ∧ |a| ≤ 2 ^ (-538 : ℤ)) → sumD l = .fin 0 := by
    intro l
    induction l using List.reverseRecOn with
    | nil => intro _; rfl
    | append_singleton l x ih =>
      intro hl
      obtain ⟨a, rfl, ha⟩ := hl x (by simp)
      rw [sumD_snoc, ih (fun y hy => hl y (by simp [hy])), sq_under ha]
      show Ieee.round (0 + 0) = _
      rw [add_zero, Ieee.round_exact Ieee.f64_zero]
  unfold normD
  rw [e, hs _ h, hf.zero]

/-- The conditions on the root can be met (here by a function which is no root: only the three special values and the sign are used). -/
example : IsSqrt id := ⟨rfl, rfl, rfl, fun a h => ⟨a, h, rfl⟩⟩
example : .fin ((2:ℚ) ^ (600:ℤ)) ∈ elems (⟨fun i => if i = 0 then .fin (2 ^ (600:ℤ)) else .fin 0⟩ : Mat 2 1 (XVal ℚ)) := by
  have : elems (⟨fun i => if i = 0 then .fin (2 ^ (600:ℤ)) else .fin 0⟩ : Mat 2 1 (XVal ℚ)) = [.fin (2 ^ (600:ℤ)), .fin 0] := rfl
  rw [this]; simp
example : elems (⟨fun i => if i = 0 then .fin (2 ^ (-600:ℤ)) else .fin 0⟩ : Mat 2 1 (XVal ℚ)) = [.fin (2 ^ (-600:ℤ)), .fin 0] := rfl

/-! ### Accuracy -/

/-- The sum of the squares, exactly. -/
def exact (l : List ℚ) : ℚ := (l.map fun x => x * x).sum

theorem exact_snoc (l : List ℚ) (x : ℚ) : exact (l ++ [x]) = exact l + x * x := by simp [exact]

theorem exact_le (l : List ℚ) (B : ℚ) (h : ∀ x ∈ l, x * x ≤ B) : exact l ≤ l.length * B := by
  induction l using List.reverseRecOn with
  | nil => simp [exact]
  | append_singleton l x ih =>
    rw [exact_snoc, List.length_append]
    have := ih fun y hy => h y (by simp [hy])
    have := h x (by simp)
    push_cast
    simp only [List.length_singleton, Nat.cast_one]
    linarith

/-- C324, the part which holds for doubles: if all elements are 0 or between 2^-500 and 2^500 in magnitude and there are at most a million of them, the sum
under the root is finite and right up to the relative error of one rounding per element and one. -/
theorem sum_accurate_partial (l : List ℚ) (hl : l.length + 1 ≤ 2 ^ 20) (h : ∀ x ∈ l, x = 0 ∨ 2 ^ (-500 : ℤ) ≤ |x| ∧ |x| ≤ 2 ^ (500 : ℤ)) :
    ∃ s, sumD (l.map .fin) = .fin s ∧ |s - exact l| ≤ gam (l.length + 1) * exact l := by
  have key : ∃ s, sumD (l.map .fin) = .fin s ∧ Ieee.Rep s ∧ Approx (l.length + 1) s (exact l) (exact l) := by
    induction l using List.reverseRecOn with
    | nil => exact ⟨0, rfl, Ieee.rep_zero, by simpa [exact] using (Approx.exact 0).weaken (Nat.zero_le 1)⟩
    | append_singleton l x ih =>
      rw [List.length_append] at hl
      simp only [List.length_singleton] at hl
      obtain ⟨s, h1, h2, h3⟩ := ih (by omega) (fun y hy => h y (by simp [hy]))
      have hx := h x (by simp)
      have hB : ∀ y ∈ l ++ [x], y * y ≤ 2 ^ (1000 : ℤ) := by
        intro y hy
        rcases h y hy with rfl | ⟨_, h5⟩
        · simp
        · have := mul_le_mul h5 h5 (abs_nonneg _) (by positivity)
          rw [abs_mul_abs_self, ← zpow_add₀ (by norm_num)] at this
          exact this
      have hsq : Ieee.mul (.fin x) (.fin x) = .fin (rnd (x * x)) ∧ Ieee.Rep (rnd (x * x)) := by
        have hlt : |x * x| < Ieee.over := by
          rw [abs_of_nonneg (mul_self_nonneg x)]
          refine lt_of_le_of_lt (hB x (by simp)) ?_
          refine lt_trans ?_ Ieee.maxD_lt_over
          unfold Ieee.maxD
          have : (2:ℚ) ^ (1000:ℤ) = 2 ^ (29:ℕ) * 2 ^ (971:ℤ) := by rw [← zpow_natCast, ← zpow_add₀ (by norm_num)]; norm_num
          rw [this]
          exact mul_lt_mul_of_pos_right (by norm_num) (by positivity)
        have e : Ieee.rndS (x * x) = rnd (x * x) := by
          rcases hx with rfl | ⟨h4, _⟩
          · rw [mul_zero, Ieee.rndS_exact Ieee.rep_zero, rnd_zero]
          · refine Ieee.rndS_eq ?_
            have := mul_le_mul h4 h4 (by positivity) (abs_nonneg _)
            rw [← zpow_add₀ (by norm_num)] at this
            rw [abs_mul]
            refine le_trans ?_ this
            exact Ieee.zpow_le_iff.2 (by norm_num)
        refine ⟨?_, ?_⟩
        · show Ieee.round (x * x) = _
          rw [Ieee.round_fin hlt, e]
        · rw [← e]; exact Ieee.rndS_rep _
      have ha : Approx (l.length + 1) (s + rnd (x * x)) (exact l + x * x) (exact l + x * x) := by
        have h6 : Approx 1 (rnd (x * x)) (x * x) (x * x) := by
          have := (Approx.exact (x * x)).round
          rwa [abs_of_nonneg (mul_self_nonneg x)] at this
        exact h3.add (h6.weaken (by omega))
      have hlt : |s + rnd (x * x)| < Ieee.over := by
        have h7 := ha.abs_le'
        have h8 : gam (l.length + 1) ≤ 1 := by
          refine le_trans (gam_small _ (by omega)) ?_
          unfold unit
          have : ((l.length + 1 : ℕ) : ℚ) ≤ 2 ^ 20 := by exact_mod_cast (by omega : l.length + 1 ≤ 2 ^ 20)
          rw [mul_one_div, div_le_one (by positivity)]
          norm_num at this ⊢
          linarith
        have h9 := exact_le (l ++ [x]) (2 ^ (1000:ℤ)) hB
        rw [exact_snoc] at h9
        have h10 : ((l ++ [x]).length : ℚ) ≤ 2 ^ 20 := by
          rw [List.length_append, List.length_singleton]; exact_mod_cast (by omega : l.length + 1 ≤ 2 ^ 20)
        have hpos : (0:ℚ) < 2 ^ (1000:ℤ) := by positivity
        have h11 : |s + rnd (x * x)| ≤ 2 * (2 ^ 20 * 2 ^ (1000:ℤ)) := by
          refine le_trans h7 (mul_le_mul (by linarith) (le_trans h9 (mul_le_mul_of_nonneg_right h10 hpos.le)) ha.nonneg (by norm_num))
        refine lt_of_le_of_lt h11 (lt_trans ?_ Ieee.maxD_lt_over)
        unfold Ieee.maxD
        have : (2:ℚ) ^ (1000:ℤ) = 2 ^ (29:ℕ) * 2 ^ (971:ℤ) := by rw [← zpow_natCast, ← zpow_add₀ (by norm_num)]; norm_num
        rw [this, ← mul_assoc, ← mul_assoc]
        exact mul_lt_mul_of_pos_right (by norm_num) (by positivity)
      refine ⟨rnd (s + rnd (x * x)), ?_, ?_, ?_⟩
      · rw [List.map_append, List.map_singleton, sumD_snoc, h1, hsq.1]
        show Ieee.round (s + rnd (x * x)) = _
        rw [Ieee.round_fin hlt, Ieee.rndS_add h2 hsq.2]
      · rw [← Ieee.rndS_add h2 hsq.2]; exact Ieee.rndS_rep _
      · rw [List.length_append, List.length_singleton, exact_snoc]
        exact ha.round
  obtain ⟨s, h1, _, h3⟩ := key
  exact ⟨s, h1, h3.err⟩

example : ∀ x ∈ [3, 4, (0:ℚ)], x = 0 ∨ 2 ^ (-500 : ℤ) ≤ |x| ∧ |x| ≤ 2 ^ (500 : ℤ) := by
  have h1 : (2:ℚ) ^ (-500:ℤ) ≤ 1 := zpow_le_one_of_nonpos₀ (by norm_num) (by norm_num)
  have h2 : (4:ℚ) ≤ 2 ^ (500:ℤ) := by
    have : (2:ℚ) ^ (2:ℤ) ≤ 2 ^ (500:ℤ) := Ieee.zpow_le_iff.2 (by norm_num)
    refine le_trans (by norm_num) this
  intro x hx
  simp only [List.mem_cons, List.not_mem_nil, or_false] at hx
  rcases hx with rfl | rfl | rfl
  · right; rw [abs_of_pos (by norm_num)]; exact ⟨le_trans h1 (by norm_num), le_trans (by norm_num) h2⟩
  · right; rw [abs_of_pos (by norm_num)]; exact ⟨le_trans h1 (by norm_num), h2⟩
  · left; rfl

end Verif.Math.Norm
