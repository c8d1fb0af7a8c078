import Verif.Math.Elementwise
import Verif.Control.GainProps
/-!
C327: what the block `Gain` (`/repo/includes/eeros/control/Gain.hpp`) does with matrices.  The template has four variants for signals which are matrices: the gain is a number or a matrix, the
multiplication is that of matrices or element by element (third template argument).  `Matrix()` leaves its elements as they are in memory (Matrix.hpp:53); `g` is this content for the
local variable `outVal` or `result`.  A gain matrix without multiplication by elements has `M` columns, otherwise it has the size of the signal.
-/
namespace Verif.Control.GainVec
open Verif.Math Verif.Math.Mat Verif.Math.Elementwise
variable {M N : Nat}

/-- The four variants with their gain: `std::is_arithmetic<Tgain>` or not, `elementWise` or not. -/
inductive Amp (M N : Nat) where
  | num (c : ℝ)
  | numEw (c : ℝ)
  | mat (G : Mat M M ℝ)
  | matEw (G : Mat M N ℝ)

/-- `calculate`, 293-302.  A number as gain of the multiplication by elements is converted to a matrix filled with it (Matrix.hpp:55-57). -/
def calculate (a : Amp M N) (x g : Mat M N ℝ) : Mat M N ℝ :=
  match a with
  | .num c => smulL c x g
  | .numEw c => ewMul x (fill c g) g
  | .mat G => mul G x g
  | .matEw G => ewMul x G g

/-- The loop of the parabolic variants, 319-326 and 347-354, with the gain of element `i`. -/
noncomputable def parLoop (gain : Nat → ℝ) (sp x g : Mat M N ℝ) : Mat M N ℝ :=
  (List.range (M * N)).foldl (fun A i => A.put i (Gain.parabolic (gain i) (sp.value i) (x.value i))) g

/-- `calculateParabolic`, 316-356; 330-342 return the variable as it is. -/
noncomputable def calculateParabolic (a : Amp M N) (sp x g : Mat M N ℝ) : Mat M N ℝ :=
  match a with
  | .num c => parLoop (fun _ => c) sp x g
  | .numEw _ => g
  | .mat _ => g
  | .matEw G => parLoop G.value sp x g

/-- The value of the output after `run` (134-139). -/
noncomputable def output (enabled par : Bool) (a : Amp M N) (sp x g : Mat M N ℝ) : Mat M N ℝ :=
  if enabled then (if par then calculateParabolic a sp x g else calculate a x g) else x

/-- Specification: the linear map of a gain. -/
def lin : Amp M N → Matrix (Fin M) (Fin N) ℝ → Matrix (Fin M) (Fin N) ℝ
  | .num c, X => c • X
  | .numEw c, X => c • X
  | .mat G, X => toM G * X
  | .matEw G, X => (toM G).hadamard X

/-- C327: without the parabolic profile the output is the gain times the input, for all variants, sizes, gains and inputs. -/
theorem linear_output (a : Amp M N) (sp x g : Mat M N ℝ) : toM (output true false a sp x g) = lin a (toM x) := by
  simp only [output, if_true, Bool.false_eq_true, if_false]
  cases a with
  | num c => exact toM_smulL c x g
  | numEw c =>
    ext i j
    simp only [calculate, toM, ewMul, fill, at_loop _ _ i.2 j.2, lin, Matrix.smul_apply, smul_eq_mul, mul_comm]
  | mat G => exact toM_mul G x g
  | matEw G =>
    ext i j
    simp only [calculate, toM, ewMul, at_loop _ _ i.2 j.2, lin, Matrix.hadamard_apply, mul_comm]

/-- C327: superposition: for all variants the output of a combination of inputs is the combination of the outputs. -/
theorem superposition (a : Amp M N) (X Y : Matrix (Fin M) (Fin N) ℝ) (s t : ℝ) : lin a (s • X + t • Y) = s • lin a X + t • lin a Y := by
  cases a with
  | num c => ext i j; simp [lin]; ring
  | numEw c => ext i j; simp [lin]; ring
  | mat G => simp [lin, Matrix.mul_add]
  | matEw G => ext i j; simp [lin, Matrix.hadamard_apply]; ring

theorem parLoop_value (gain : Nat → ℝ) (sp x g : Mat M N ℝ) {m n : Nat} (hm : m < M) (hn : n < N) :
    (parLoop gain sp x g).at' m n = Gain.parabolic (gain (M * n + m)) (sp.at' m n) (x.at' m n) := by
  have : ∀ k i, ((List.range k).foldl (fun (A : Mat M N ℝ) i => A.put i (Gain.parabolic (gain i) (sp.value i) (x.value i))) g).value i =
      if i < k then Gain.parabolic (gain i) (sp.value i) (x.value i) else g.value i := by
    intro k
    induction k with
    | zero => intro i; simp
    | succ k ih =>
      intro i
      rw [List.range_succ, List.foldl_append]
      have hp : ∀ (A : Mat M N ℝ) j v i, (A.put j v).value i = if i = j then v else A.value i := fun _ _ _ _ => rfl
      rw [List.foldl_cons, List.foldl_nil, hp]
      by_cases h : i = k
      · subst h; simp
      · rw [if_neg h, ih]
        by_cases h2 : i < k
        · rw [if_pos h2, if_pos (by omega)]
        · rw [if_neg h2, if_neg (by omega)]
  unfold parLoop at'
  rw [this, if_pos (index_lt hm hn)]

/-- C327: with the parabolic profile each element follows the profile of a scalar block (C65) with its own switch point and, for a gain matrix by elements, its own gain. -/
theorem parabolic_partial (sp x g : Mat M N ℝ) (i : Fin M) (j : Fin N) :
    (∀ c, toM (output true true (.num c) sp x g) i j = Gain.parabolic c (toM sp i j) (toM x i j)) ∧
    (∀ G, toM (output true true (.matEw G) sp x g) i j = Gain.parabolic (toM G i j) (toM sp i j) (toM x i j)) := by
  constructor
  · intro c
    simp only [output, if_true, calculateParabolic, toM]
    exact parLoop_value _ sp x g i.2 j.2
  · intro G
    simp only [output, if_true, calculateParabolic, toM]
    exact parLoop_value _ sp x g i.2 j.2

/-- C327: with a non-negative gain the profile bounds each element by the linear gain, whatever the other elements are. -/
theorem parabolic_bounded (c : ℝ) (hc : 0 ≤ c) (sp x g : Mat M N ℝ) (hsp : ∀ i j, 0 ≤ toM sp i j) (i : Fin M) (j : Fin N) :
    |toM (output true true (.num c) sp x g) i j| ≤ c * |toM x i j| := by
  rw [(parabolic_partial sp x g i j).1]
  rcases le_total 0 (toM x i j) with h | h
  · have := Gain.parabolic_le_linear c (toM sp i j) (toM x i j) hc h (hsp i j)
    rw [abs_of_nonneg h, abs_of_nonneg this.1]; exact this.2
  · have h2 : 0 ≤ -toM x i j := by linarith
    have := Gain.parabolic_le_linear c (toM sp i j) (-toM x i j) hc h2 (hsp i j)
    rw [Gain.parabolic_odd c _ _ (hsp i j)] at this
    rw [abs_of_nonpos h, abs_of_nonpos (by linarith [this.1])]; exact this.2

/-- C327, violation: with a gain matrix which multiplies as a matrix, and with a number which multiplies by elements, the parabolic profile gives whatever the memory of a local variable
contains: every value is possible, for all gains, switch points and inputs.  `enableParabolicGain` accepts it. -/
theorem indeterminate_violated (sp x y : Mat M N ℝ) :
    (∀ G, ∃ g, output true true (.mat G) sp x g = y) ∧ (∀ c, ∃ g, output true true (.numEw c) sp x g = y) :=
  ⟨fun _ => ⟨y, rfl⟩, fun _ => ⟨y, rfl⟩⟩

/-- C327: the output depends on the memory of the local variable exactly in these two variants, with the block and the profile enabled (for matrices which have elements). -/
theorem determinate_iff (en par : Bool) (a : Amp (M + 1) (N + 1)) (sp x : Mat (M + 1) (N + 1) ℝ) :
    (∀ g g', toM (output en par a sp x g) = toM (output en par a sp x g')) ↔
      ¬ (en = true ∧ par = true ∧ ((∃ G, a = .mat G) ∨ ∃ c, a = .numEw c)) := by
  constructor
  · rintro h ⟨rfl, rfl, ha⟩
    have key := h ⟨fun _ => 0⟩ ⟨fun _ => 1⟩
    have key := congrFun (congrFun key 0) 0
    rcases ha with ⟨G, rfl⟩ | ⟨c, rfl⟩ <;> simp [output, calculateParabolic, toM, at'] at key
  · intro h g g'
    cases en with
    | false => rfl
    | true =>
      cases par with
      | false => rw [linear_output, linear_output]
      | true =>
        ext i j
        cases a with
        | num c => rw [(parabolic_partial sp x g i j).1, (parabolic_partial sp x g' i j).1]
        | numEw c => exact absurd ⟨rfl, rfl, Or.inr ⟨c, rfl⟩⟩ h
        | mat G => exact absurd ⟨rfl, rfl, Or.inl ⟨G, rfl⟩⟩ h
        | matEw G => rw [(parabolic_partial sp x g i j).2, (parabolic_partial sp x g' i j).2]

/-- The gain of a block made with `Gain()` (46, 72-78): `1.0`, converted to the type of the gain (Matrix.hpp:55-57). -/
def defaultMat (g : Mat M M ℝ) : Amp M N := .mat (fill 1 g)
def defaultMatEw (g : Mat M N ℝ) : Amp M N := .matEw (fill 1 g)

/-- C327: the default gain, documented as a gain of 1, leaves the signal as it is where numbers or matrices multiply by elements; … -/
theorem default_ew (g : Mat M N ℝ) (X : Matrix (Fin M) (Fin N) ℝ) : lin (defaultMatEw g) X = X ∧ lin (.num 1) X = X ∧ lin (.numEw 1) X = X := by
  refine ⟨?_, by simp [lin], by simp [lin]⟩
  ext i j
  simp [defaultMatEw, lin, Matrix.hadamard_apply, toM_fill]

/-- … a gain matrix is not the identity but filled with ones: every element of the output is the sum of its column, … -/
theorem default_sums (g : Mat M M ℝ) (X : Matrix (Fin M) (Fin N) ℝ) (i : Fin M) (j : Fin N) : lin (defaultMat g) X i j = ∑ k, X k j := by
  simp [defaultMat, lin, Matrix.mul_apply, toM_fill]

/-- … so the default leaves all signals as they are exactly for gain matrices with one row. -/
theorem default_violated (g : Mat M M ℝ) : (∀ X : Matrix (Fin M) (Fin (N + 1)) ℝ, lin (defaultMat g) X = X) ↔ M ≤ 1 := by
  constructor
  · intro h
    by_contra hM
    have h0 : 0 < M := by omega
    have h1 : 1 < M := by omega
    have key := congrFun (congrFun (h (fun i _ => if i = ⟨0, h0⟩ then 1 else 0)) ⟨1, h1⟩) 0
    have hs := default_sums g (fun (i : Fin M) (_ : Fin (N + 1)) => if i = ⟨0, h0⟩ then (1:ℝ) else 0) ⟨1, h1⟩ 0
    rw [hs] at key
    simp at key
  · intro hM X
    ext i j
    rw [default_sums]
    have : ∀ k : Fin M, k = i := fun k => Fin.ext (by omega)
    rw [Finset.sum_eq_single i (fun k _ hk => absurd (this k) hk) (by simp)]

/-- C327: a disabled block passes its input in all variants. -/
theorem disabled_output (par : Bool) (a : Amp M N) (sp x g : Mat M N ℝ) : output false par a sp x g = x := rfl

example : toM (output true false (.mat ⟨fun i => (i : ℝ)⟩) ⟨fun _ => 0⟩ ⟨fun i => (i : ℝ) + 1⟩ ⟨fun _ => 7⟩ : Mat 2 1 ℝ) 1 0 = 7 := by
  rw [linear_output]; simp [lin, toM, at', Matrix.mul_apply, Fin.sum_univ_two]; norm_num

example : toM (output true true (.num 2) ⟨fun _ => 2⟩ ⟨fun i => if i = 0 then 5 else 1⟩ ⟨fun _ => 7⟩ : Mat 2 1 ℝ) 0 0 = 8 := by
  rw [(parabolic_partial _ _ _ _ _).1]
  simp only [toM, at']
  norm_num [Gain.parabolic]
  rw [show (16:ℝ) = 4 * 4 by norm_num, Real.sqrt_mul_self (by norm_num)]; norm_num

/-- Cases of `superposition` and `parabolic_bounded`. -/
example : lin (.num 2 : Amp 2 1) ((3 : ℝ) • !![5; 6] + (4 : ℝ) • !![7; 8]) = (3 : ℝ) • lin (.num 2) !![5; 6] + (4 : ℝ) • lin (.num 2) !![7; 8] := superposition _ _ _ _ _
example : |toM (output true true (.num 2) ⟨fun _ => 2⟩ ⟨fun i => if i = 0 then 5 else 1⟩ ⟨fun _ => 7⟩ : Mat 2 1 ℝ) 0 0| ≤ 2 * |(5 : ℝ)| := by
  have := parabolic_bounded 2 (by norm_num) (⟨fun _ => 2⟩ : Mat 2 1 ℝ) ⟨fun i => if i = 0 then 5 else 1⟩ ⟨fun _ => 7⟩ (fun i j => by simp [toM, at']) 0 0
  simpa [toM, at'] using this

end Verif.Control.GainVec
