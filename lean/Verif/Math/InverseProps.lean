/-
C48: `det` is the determinant; `operator!` is the inverse for sizes 2, 3 and all powers of two, and is wrong
for 5x5 matrices.
-/
import Verif.Math.Inverse
import Verif.Math.MatrixProps
import Mathlib.LinearAlgebra.Matrix.Determinant.Basic
import Mathlib.LinearAlgebra.Matrix.Adjugate
import Mathlib.LinearAlgebra.Matrix.NonsingularInverse
import Mathlib.Data.Nat.Bitwise
import Mathlib.Tactic.FinCases
import Mathlib.Tactic.FieldSimp
import Mathlib.Tactic.LinearCombination
import Mathlib.Tactic.Linarith
import Mathlib.Tactic.NormNum
import Mathlib.Tactic.IntervalCases

set_option linter.unusedSectionVars false

namespace Verif.Math.Mat
section ring
variable {K : Type} [CommRing K] [Div K] [DecidableEq K]

/-- Number of indices below `j` different from `e`. -/
def cnt (e j : Nat) : Nat := if e < j then j - 1 else j
/-- The index at position `y` when `e` is skipped. -/
def skip (e y : Nat) : Nat := if y < e then y else y + 1

theorem skip_cnt {e j : Nat} (h : j ≠ e) : skip e (cnt e j) = j := by
  unfold skip cnt; split <;> split <;> omega

theorem cnt_succ_ne {e j : Nat} (h : j ≠ e) : cnt e (j+1) = cnt e j + 1 := by
  unfold cnt; split <;> split <;> omega

theorem cnt_succ_eq {e : Nat} : cnt e (e+1) = cnt e e := by unfold cnt; simp

theorem cnt_lt {e j n : Nat} (he : e < n + 1) (hj : j < n + 1) (h : j ≠ e) : cnt e j < n := by
  unfold cnt; split <;> omega

theorem cnt_full {e n : Nat} (he : e < n + 1) : cnt e (n + 1) = n := by unfold cnt; simp [he]

theorem skip_eq_succAbove {n : Nat} (e : Fin (n+1)) (y : Fin n) : (e.succAbove y : Nat) = skip e y := by
  unfold skip Fin.succAbove
  simp only [Fin.lt_def, Fin.val_castSucc]
  split <;> rfl

/-! ### The sub matrix of the Laplace expansion -/

theorem subLoop_inner {n : Nat} (A : Mat (n+1) (n+1) K) (a y : Nat) (hy : y < n) (S : Mat n n K) (j : Nat) :
    (∀ y' x', y' < n →
      (((List.range' 1 j).foldl (fun (xs : Nat × Mat n n K) b =>
        (xs.1 + 1, xs.2.set y xs.1 (A.at' a b))) (0, S)).2.at' y' x' =
        if y' = y ∧ x' < j then A.at' a (x' + 1) else S.at' y' x')) ∧
    ((List.range' 1 j).foldl (fun (xs : Nat × Mat n n K) b =>
        (xs.1 + 1, xs.2.set y xs.1 (A.at' a b))) (0, S)).1 = j := by
  induction j with
  | zero => simp
  | succ j ih =>
    rw [List.range'_concat, List.foldl_append, List.foldl_cons, List.foldl_nil]
    obtain ⟨ih1, ih2⟩ := ih
    refine ⟨?_, by simp only; rw [ih2]⟩
    intro y' x' hy'
    simp only
    rw [ih2, at_set _ _ hy hy', ih1 y' x' hy']
    by_cases h1 : y' = y
    · subst h1
      by_cases h2 : x' = j
      · subst h2; simp [Nat.add_comm]
      · have : x' < j + 1 ↔ x' < j := by omega
        simp [h2, this]
    · simp [h1]

theorem at_subLoop {n : Nat} (A : Mat (n+1) (n+1) K) (e : Nat) (he : e < n + 1) (g : Mat n n K)
    {y x : Nat} (hy : y < n) (hx : x < n) : (subLoop A e g).at' y x = A.at' (skip e y) (x + 1) := by
  have key : ∀ k, k ≤ n + 1 →
      (((List.range k).foldl (fun (st : Nat × Mat n n K) a =>
        let S := ((List.range' 1 n).foldl (fun (xs : Nat × Mat n n K) b =>
          if a ≠ e then (xs.1 + 1, xs.2.set st.1 xs.1 (A.at' a b)) else xs) (0, st.2)).2
        (if a ≠ e then st.1 + 1 else st.1, S)) (0, g)).1 = cnt e k) ∧
      ∀ y' x', y' < n → x' < n →
        ((List.range k).foldl (fun (st : Nat × Mat n n K) a =>
          let S := ((List.range' 1 n).foldl (fun (xs : Nat × Mat n n K) b =>
            if a ≠ e then (xs.1 + 1, xs.2.set st.1 xs.1 (A.at' a b)) else xs) (0, st.2)).2
          (if a ≠ e then st.1 + 1 else st.1, S)) (0, g)).2.at' y' x' =
        if y' < cnt e k then A.at' (skip e y') (x' + 1) else g.at' y' x' := by
    intro k
    induction k with
    | zero =>
      intro _
      refine ⟨by simp [cnt], ?_⟩
      intro y' x' _ _
      simp [cnt]
    | succ k ih =>
      intro hk
      obtain ⟨ih1, ih2⟩ := ih (by omega)
      rw [List.range_succ, List.foldl_append, List.foldl_cons, List.foldl_nil]
      simp only
      generalize (List.range k).foldl (fun (st : Nat × Mat n n K) a =>
          let S := ((List.range' 1 n).foldl (fun (xs : Nat × Mat n n K) b =>
            if a ≠ e then (xs.1 + 1, xs.2.set st.1 xs.1 (A.at' a b)) else xs) (0, st.2)).2
          (if a ≠ e then st.1 + 1 else st.1, S)) (0, g) = st at ih1 ih2 ⊢
      by_cases hke : k = e
      · subst hke
        simp only [ne_eq, not_true_eq_false, if_false]
        have hfix : ∀ (l : List Nat) (xs : Nat × Mat n n K), l.foldl (fun xs _ => xs) xs = xs := by
          intro l; induction l with
          | nil => intro xs; rfl
          | cons b l ih => intro xs; exact ih xs
        rw [hfix, cnt_succ_eq]
        exact ⟨ih1, ih2⟩
      · simp only [ne_eq, hke, not_false_eq_true, if_true]
        have hlt : st.1 < n := by rw [ih1]; exact cnt_lt he (by omega) hke
        obtain ⟨h1, _⟩ := subLoop_inner A k st.1 hlt st.2 n
        refine ⟨by rw [ih1, cnt_succ_ne hke], ?_⟩
        intro y' x' hy' hx'
        rw [h1 y' x' hy', ih2 y' x' hy' hx', cnt_succ_ne hke, ih1]
        by_cases h2 : y' = cnt e k
        · subst h2
          simp [hx', skip_cnt hke]
        · have : y' < cnt e k + 1 ↔ y' < cnt e k := by omega
          simp [h2, this]
  have := (key (n+1) (le_refl _)).2 y x hy hx
  rw [cnt_full he, if_pos hy] at this
  exact this

theorem foldl_signed (f : Nat → K) (k : Nat) :
    (List.range k).foldl (fun d m => if m % 2 = 0 then d + f m else d - f m) 0 =
      ∑ i : Fin k, (-1) ^ (i : Nat) * f i := by
  induction k with
  | zero => simp
  | succ k ih =>
    rw [List.range_succ, List.foldl_append, ih, Fin.sum_univ_castSucc]
    simp only [List.foldl_cons, List.foldl_nil, Fin.val_castSucc, Fin.val_last]
    by_cases h : k % 2 = 0
    · rw [if_pos h, Even.neg_one_pow (Nat.even_iff.2 h), one_mul]
    · have ho : Odd k := Nat.odd_iff.2 (by omega)
      rw [if_neg h, Odd.neg_one_pow ho]; ring

/-- **C48** (determinant) For every size and every matrix `det` returns the determinant, whatever the
uninitialised local matrices contain. -/
theorem det_eq (g : (k : Nat) → Mat k k K) : ∀ (n : Nat) (A : Mat (n+1) (n+1) K),
    det g (n+1) A = (toM A).det := by
  intro n
  induction n with
  | zero => intro A; simp [det, toM]
  | succ n ih =>
    intro A
    match n, ih, A with
    | 0, _, A => simp [det, toM, Matrix.det_fin_two]
    | 1, _, A =>
      rw [Matrix.det_fin_three]
      simp [det, toM]
      ring
    | n+2, ih, A =>
      rw [Matrix.det_succ_column_zero]
      simp only [det]
      rw [foldl_signed (fun m => A.at' m 0 * det g (n+3) (subLoop A m (g (n+3))))]
      apply Finset.sum_congr rfl
      intro i _
      rw [mul_assoc]
      congr 1
      simp only [toM]
      congr 1
      rw [ih]
      congr 1
      ext y x
      simp only [toM, Matrix.submatrix_apply]
      rw [at_subLoop A i i.2 _ y.2 x.2, skip_eq_succAbove, Fin.val_succ]

/-! ### The inverse -/

theorem and_pred_of_pow {n k a : Nat} (h : n + 1 = 2 ^ k) (ha : a ≤ n) : a &&& n = a := by
  have : n = 2 ^ k - 1 := by omega
  rw [this, Nat.and_two_pow_sub_one_eq_mod]
  exact Nat.mod_eq_of_lt (by omega)

theorem minor_inner {n : Nat} (A : Mat (n+1) (n+1) K) (u e : Nat) (he : e < n + 1) (a : Nat) (ha : a < n)
    (S : Mat n n K) (j : Nat) (hj : j ≤ n + 1) :
    ∃ S', (List.range j).foldl (fun (st : Nat × Nat × Mat n n K) w =>
        if w ≠ e then (st.1, (st.2.1 + 1) % n, st.2.2.set st.1 st.2.1 (A.at' u w)) else st) (a, 0, S) =
        (a, cnt e j % n, S') ∧
      ∀ y x, y < n → x < n → S'.at' y x = if y = a ∧ x < cnt e j then A.at' u (skip e x) else S.at' y x := by
  induction j with
  | zero => exact ⟨S, by simp [cnt], by simp [cnt]⟩
  | succ j ih =>
    obtain ⟨S', h1, h2⟩ := ih (by omega)
    rw [List.range_succ, List.foldl_append, h1, List.foldl_cons, List.foldl_nil]
    by_cases hje : j = e
    · subst hje
      simp only [ne_eq, not_true_eq_false, if_false, cnt_succ_eq]
      exact ⟨S', rfl, h2⟩
    · simp only [ne_eq, hje, not_false_eq_true, if_true, cnt_succ_ne hje]
      have hlt := cnt_lt he (show j < n + 1 by omega) hje
      refine ⟨S'.set a (cnt e j) (A.at' u j), ?_, ?_⟩
      · rw [Nat.mod_eq_of_lt hlt]
      · intro y x hy hx
        rw [at_set _ _ ha hy, h2 y x hy hx]
        by_cases hya : y = a
        · subst hya
          by_cases hxc : x = cnt e j
          · subst hxc; simp [skip_cnt hje]
          · have : x < cnt e j + 1 ↔ x < cnt e j := by omega
            simp [hxc, this]
        · simp [hya]

theorem fold_id {α : Type} (l : List Nat) (s : α) : l.foldl (fun s _ => s) s = s := by
  induction l with
  | nil => rfl
  | cons b l ih => exact ih

theorem at_minor {n k : Nat} (hp : n + 1 = 2 ^ k) (A : Mat (n+1) (n+1) K) (m e : Nat)
    (hm : m < n + 1) (he : e < n + 1) (S : Mat n n K) {y x : Nat} (hy : y < n) (hx : x < n) :
    (minor A m e S).at' y x = A.at' (skip m y) (skip e x) := by
  have key : ∀ j, j ≤ n + 1 → ∃ S',
      (List.range j).foldl (fun (st : Nat × Nat × Mat n n K) u =>
        let st := (List.range (n+1)).foldl (fun (st : Nat × Nat × Mat n n K) w =>
          if u ≠ m ∧ w ≠ e then (st.1, (st.2.1 + 1) % n, st.2.2.set st.1 st.2.1 (A.at' u w)) else st) st
        if u ≠ m then ((st.1 + 1) &&& n, st.2.1, st.2.2) else st) (0, 0, S) = (cnt m j, 0, S') ∧
      ∀ y x, y < n → x < n → S'.at' y x = if y < cnt m j then A.at' (skip m y) (skip e x) else S.at' y x := by
    intro j
    induction j with
    | zero => intro _; exact ⟨S, by simp [cnt], by simp [cnt]⟩
    | succ j ih =>
      intro hj
      obtain ⟨S', h1, h2⟩ := ih (by omega)
      rw [List.range_succ (n := j), List.foldl_append, h1, List.foldl_cons, List.foldl_nil]
      by_cases hjm : j = m
      · subst hjm
        simp only [ne_eq, not_true_eq_false, false_and, if_false, cnt_succ_eq]
        rw [fold_id]
        exact ⟨S', rfl, h2⟩
      · have hlt := cnt_lt hm (show j < n + 1 by omega) hjm
        obtain ⟨S'', h3, h4⟩ := minor_inner A j e he (cnt m j) hlt S' (n+1) (le_refl _)
        simp only [ne_eq, hjm, not_false_eq_true, true_and, if_true, cnt_succ_ne hjm]
        simp only [ne_eq] at h3
        rw [h3, cnt_full he, Nat.mod_self]
        refine ⟨S'', ?_, ?_⟩
        · simp only
          rw [and_pred_of_pow hp (by omega)]
        · intro y x hy hx
          rw [h4 y x hy hx, h2 y x hy hx, cnt_full he]
          by_cases hyc : y = cnt m j
          · subst hyc; simp [hx, skip_cnt hjm]
          · have : y < cnt m j + 1 ↔ y < cnt m j := by omega
            simp [hyc, this]
  obtain ⟨S', h1, h2⟩ := key (n+1) (le_refl _)
  unfold minor
  rw [h1]
  rw [h2 y x hy hx, cnt_full hm, if_pos hy]

/-- For a power of two the general branch computes `adjugate / determinant` (transposed). -/
theorem at_cofactors {n k : Nat} (hp : n + 2 = 2 ^ k) (g : (k : Nat) → Mat k k K)
    (A : Mat (n+2) (n+2) K) (d : K) (i j : Fin (n+2)) :
    (cofactors g A d).at' j i = (toM A).adjugate i j / d := by
  let f : Nat → Nat → K := fun m n' =>
    (if m % 2 = 0 then (if n' % 2 ≠ 0 then - det g (n+1) (minor A m n' (g (n+1))) else det g (n+1) (minor A m n' (g (n+1))))
      else (if n' % 2 ≠ 0 then det g (n+1) (minor A m n' (g (n+1))) else - det g (n+1) (minor A m n' (g (n+1))))) / d
  have hind : ∀ m n', m < n + 2 → n' < n + 2 → ∀ S, det g (n+1) (minor A m n' S) = det g (n+1) (minor A m n' (g (n+1))) := by
    intro m n' hm hn' S
    rw [det_eq, det_eq]
    congr 1
    ext y x
    simp only [toM]
    rw [at_minor hp A m n' hm hn' S y.2 x.2, at_minor hp A m n' hm hn' _ y.2 x.2]
  have hinner : ∀ m, m < n + 2 → ∀ l : List Nat, (∀ x ∈ l, x < n + 2) → ∀ (S : Mat (n+1) (n+1) K) (R : Mat (n+2) (n+2) K),
      (l.foldl (fun (st : Mat (n+1) (n+1) K × Mat (n+2) (n+2) K) n' =>
        let S := minor A m n' st.1
        let r := if m % 2 = 0 then (if n' % 2 ≠ 0 then - det g (n+1) S else det g (n+1) S)
          else (if n' % 2 ≠ 0 then det g (n+1) S else - det g (n+1) S)
        (S, st.2.set m n' (r / d))) (S, R)).2 = l.foldl (fun R n' => R.set m n' (f m n')) R := by
    intro m hm l
    induction l with
    | nil => intro _ S R; rfl
    | cons b l ih =>
      intro hl S R
      rw [List.foldl_cons, List.foldl_cons]
      simp only [hind m b hm (hl b (List.mem_cons_self ..)) S]
      rw [ih (fun x hx => hl x (List.mem_cons_of_mem _ hx))]
  have houter : ∀ l : List Nat, (∀ x ∈ l, x < n + 2) → ∀ (st : Mat (n+1) (n+1) K × Mat (n+2) (n+2) K),
      (l.foldl (fun (st : Mat (n+1) (n+1) K × Mat (n+2) (n+2) K) m =>
        (List.range (n+2)).foldl (fun (st : Mat (n+1) (n+1) K × Mat (n+2) (n+2) K) n' =>
          let S := minor A m n' st.1
          let r := if m % 2 = 0 then (if n' % 2 ≠ 0 then - det g (n+1) S else det g (n+1) S)
            else (if n' % 2 ≠ 0 then det g (n+1) S else - det g (n+1) S)
          (S, st.2.set m n' (r / d))) st) st).2 =
      l.foldl (fun R m => (List.range (n+2)).foldl (fun R n' => R.set m n' (f m n')) R) st.2 := by
    intro l
    induction l with
    | nil => intro _ st; rfl
    | cons b l ih =>
      intro hl st
      rw [List.foldl_cons, List.foldl_cons, ih (fun x hx => hl x (List.mem_cons_of_mem _ hx))]
      rw [hinner b (hl b (List.mem_cons_self ..)) _ (fun x hx => List.mem_range.1 hx) st.1 st.2]
  have hc : cofactors g A d = loop f (g (n+2)) := by
    unfold cofactors loop
    rw [houter _ (fun x hx => List.mem_range.1 hx)]
  rw [hc, at_loop _ _ j.2 i.2, Matrix.adjugate_fin_succ_eq_det_submatrix]
  simp only [f]
  congr 1
  have hdet : det g (n+1) (minor A j i (g (n+1))) = ((toM A).submatrix j.succAbove i.succAbove).det := by
    rw [det_eq]
    congr 1
    ext y x
    simp only [toM, Matrix.submatrix_apply]
    rw [at_minor hp A j i j.2 i.2 _ y.2 x.2, skip_eq_succAbove, skip_eq_succAbove]
  rw [hdet]
  rcases Nat.mod_two_eq_zero_or_one j with hj | hj <;> rcases Nat.mod_two_eq_zero_or_one i with hi | hi
  · rw [Even.neg_one_pow (Nat.even_iff.2 (by omega))]; simp [hj, hi]
  · rw [Odd.neg_one_pow (Nat.odd_iff.2 (by omega))]; simp [hj, hi]
  · rw [Odd.neg_one_pow (Nat.odd_iff.2 (by omega))]; simp [hj, hi]
  · rw [Even.neg_one_pow (Nat.even_iff.2 (by omega))]; simp [hj, hi]

theorem isOrthogonal_iff {n : Nat} (A g : Mat n n K) :
    isOrthogonal A g = true ↔ toM A * (toM A).transpose = 1 := by
  unfold isOrthogonal
  rw [eqOp_iff, toM_mul, toM_transpose, toM_eye]

end ring

variable {K : Type} [Field K] [DecidableEq K]

theorem adj_inv {n : Nat} (A : Mat n n K) (B : Mat n n K) (hd : (toM A).det ≠ 0)
    (hB : ∀ i j : Fin n, B.at' i j = (toM A).adjugate i j / (toM A).det) :
    toM A * toM B = 1 ∧ toM B * toM A = 1 := by
  have hB' : toM B = (1 / (toM A).det) • (toM A).adjugate := by
    ext i j
    rw [Matrix.smul_apply, smul_eq_mul]
    change B.at' i j = _
    rw [hB i j]; ring
  rw [hB', Matrix.mul_smul, Matrix.smul_mul, Matrix.mul_adjugate, Matrix.adjugate_mul, smul_smul,
    one_div, inv_mul_cancel₀ hd, one_smul]
  exact ⟨rfl, rfl⟩

/-- **C48** (inverse) For sizes 2, 3 and every larger power of two: if the determinant is not zero `operator!`
returns a matrix which is the inverse from both sides, otherwise it throws.  For 1x1 matrices with a non-zero
element the same holds.  The full statement (all sizes) is refuted by `inverse_5x5_wrong` and
`inverse_1x1_no_fault`. -/
theorem inverse_right_partial (g : (k : Nat) → Mat k k K) (n : Nat) (A : Mat n n K)
    (hn : n = 3 ∨ ∃ k, 1 ≤ k ∧ n = 2 ^ k) :
    ((toM A).det ≠ 0 → ∃ B, inv g n A = .ok B ∧ toM A * toM B = 1 ∧ toM B * toM A = 1) ∧
    ((toM A).det = 0 → inv g n A = .fault) := by
  have h2 : 2 ≤ n := by
    rcases hn with rfl | ⟨k, hk, rfl⟩
    · omega
    · calc 2 = 2 ^ 1 := rfl
        _ ≤ 2 ^ k := Nat.pow_le_pow_right (by omega) hk
  obtain ⟨m, rfl⟩ : ∃ m, n = m + 2 := ⟨n - 2, by omega⟩
  have hdet : det g (m+2) A = (toM A).det := det_eq g (m+1) A
  constructor
  · intro hd
    unfold inv
    simp only [hdet]
    rw [if_neg hd]
    by_cases ho : isOrthogonal A (g (m+2)) = true
    · rw [if_pos ho]
      rw [isOrthogonal_iff] at ho
      refine ⟨_, rfl, ?_⟩
      rw [toM_transpose]
      exact ⟨ho, mul_eq_one_comm.1 ho⟩
    · rw [if_neg ho]
      match m, A, hn, hd, hdet with
      | 0, A, _, hd, hdet =>
        refine ⟨_, rfl, ?_⟩
        apply adj_inv A _ hd
        intro i j
        simp only [divS, at_loop _ _ i.2 j.2]
        congr 1
        rw [Matrix.adjugate_fin_two]
        fin_cases i <;> fin_cases j <;> simp [at_set, toM]
      | 1, A, _, hd, hdet =>
        refine ⟨_, rfl, ?_⟩
        apply adj_inv A _ hd
        intro i j
        simp only [divS, at_loop _ _ i.2 j.2]
        congr 1
        rw [Matrix.adjugate_fin_three]
        fin_cases i <;> fin_cases j <;> simp [at_set, toM] <;> ring
      | m+2, A, hn, hd, hdet =>
        obtain ⟨k, _, hk⟩ : ∃ k, 1 ≤ k ∧ m + 2 + 2 = 2 ^ k := by
          rcases hn with h | h
          · omega
          · exact h
        refine ⟨_, rfl, ?_⟩
        apply adj_inv A _ hd
        intro i j
        rw [at_transpose _ _ i.2 j.2]
        exact at_cofactors (n := m+2) hk g A _ i j
  · intro hd
    unfold inv
    simp only [hdet, if_pos hd]

/-- 1x1 matrices (line 1031). -/
theorem inverse_1x1 (g : (k : Nat) → Mat k k K) (A : Mat 1 1 K) (h : (toM A).det ≠ 0) :
    ∃ B, inv g 1 A = .ok B ∧ toM A * toM B = 1 ∧ toM B * toM A = 1 := by
  rw [Matrix.det_fin_one] at h
  have h' : A.at' 0 0 ≠ 0 := h
  refine ⟨⟨fun _ => 1 / A.at' 0 0⟩, by simp only [inv, if_neg h'], ?_, ?_⟩
  · ext i j
    have hi : i = 0 := Subsingleton.elim _ _
    have hj : j = 0 := Subsingleton.elim _ _
    subst hi hj
    rw [Matrix.mul_apply, Fin.sum_univ_one, Matrix.one_apply_eq]
    change A.at' 0 0 * (1 / A.at' 0 0) = 1
    rw [one_div, mul_inv_cancel₀ h']
  · ext i j
    have hi : i = 0 := Subsingleton.elim _ _
    have hj : j = 0 := Subsingleton.elim _ _
    subst hi hj
    rw [Matrix.mul_apply, Fin.sum_univ_one, Matrix.one_apply_eq]
    change (1 / A.at' 0 0) * A.at' 0 0 = 1
    rw [one_div, inv_mul_cancel₀ h']


example : (toM (⟨fun _ => 5⟩ : Mat 1 1 ℚ)).det ≠ 0 := by rw [Matrix.det_fin_one]; simp [toM, at']

/-- **C48 violated** (1x1): a zero matrix has determinant 0 but no fault is thrown; the result is infinite. -/
theorem inverse_1x1_no_fault (g : (k : Nat) → Mat k k K) :
    ∃ A : Mat 1 1 K, (toM A).det = 0 ∧ inv g 1 A = .infinite := by
  refine ⟨⟨fun _ => 0⟩, ?_, ?_⟩
  · simp [toM, at']
  · simp [inv, at']

/-! ### 5x5: `a & (M - 1)` with `M - 1 = 4` is always 0, so only row 0 of the minors is ever written -/

theorem minor5_rows (A : Mat 5 5 K) (m e : Nat) (S : Mat 4 4 K) {y x : Nat} (hy : 0 < y) (hy4 : y < 4) :
    (minor A m e S).at' y x = S.at' y x := by
  have hin : ∀ (u : Nat) (l : List Nat) (b : Nat) (S : Mat 4 4 K), ∃ b' S',
      l.foldl (fun (st : Nat × Nat × Mat 4 4 K) w =>
        if u ≠ m ∧ w ≠ e then (st.1, (st.2.1 + 1) % 4, st.2.2.set st.1 st.2.1 (A.at' u w)) else st) (0, b, S) =
        (0, b', S') ∧ S'.at' y x = S.at' y x := by
    intro u l
    induction l with
    | nil => intro b S; exact ⟨b, S, rfl, rfl⟩
    | cons w l ih =>
      intro b S
      rw [List.foldl_cons]
      by_cases h : u ≠ m ∧ w ≠ e
      · rw [if_pos h]
        obtain ⟨b', S', h1, h2⟩ := ih ((b + 1) % 4) (S.set 0 b (A.at' u w))
        refine ⟨b', S', h1, ?_⟩
        rw [h2, at_set _ _ (by omega) hy4, if_neg (by omega)]
      · rw [if_neg h]; exact ih b S
  have hout : ∀ (l : List Nat) (b : Nat) (S : Mat 4 4 K), ∃ b' S',
      l.foldl (fun (st : Nat × Nat × Mat 4 4 K) u =>
        let st := (List.range 5).foldl (fun (st : Nat × Nat × Mat 4 4 K) w =>
          if u ≠ m ∧ w ≠ e then (st.1, (st.2.1 + 1) % 4, st.2.2.set st.1 st.2.1 (A.at' u w)) else st) st
        if u ≠ m then ((st.1 + 1) &&& 4, st.2.1, st.2.2) else st) (0, b, S) = (0, b', S') ∧
        S'.at' y x = S.at' y x := by
    intro l
    induction l with
    | nil => intro b S; exact ⟨b, S, rfl, rfl⟩
    | cons u l ih =>
      intro b S
      rw [List.foldl_cons]
      obtain ⟨b1, S1, h1, h2⟩ := hin u (List.range 5) b S
      simp only [h1]
      obtain ⟨b', S', h3, h4⟩ := ih b1 S1
      refine ⟨b', S', ?_, by rw [h4, h2]⟩
      rw [← h3]
      by_cases h : u ≠ m
      · rw [if_pos h]; rfl
      · rw [if_neg h]
  obtain ⟨b', S', h1, h2⟩ := hout (List.range 5) 0 S
  unfold minor
  rw [h1]
  exact h2

/-- The diagonal matrix diag(2, 1, 1, 1, 1). -/
def diag5 : Mat 5 5 ℚ := ⟨fun i => if i = 0 then 2 else if i % 6 = 0 then 1 else 0⟩

theorem minor5_row0 (A : Mat 5 5 K) (m e : Nat) (hm : m < 4) (he : e < 5) (S : Mat 4 4 K) {x : Nat} (hx : x < 4) :
    (minor A m e S).at' 0 x = A.at' 4 (skip e x) := by
  have hrow : ∀ u (S : Mat 4 4 K), ∃ S',
      (List.range 5).foldl (fun (st : Nat × Nat × Mat 4 4 K) w =>
        if u ≠ m ∧ w ≠ e then (st.1, (st.2.1 + 1) % 4, st.2.2.set st.1 st.2.1 (A.at' u w)) else st) (0, 0, S) =
        (0, 0, S') ∧ (u ≠ m → ∀ x, x < 4 → S'.at' 0 x = A.at' u (skip e x)) := by
    intro u S
    by_cases hu : u = m
    · simp only [ne_eq, hu, not_true_eq_false, false_and, if_false]
      rw [fold_id]
      exact ⟨S, rfl, fun h => h.elim⟩
    · obtain ⟨S', h1, h2⟩ := minor_inner (n := 4) A u e he 0 (by omega) S 5 (le_refl _)
      have hc : cnt e 5 = 4 := cnt_full he
      rw [hc] at h1 h2
      simp only [ne_eq, hu, not_false_eq_true, true_and]
      simp only [ne_eq] at h1
      refine ⟨S', h1, fun _ x hx => ?_⟩
      rw [h2 0 x (by omega) hx, if_pos ⟨rfl, hx⟩]
  have hout : ∀ (l : List Nat) (S : Mat 4 4 K), ∃ S',
      l.foldl (fun (st : Nat × Nat × Mat 4 4 K) u =>
        let st := (List.range 5).foldl (fun (st : Nat × Nat × Mat 4 4 K) w =>
          if u ≠ m ∧ w ≠ e then (st.1, (st.2.1 + 1) % 4, st.2.2.set st.1 st.2.1 (A.at' u w)) else st) st
        if u ≠ m then ((st.1 + 1) &&& 4, st.2.1, st.2.2) else st) (0, 0, S) = (0, 0, S') := by
    intro l
    induction l with
    | nil => intro S; exact ⟨S, rfl⟩
    | cons u l ih =>
      intro S
      rw [List.foldl_cons]
      obtain ⟨S1, h1, _⟩ := hrow u S
      simp only [h1]
      obtain ⟨S', h3⟩ := ih S1
      refine ⟨S', ?_⟩
      rw [← h3]
      by_cases h : u ≠ m
      · rw [if_pos h]; rfl
      · rw [if_neg h]
  obtain ⟨S1, h1⟩ := hout (List.range 4) S
  obtain ⟨S2, h2, h3⟩ := hrow 4 S1
  have hl : ∀ (F : Nat × Nat × Mat 4 4 K → Nat → Nat × Nat × Mat 4 4 K) s,
      (List.range (4 + 1)).foldl F s = F ((List.range 4).foldl F s) 4 := by
    intro F s; rw [List.range_succ, List.foldl_append]; rfl
  have hfold : (minor A m e S) = S2 := by
    change ((List.range (4 + 1)).foldl (fun (st : Nat × Nat × Mat 4 4 K) u =>
        let st := (List.range 5).foldl (fun (st : Nat × Nat × Mat 4 4 K) w =>
          if u ≠ m ∧ w ≠ e then (st.1, (st.2.1 + 1) % 4, st.2.2.set st.1 st.2.1 (A.at' u w)) else st) st
        if u ≠ m then ((st.1 + 1) &&& 4, st.2.1, st.2.2) else st) (0, 0, S)).2.2 = S2
    rw [hl, h1]
    simp only [h2]
    by_cases h : 4 ≠ m
    · rw [if_pos h]
    · rw [if_neg h]
  rw [hfold]
  exact h3 (by omega) x hx

/-- Every element of the cofactor matrix comes from a minor whose rows 1..3 are uninitialised memory. -/
theorem cofactors5 (g : (k : Nat) → Mat k k K) (A : Mat 5 5 K) (d : K) (m n : Nat) (hm : m < 5) (hn : n < 5)
    (he : m % 2 = n % 2) :
    ∃ S : Mat 4 4 K, (∀ y x, 0 < y → y < 4 → S.at' y x = (g 4).at' y x) ∧
      (cofactors g A d).at' m n = det g 4 (minor A m n S) / d := by
  let P : K → Prop := fun v => ∃ S : Mat 4 4 K, (∀ y x, 0 < y → y < 4 → S.at' y x = (g 4).at' y x) ∧
      v = det g 4 (minor A m n S) / d
  let body : Nat → Mat 4 4 K × Mat 5 5 K → Nat → Mat 4 4 K × Mat 5 5 K := fun m st n' =>
        let S := minor A m n' st.1
        let r := if m % 2 = 0 then (if n' % 2 ≠ 0 then - det g 4 S else det g 4 S)
          else (if n' % 2 ≠ 0 then det g 4 S else - det g 4 S)
        (S, st.2.set m n' (r / d))
  have hin : ∀ m', m' < 5 → ∀ (l : List Nat) (st : Mat 4 4 K × Mat 5 5 K),
      (∀ y x, 0 < y → y < 4 → st.1.at' y x = (g 4).at' y x) →
      (∀ y x, 0 < y → y < 4 → (l.foldl (body m') st).1.at' y x = (g 4).at' y x) ∧
      ((m' = m ∧ n ∈ l) ∨ P (st.2.at' m n) → P ((l.foldl (body m') st).2.at' m n)) := by
    intro m' hm' l
    induction l with
    | nil => intro st h; exact ⟨h, by simp⟩
    | cons b l ih =>
      intro st h
      rw [List.foldl_cons]
      have h' : ∀ y x, 0 < y → y < 4 → (body m' st b).1.at' y x = (g 4).at' y x := by
        intro y x hy hy4
        change (minor A m' b st.1).at' y x = _
        rw [minor5_rows _ _ _ _ hy hy4, h y x hy hy4]
      obtain ⟨i1, i2⟩ := ih (body m' st b) h'
      refine ⟨i1, fun hc => i2 ?_⟩
      by_cases hb : m' = m ∧ b = n
      · right
        obtain ⟨rfl, rfl⟩ := hb
        refine ⟨st.1, h, ?_⟩
        change (st.2.set m' b _).at' m' b = _
        rw [at_set _ _ hm' hm', if_pos ⟨rfl, rfl⟩]
        congr 1
        rcases Nat.mod_two_eq_zero_or_one m' with h0 | h0
        · simp [h0, ← he]
        · simp [h0, ← he]
      · rcases hc with ⟨h1, h2⟩ | hP
        · left
          refine ⟨h1, ?_⟩
          rcases List.mem_cons.1 h2 with h3 | h3
          · exact absurd ⟨h1, h3.symm⟩ hb
          · exact h3
        · right
          change P ((st.2.set m' b _).at' m n)
          rw [at_set _ _ hm' hm, if_neg (by rintro ⟨h1, h2⟩; exact hb ⟨h1.symm, h2.symm⟩)]
          exact hP
  have hout : ∀ (l : List Nat), (∀ x ∈ l, x < 5) → ∀ (st : Mat 4 4 K × Mat 5 5 K),
      (∀ y x, 0 < y → y < 4 → st.1.at' y x = (g 4).at' y x) →
      m ∈ l ∨ P (st.2.at' m n) →
      P ((l.foldl (fun st m' => (List.range 5).foldl (body m') st) st).2.at' m n) := by
    intro l
    induction l with
    | nil => intro _ st _ h; simpa using h
    | cons b l ih =>
      intro hl st h hc
      rw [List.foldl_cons]
      obtain ⟨i1, i2⟩ := hin b (hl b (List.mem_cons_self ..)) (List.range 5) st h
      apply ih (fun x hx => hl x (List.mem_cons_of_mem _ hx)) _ i1
      rcases hc with h1 | hP
      · rcases List.mem_cons.1 h1 with h2 | h2
        · right; exact i2 (Or.inl ⟨h2.symm, List.mem_range.2 hn⟩)
        · left; exact h2
      · right; exact i2 (Or.inr hP)
  exact hout (List.range 5) (fun x hx => List.mem_range.1 hx) (g 4, g 5) (fun _ _ _ _ => rfl)
    (Or.inl (List.mem_range.2 hm))

theorem diag5_det : (toM diag5).det = 2 := by
  have h : toM diag5 = Matrix.diagonal ![2, 1, 1, 1, 1] := by
    ext i j
    fin_cases i <;> fin_cases j <;> rfl
  rw [h, Matrix.det_diagonal]
  simp [Fin.prod_univ_succ]

/-- **C48 violated** (5x5): whatever the uninitialised memory contains, `operator!` returns a matrix for
diag(2, 1, 1, 1, 1) which is not its inverse. -/
theorem inverse_5x5_wrong (g : (k : Nat) → Mat k k ℚ) :
    (toM diag5).det ≠ 0 ∧ ∃ B, inv g 5 diag5 = .ok B ∧ toM diag5 * toM B ≠ 1 := by
  refine ⟨by rw [diag5_det]; norm_num, ?_⟩
  have hdet : det g 5 diag5 = 2 := by rw [det_eq g 4, diag5_det]
  have hno : isOrthogonal diag5 (g 5) = false := by
    rw [Bool.eq_false_iff, ne_eq, isOrthogonal_iff]
    intro h
    have := congrFun (congrFun h 0) 0
    simp [Matrix.mul_apply, Fin.sum_univ_succ, toM, at', diag5] at this
    norm_num at this
  have hinv : inv g 5 diag5 = .ok (transpose (cofactors g diag5 2) (g 5)) := by
    unfold inv
    simp only [hdet, hno]
    norm_num
  refine ⟨_, hinv, ?_⟩
  intro h
  have hd : ∀ m n, m < 5 → n < 5 → diag5.at' m n = if m = n then (if m = 0 then 2 else 1) else 0 := by
    intro m n hm hn
    interval_cases m <;> interval_cases n <;> simp [at', diag5]
  -- the products at (0,0) and (1,1)
  have hp : ∀ i : Fin 5, diag5.at' i i * (cofactors g diag5 2).at' i i = 1 := by
    intro i
    have := congrFun (congrFun h i) i
    rw [Matrix.mul_apply, Matrix.one_apply_eq, Finset.sum_eq_single i] at this
    · change diag5.at' i i * (transpose (cofactors g diag5 2) (g 5)).at' i i = 1 at this
      rwa [at_transpose _ _ i.2 i.2] at this
    · intro b _ hb
      change diag5.at' i b * _ = 0
      rw [hd i b i.2 b.2, if_neg (fun h => hb (Fin.ext h.symm)), zero_mul]
    · intro h; exact absurd (Finset.mem_univ _) h
  have h00 := hp 0
  have h11 := hp 1
  change diag5.at' 0 0 * (cofactors g diag5 2).at' 0 0 = 1 at h00
  change diag5.at' 1 1 * (cofactors g diag5 2).at' 1 1 = 1 at h11
  rw [hd 0 0 (by omega) (by omega)] at h00
  rw [hd 1 1 (by omega) (by omega)] at h11
  -- both come from minors with equal entries
  obtain ⟨S0, hS0, hc0⟩ := cofactors5 g diag5 2 0 0 (by omega) (by omega) rfl
  obtain ⟨S1, hS1, hc1⟩ := cofactors5 g diag5 2 1 1 (by omega) (by omega) rfl
  have heq : det g 4 (minor diag5 0 0 S0) = det g 4 (minor diag5 1 1 S1) := by
    rw [det_eq g 3, det_eq g 3]
    refine congrArg Matrix.det (Matrix.ext fun y x => ?_)
    change (minor diag5 0 0 S0).at' y x = (minor diag5 1 1 S1).at' y x
    by_cases hy : 0 < (y : Nat)
    · rw [minor5_rows _ _ _ _ hy y.2, minor5_rows _ _ _ _ hy y.2, hS0 _ _ hy y.2, hS1 _ _ hy y.2]
    · have hy0 : (y : Nat) = 0 := by omega
      rw [hy0, minor5_row0 diag5 0 0 (by omega) (by omega) S0 x.2, minor5_row0 diag5 1 1 (by omega) (by omega) S1 x.2]
      have hx := x.2
      have hs0 : skip 0 x < 5 := by unfold skip; split <;> omega
      have hs1 : skip 1 x < 5 := by unfold skip; split <;> omega
      rw [hd 4 _ (by omega) hs0, hd 4 _ (by omega) hs1]
      have : (4 = skip 0 (x : Nat)) ↔ (4 = skip 1 (x : Nat)) := by unfold skip; split <;> split <;> omega
      simp only [this]
  rw [hc0, heq] at h00
  rw [hc1] at h11
  norm_num at h00 h11
  linarith

/-- Non-vacuity of `inverse_right_partial`: a regular, non-orthogonal 4x4 matrix; size 4 takes the general
branch. -/
example : (toM (⟨fun i => if i % 5 = 0 then 2 else 0⟩ : Mat 4 4 ℚ)).det ≠ 0 := by
  have h : toM (⟨fun i => if i % 5 = 0 then 2 else 0⟩ : Mat 4 4 ℚ) = Matrix.diagonal ![2, 2, 2, 2] := by
    ext i j
    fin_cases i <;> fin_cases j <;> rfl
  rw [h, Matrix.det_diagonal]
  simp [Fin.prod_univ_succ]

end Verif.Math.Mat
