import Verif.Math.RankProps
/-!
The result of `Matrix::rank` (includes/eeros/math/Matrix.hpp:363-376, 826-874; model in Rank.lean) for matrices with two rows and two columns.
-/
namespace Verif.Math.Mat
variable {K : Type} [Field K] [DecidableEq K]

theorem rank_value (A : Mat 2 2 K) (a b c d : K) (ha : A.value 0 = a) (hb : A.value 1 = b) (hc : A.value 2 = c) (hd : A.value 3 = d) :
    rank A = if a ≠ 0 then (if a * d - b * c = 0 then 1 else 2)
      else if b ≠ 0 then (if c = 0 then 1 else 2)
      else (if c = 0 then 0 else 1) + (if d = 0 then 0 else 1) := by
  by_cases h0 : a = 0
  · subst h0
    by_cases h1 : b = 0
    · subst h1
      by_cases h2 : c = 0 <;> by_cases h3 : d = 0 <;>
      simp [rank, gauss, sort, sortInner, swapRows, elimCol, elimRow, at', set, put, List.range_succ, List.range'_succ, ha, hb, hc, hd, h2, h3]
    · by_cases h2 : c = 0 <;> by_cases h3 : d = 0 <;>
      simp [rank, gauss, sort, sortInner, swapRows, elimCol, elimRow, at', set, put, List.range_succ, List.range'_succ, ha, hb, hc, hd, h1, h2, h3]
  · by_cases h1 : b = 0
    · subst h1
      simp [rank, gauss, sort, sortInner, swapRows, elimCol, elimRow, at', set, put, List.range_succ, List.range'_succ, ha, hb, hc, hd, h0]
      try split_ifs <;> simp_all
    · simp [rank, gauss, sort, sortInner, swapRows, elimCol, elimRow, at', set, put, List.range_succ, List.range'_succ, ha, hb, hc, hd, h0, h1]
      have hk : a * d - b * c = a * (d - b / a * c) := by field_simp
      rw [hk]
      simp only [mul_eq_zero, h0, false_or]

/-- The rank of a matrix with two rows and columns. -/
theorem rank_two (B : Matrix (Fin 2) (Fin 2) K) : B.rank = if B.det ≠ 0 then 2 else if B = 0 then 0 else 1 := by
  split_ifs with h1 h2
  · have := Matrix.rank_of_isUnit B ((Matrix.isUnit_iff_isUnit_det _).2 (isUnit_iff_ne_zero.2 h1))
    rwa [Fintype.card_fin] at this
  · rw [h2, Matrix.rank_zero]
  · have hle : B.rank ≤ 2 := by have := Matrix.rank_le_height B; omega
    have h0 : B.rank ≠ 0 := by
      intro h
      rw [Matrix.rank, Module.finrank_eq_zero_iff_of_free, Submodule.subsingleton_iff_eq_bot, LinearMap.range_eq_bot] at h
      refine h2 ?_
      ext i j
      have := congrFun (LinearMap.congr_fun h (Pi.single j 1)) i
      simpa using this
    have hn2 : B.rank ≠ 2 := by
      intro hr
      have hli : LinearIndependent K B.row := by
        rw [linearIndependent_iff_card_eq_finrank_span]
        rw [Matrix.rank_eq_finrank_span_row] at hr
        simp only [Set.finrank, Fintype.card_fin]
        exact hr.symm
      have := Matrix.linearIndependent_rows_iff_isUnit.1 hli
      rw [Matrix.isUnit_iff_isUnit_det] at this
      exact h1 (isUnit_iff_ne_zero.1 this)
    omega

/-- **C277.** For a matrix with two rows and two columns the result is the rank, except exactly if the first column is zero and both elements of the second one are not. -/
theorem rank_right_iff (A : Mat 2 2 K) : rank A = (toM A).rank ↔ ¬ (toM A 0 0 = 0 ∧ toM A 1 0 = 0 ∧ toM A 0 1 ≠ 0 ∧ toM A 1 1 ≠ 0) := by
  have e00 : toM A 0 0 = A.value 0 := rfl
  have e10 : toM A 1 0 = A.value 1 := rfl
  have e01 : toM A 0 1 = A.value 2 := rfl
  have e11 : toM A 1 1 = A.value 3 := rfl
  have hz : toM A = 0 ↔ A.value 0 = 0 ∧ A.value 1 = 0 ∧ A.value 2 = 0 ∧ A.value 3 = 0 := by
    rw [← e00, ← e10, ← e01, ← e11]
    constructor
    · intro h; simp [h]
    · rintro ⟨h1, h2, h3, h4⟩
      ext i j
      fin_cases i <;> fin_cases j <;> assumption
  rw [rank_two, Matrix.det_fin_two, e00, e10, e01, e11, rank_value A _ _ _ _ rfl rfl rfl rfl]
  simp only [hz]
  generalize A.value 0 = a
  generalize A.value 1 = b
  generalize A.value 2 = c
  generalize A.value 3 = d
  by_cases h0 : a = 0
  · subst h0
    by_cases h1 : b = 0 <;> by_cases h2 : c = 0 <;> by_cases h3 : d = 0 <;> simp_all
  · have hc : a * d - b * c = a * d - c * b := by ring
    rw [hc]
    by_cases h : a * d - c * b = 0 <;> simp [h0, h]

/-- **C49, violated**, for every such matrix: `rank()` returns 2 although the rank is 1. -/
theorem rank_over_violated (A : Mat 2 2 K) (h : toM A 0 0 = 0 ∧ toM A 1 0 = 0 ∧ toM A 0 1 ≠ 0 ∧ toM A 1 1 ≠ 0) : rank A = 2 ∧ (toM A).rank = 1 := by
  obtain ⟨h1, h2, h3, h4⟩ := h
  constructor
  · rw [rank_value A _ _ _ _ rfl rfl rfl rfl]
    have e1 : A.value 0 = 0 := h1
    have e2 : A.value 1 = 0 := h2
    have e3 : A.value 2 ≠ 0 := h3
    have e4 : A.value 3 ≠ 0 := h4
    simp [e1, e2, e3, e4]
  · rw [rank_two, Matrix.det_fin_two, h1, h2]
    have : toM A ≠ 0 := fun hc => h3 (by rw [hc]; rfl)
    simp [this]

example : rank over = 2 ∧ (toM over).rank = 1 := rank_over_violated over (by decide +kernel)

/-- [[0,3],[2,5]] -/
example : rank (⟨fun i => [0, 2, 3, 5].getD i 0⟩ : Mat 2 2 ℚ) = (toM (⟨fun i => [0, 2, 3, 5].getD i 0⟩ : Mat 2 2 ℚ)).rank := by
  rw [rank_right_iff]
  decide +kernel

end Verif.Math.Mat
