/-
C48: the sizes for which `operator!` gives the inverse.  The index of the row in the minors is reduced by `a & (M - 1)`
(`/repo/includes/eeros/math/Matrix.hpp` 722), which is right for powers of two only.  Here: for every other size above
three it is wrong, whatever the uninitialised memory contains.
-/
import Verif.Math.InverseProps
import Mathlib.Algebra.Ring.Parity
import Mathlib.Data.Nat.Factorization.Basic
import Mathlib.Tactic.Linarith

namespace Verif.Math.Mat

theorem and_low {n r j x : Nat} (h : n + 1 = 2 ^ j * (2 * r + 1)) (hx : x < 2 ^ j) : x &&& n = x := by
  apply Nat.eq_of_testBit_eq
  intro i
  rw [Nat.testBit_and]
  by_cases hi : i < j
  · have hn : n.testBit i = true := by
      have h1 : n % 2 ^ j = 2 ^ j - 1 := by
        have h0 : 0 < 2 ^ j := Nat.two_pow_pos j
        have : n = 2 ^ j * (2 * r) + (2 ^ j - 1) := by rw [Nat.mul_add, Nat.mul_one] at h; omega
        rw [this, Nat.mul_add_mod, Nat.mod_eq_of_lt (by omega)]
      have h2 : (n % 2 ^ j).testBit i = n.testBit i := by rw [Nat.testBit_mod_two_pow]; simp [hi]
      rw [← h2, h1, Nat.testBit_two_pow_sub_one]
      simpa using hi
    rw [hn, Bool.and_true]
  · have : x.testBit i = false := Nat.testBit_eq_false_of_lt (Nat.lt_of_lt_of_le hx (Nat.pow_le_pow_right (by omega) (by omega)))
    rw [this, Bool.false_and]

theorem and_top {n r j : Nat} (h : n + 1 = 2 ^ j * (2 * r + 1)) : 2 ^ j &&& n = 0 := by
  apply Nat.eq_of_testBit_eq
  intro i
  rw [Nat.testBit_and, Nat.testBit_two_pow, Nat.zero_testBit]
  by_cases hi : j = i
  · subst hi
    have h1 : n % 2 ^ (j + 1) = 2 ^ j - 1 := by
      have h0 : 0 < 2 ^ j := Nat.two_pow_pos j
      have : n = 2 ^ (j + 1) * r + (2 ^ j - 1) := by
        rw [Nat.mul_add, Nat.mul_one, ← Nat.mul_assoc, ← Nat.pow_succ] at h
        simp only [Nat.succ_eq_add_one] at h
        omega
      rw [this, Nat.mul_add_mod, Nat.mod_eq_of_lt (by rw [Nat.pow_succ]; omega)]
    have h2 : (n % 2 ^ (j + 1)).testBit j = n.testBit j := by rw [Nat.testBit_mod_two_pow]; simp
    rw [← h2, h1, Nat.testBit_two_pow_sub_one]
    simp
  · simp [hi]

/-- The row index of the minors counts modulo the largest power of two which divides the size. -/
theorem next_row {n r j c : Nat} (h : n + 1 = 2 ^ j * (2 * r + 1)) : (c % 2 ^ j + 1) &&& n = (c + 1) % 2 ^ j := by
  have h0 : 0 < 2 ^ j := Nat.two_pow_pos j
  have hl := Nat.mod_lt c h0
  rw [Nat.add_mod c 1]
  by_cases he : c % 2 ^ j + 1 = 2 ^ j
  · rw [he, and_top h]
    by_cases h1 : 2 ^ j = 1
    · rw [h1, Nat.mod_one]
    · rw [Nat.mod_eq_of_lt (show 1 < 2 ^ j by omega), he, Nat.mod_self]
  · rw [and_low h (by omega), Nat.mod_eq_of_lt (show 1 < 2 ^ j by omega), Nat.mod_eq_of_lt (a := c % 2 ^ j + 1) (by omega)]

variable {K : Type} [Field K] [DecidableEq K]

/-- What the loop for one minor leaves behind: the last `P` rows of the minor, in the first `P` rows; the others are not written. -/
theorem minor_rows {n r j : Nat} (h : n + 1 = 2 ^ j * (2 * r + 1)) (hr : 0 < r) (A : Mat (n+1) (n+1) K) (m e : Nat) (hm : m < n + 1) (he : e < n + 1) (S : Mat n n K) :
    (∀ y x, 2 ^ j ≤ y → y < n → x < n → (minor A m e S).at' y x = S.at' y x) ∧
      ∀ i x, i < n → n ≤ i + 2 ^ j → x < n → (minor A m e S).at' (i % 2 ^ j) x = A.at' (skip m i) (skip e x) := by
  have h0 : 0 < 2 ^ j := Nat.two_pow_pos j
  have hPn : 2 ^ j < n := by
    have : 2 ^ j * 3 ≤ 2 ^ j * (2 * r + 1) := Nat.mul_le_mul_left _ (by omega)
    omega
  have key : ∀ t, t ≤ n + 1 → ∃ S',
      (List.range t).foldl (fun (st : Nat × Nat × Mat n n K) u =>
        let st := (List.range (n+1)).foldl (fun (st : Nat × Nat × Mat n n K) w =>
          if u ≠ m ∧ w ≠ e then (st.1, (st.2.1 + 1) % n, st.2.2.set st.1 st.2.1 (A.at' u w)) else st) st
        if u ≠ m then ((st.1 + 1) &&& n, st.2.1, st.2.2) else st) (0, 0, S) = (cnt m t % 2 ^ j, 0, S') ∧
      (∀ y x, 2 ^ j ≤ y → y < n → x < n → S'.at' y x = S.at' y x) ∧
      ∀ i x, i < cnt m t → cnt m t ≤ i + 2 ^ j → x < n → S'.at' (i % 2 ^ j) x = A.at' (skip m i) (skip e x) := by
    intro t
    induction t with
    | zero => intro _; exact ⟨S, by simp [cnt], fun _ _ _ _ _ => rfl, by simp [cnt]⟩
    | succ t ih =>
      intro ht
      obtain ⟨S', h1, h2, h3⟩ := ih (by omega)
      rw [List.range_succ (n := t), List.foldl_append, h1, List.foldl_cons, List.foldl_nil]
      by_cases htm : t = m
      · subst htm
        simp only [ne_eq, not_true_eq_false, false_and, if_false, cnt_succ_eq]
        rw [fold_id]
        exact ⟨S', rfl, h2, h3⟩
      · have ha := Nat.mod_lt (cnt m t) h0
        obtain ⟨S'', h4, h5⟩ := minor_inner A t e he (cnt m t % 2 ^ j) (by omega) S' (n+1) (le_refl _)
        simp only [ne_eq, htm, not_false_eq_true, true_and, if_true, cnt_succ_ne htm]
        simp only [ne_eq] at h4
        rw [h4, cnt_full he, Nat.mod_self]
        refine ⟨S'', ?_, ?_, ?_⟩
        · simp only
          rw [next_row h]
        · intro y x hy hyn hx
          rw [h5 y x hyn hx, if_neg (by omega), h2 y x hy hyn hx]
        · intro i x hi hi' hx
          have hiP := Nat.mod_lt i h0
          rw [h5 _ x (by omega) hx, cnt_full he]
          by_cases hic : i = cnt m t
          · rw [if_pos ⟨by rw [hic], hx⟩, hic, skip_cnt htm]
          · rw [if_neg, h3 i x (by omega) (by omega) hx]
            rintro ⟨hmod, _⟩
            have hd : 2 ^ j ∣ cnt m t - i := (Nat.modEq_iff_dvd' (by omega)).1 hmod
            have := Nat.le_of_dvd (by omega) hd
            omega
  obtain ⟨S', h1, h2, h3⟩ := key (n+1) (le_refl _)
  have hS : minor A m e S = S' := by
    unfold minor
    rw [h1]
  rw [hS]
  rw [cnt_full hm] at h3
  exact ⟨h2, h3⟩

/-- Elements on the diagonal of the matrix of cofactors: they come from a minor whose lower rows are uninitialised memory. -/
theorem cofactors_diag {n r j : Nat} (h : n + 1 = 2 ^ j * (2 * r + 1)) (hr : 0 < r) (g : (k : Nat) → Mat k k K) (A : Mat (n+1) (n+1) K) (d : K) (m : Nat) (hm : m < n + 1) :
    ∃ S : Mat n n K, (∀ y x, 2 ^ j ≤ y → y < n → x < n → S.at' y x = (g n).at' y x) ∧
      (cofactors g A d).at' m m = det g n (minor A m m S) / d := by
  let I : Mat n n K → Prop := fun S => ∀ y x, 2 ^ j ≤ y → y < n → x < n → S.at' y x = (g n).at' y x
  let P : K → Prop := fun v => ∃ S : Mat n n K, I S ∧ v = det g n (minor A m m S) / d
  let body : Nat → Mat n n K × Mat (n+1) (n+1) K → Nat → Mat n n K × Mat (n+1) (n+1) K := fun m st n' =>
        let S := minor A m n' st.1
        let r := if m % 2 = 0 then (if n' % 2 ≠ 0 then - det g n S else det g n S)
          else (if n' % 2 ≠ 0 then det g n S else - det g n S)
        (S, st.2.set m n' (r / d))
  have hin : ∀ m', m' < n + 1 → ∀ (l : List Nat), (∀ x ∈ l, x < n + 1) → ∀ (st : Mat n n K × Mat (n+1) (n+1) K), I st.1 →
      I (l.foldl (body m') st).1 ∧ ((m' = m ∧ m ∈ l) ∨ P (st.2.at' m m) → P ((l.foldl (body m') st).2.at' m m)) := by
    intro m' hm' l
    induction l with
    | nil => intro _ st hI; exact ⟨hI, by simp⟩
    | cons b l ih =>
      intro hl st hI
      rw [List.foldl_cons]
      have hI' : I (body m' st b).1 := by
        intro y x hy hyn hx
        change (minor A m' b st.1).at' y x = _
        rw [(minor_rows h hr A m' b hm' (hl b (List.mem_cons_self ..)) st.1).1 y x hy hyn hx, hI y x hy hyn hx]
      obtain ⟨i1, i2⟩ := ih (fun x hx => hl x (List.mem_cons_of_mem _ hx)) (body m' st b) hI'
      refine ⟨i1, fun hc => i2 ?_⟩
      by_cases hb : m' = m ∧ b = m
      · right
        obtain ⟨rfl, rfl⟩ := hb
        refine ⟨st.1, hI, ?_⟩
        change (st.2.set b b _).at' b b = _
        rw [at_set _ _ hm' hm', if_pos ⟨rfl, rfl⟩]
        congr 1
        rcases Nat.mod_two_eq_zero_or_one b with h0 | h0 <;> simp [h0]
      · rcases hc with ⟨h1, h2⟩ | hP
        · left
          refine ⟨h1, ?_⟩
          rcases List.mem_cons.1 h2 with h3 | h3
          · exact absurd ⟨h1, h3.symm⟩ hb
          · exact h3
        · right
          change P ((st.2.set m' b _).at' m m)
          rw [at_set _ _ hm' hm, if_neg (by rintro ⟨h1, h2⟩; exact hb ⟨h1.symm, h2.symm⟩)]
          exact hP
  have hout : ∀ (l : List Nat), (∀ x ∈ l, x < n + 1) → ∀ (st : Mat n n K × Mat (n+1) (n+1) K), I st.1 →
      m ∈ l ∨ P (st.2.at' m m) →
      P ((l.foldl (fun st m' => (List.range (n+1)).foldl (body m') st) st).2.at' m m) := by
    intro l
    induction l with
    | nil => intro _ st _ h; simpa using h
    | cons b l ih =>
      intro hl st hI hc
      rw [List.foldl_cons]
      obtain ⟨i1, i2⟩ := hin b (hl b (List.mem_cons_self ..)) (List.range (n+1)) (fun x hx => List.mem_range.1 hx) st hI
      apply ih (fun x hx => hl x (List.mem_cons_of_mem _ hx)) _ i1
      rcases hc with h1 | hP
      · rcases List.mem_cons.1 h1 with h2 | h2
        · right; exact i2 (Or.inl ⟨h2.symm, List.mem_range.2 hm⟩)
        · left; exact h2
      · right; exact i2 (Or.inr hP)
  exact hout (List.range (n+1)) (fun x hx => List.mem_range.1 hx) (g n, g (n+1)) (fun _ _ _ _ _ => rfl)
    (Or.inl (List.mem_range.2 hm))

/-- The diagonal matrix diag(2, 1, ..., 1). -/
def diag2 (n : Nat) : Mat n n ℚ := ⟨fun i => if i % n = i / n then (if i = 0 then 2 else 1) else 0⟩

theorem at_diag2 {n i j : Nat} (hi : i < n) : (diag2 n).at' i j = if i = j then (if i = 0 then 2 else 1) else 0 := by
  unfold at' diag2
  simp only
  rw [Nat.mul_add_mod, Nat.mod_eq_of_lt hi, Nat.mul_add_div (by omega), Nat.div_eq_of_lt hi, Nat.add_zero]
  by_cases h : i = j
  · subst h
    rw [if_pos rfl, if_pos rfl]
    by_cases h0 : i = 0
    · subst h0; simp
    · rw [if_neg (by omega), if_neg h0]
  · rw [if_neg h, if_neg h]

theorem toM_diag2 (n : Nat) : toM (diag2 n) = Matrix.diagonal fun i : Fin n => if i.val = 0 then (2 : ℚ) else 1 := by
  ext i j
  change (diag2 n).at' i j = _
  rw [at_diag2 i.2, Matrix.diagonal_apply]
  simp only [Fin.ext_iff]

theorem det_diag2 (n : Nat) : (toM (diag2 (n + 1))).det = 2 := by
  rw [toM_diag2, Matrix.det_diagonal, Fin.prod_univ_succ]
  simp

/-- **C48 violated**: for every size above four which is not a power of two `operator!` returns a matrix for diag(2, 1, ..., 1) which is not its inverse, whatever the uninitialised memory contains. -/
theorem inverse_wrong (n : Nat) (hn : 5 ≤ n) (hp : ∀ k, n ≠ 2 ^ k) (g : (k : Nat) → Mat k k ℚ) :
    (toM (diag2 n)).det ≠ 0 ∧ ∃ B, inv g n (diag2 n) = .ok B ∧ toM (diag2 n) * toM B ≠ 1 := by
  obtain ⟨n, rfl⟩ : ∃ m, n = m + 4 := ⟨n - 4, by omega⟩
  refine ⟨by rw [det_diag2]; norm_num, ?_⟩
  have hdet : det g (n+4) (diag2 (n+4)) = 2 := by rw [det_eq g (n+3), det_diag2]
  have hno : isOrthogonal (diag2 (n+4)) (g (n+4)) = false := by
    rw [Bool.eq_false_iff, ne_eq, isOrthogonal_iff, toM_diag2, Matrix.diagonal_transpose, Matrix.diagonal_mul_diagonal]
    intro h
    have := congrFun (congrFun h 0) 0
    rw [Matrix.diagonal_apply_eq, Matrix.one_apply_eq] at this
    norm_num at this
  have hinv : inv g (n+4) (diag2 (n+4)) = .ok (transpose (cofactors g (diag2 (n+4)) 2) (g (n+4))) := by
    unfold inv
    simp only [hdet, hno]
    norm_num
  refine ⟨_, hinv, ?_⟩
  intro hB
  obtain ⟨j, q, hq, hjq⟩ := Nat.exists_eq_two_pow_mul_odd (n := n + 4) (by omega)
  obtain ⟨r, rfl⟩ := hq
  have hr : 0 < r := by
    rcases Nat.eq_zero_or_pos r with h0 | h0
    · exact absurd (by rw [hjq, h0]; simp) (hp j)
    · exact h0
  have h : (n + 3) + 1 = 2 ^ j * (2 * r + 1) := hjq
  have h0 : 0 < 2 ^ j := Nat.two_pow_pos j
  have hPn : 2 ^ j * 2 < n + 4 := by
    have : 2 ^ j * 3 ≤ 2 ^ j * (2 * r + 1) := Nat.mul_le_mul_left _ (by omega)
    omega
  have hp : ∀ i : Fin (n+4), (diag2 (n+4)).at' i i * (cofactors g (diag2 (n+4)) 2).at' i i = 1 := by
    intro i
    have := congrFun (congrFun hB i) i
    rw [toM_diag2, Matrix.diagonal_mul, Matrix.one_apply_eq] at this
    change _ * (transpose (cofactors g (diag2 (n+4)) 2) (g (n+4))).at' i i = 1 at this
    rw [at_transpose _ _ i.2 i.2] at this
    rw [at_diag2 i.2, if_pos rfl]
    exact this
  have h00 := hp ⟨0, by omega⟩
  have h11 := hp ⟨1, by omega⟩
  simp only at h00 h11
  rw [at_diag2 (by omega), if_pos rfl, if_pos rfl] at h00
  rw [at_diag2 (by omega), if_pos rfl, if_neg (by omega)] at h11
  obtain ⟨S0, hS0, hc0⟩ := cofactors_diag h hr g (diag2 (n+4)) 2 0 (by omega)
  obtain ⟨S1, hS1, hc1⟩ := cofactors_diag h hr g (diag2 (n+4)) 2 1 (by omega)
  have heq : det g (n+3) (minor (diag2 (n+4)) 0 0 S0) = det g (n+3) (minor (diag2 (n+4)) 1 1 S1) := by
    rw [det_eq g (n+2), det_eq g (n+2)]
    refine congrArg Matrix.det (Matrix.ext fun y x => ?_)
    change (minor (diag2 (n+4)) 0 0 S0).at' y x = (minor (diag2 (n+4)) 1 1 S1).at' y x
    obtain ⟨a1, a2⟩ := minor_rows h hr (diag2 (n+4)) 0 0 (by omega) (by omega) S0
    obtain ⟨b1, b2⟩ := minor_rows h hr (diag2 (n+4)) 1 1 (by omega) (by omega) S1
    by_cases hy : 2 ^ j ≤ (y : Nat)
    · rw [a1 y x hy y.2 x.2, b1 y x hy y.2 x.2, hS0 y x hy y.2 x.2, hS1 y x hy y.2 x.2]
    · -- the row of the minor which was written last
      obtain ⟨i, hi1, hi2, hi3⟩ : ∃ i, i < n + 3 ∧ n + 3 ≤ i + 2 ^ j ∧ i % 2 ^ j = y := by
        have hd := Nat.div_add_mod (n + 2 - y) (2 ^ j)
        have hm := Nat.mod_lt (n + 2 - y) h0
        have hy2 := y.2
        refine ⟨2 ^ j * ((n + 2 - y) / 2 ^ j) + y, by omega, by omega, ?_⟩
        rw [Nat.mul_add_mod, Nat.mod_eq_of_lt (by omega)]
      have hA := a2 i x hi1 hi2 x.2
      have hB := b2 i x hi1 hi2 x.2
      rw [hi3] at hA hB
      rw [hA, hB]
      have hx := x.2
      have e0 : skip 0 i = i + 1 := by unfold skip; rw [if_neg (by omega)]
      have e1 : skip 1 i = i + 1 := by unfold skip; rw [if_neg (by omega)]
      rw [e0, e1, at_diag2 (by omega), at_diag2 (by omega)]
      have : (i + 1 = skip 0 (x : Nat)) ↔ (i + 1 = skip 1 (x : Nat)) := by unfold skip; split <;> split <;> omega
      simp only [this]
  rw [hc0, heq] at h00
  rw [hc1] at h11
  norm_num at h00 h11
  linarith

/-- 6 x 6. -/
example (g : (k : Nat) → Mat k k ℚ) : ∃ B, inv g 6 (diag2 6) = .ok B ∧ toM (diag2 6) * toM B ≠ 1 :=
  (inverse_wrong 6 (by decide) (fun k h => by
    have hk : k < 3 ∨ 3 ≤ k := by omega
    rcases hk with hk | hk
    · interval_cases k <;> omega
    · have := Nat.pow_le_pow_right (show 0 < 2 by decide) hk
      omega) g).2

/-- **C48** (inverse) Exactly for the size 3 and the powers of two `operator!` gives the inverse of every regular matrix. -/
theorem inverse_right_iff (n : Nat) (hn : 0 < n) :
    (∀ (g : (k : Nat) → Mat k k ℚ) (A : Mat n n ℚ), (toM A).det ≠ 0 → ∃ B, inv g n A = .ok B ∧ toM A * toM B = 1 ∧ toM B * toM A = 1) ↔
      n = 3 ∨ ∃ k, n = 2 ^ k := by
  constructor
  · intro h
    by_contra hc
    simp only [not_or, not_exists] at hc
    obtain ⟨h3, hp⟩ := hc
    have h5 : 5 ≤ n := by
      have h1 := hp 0
      have h2 := hp 1
      have h4 := hp 2
      norm_num at h1 h2 h4
      omega
    obtain ⟨hd, B, hB, hw⟩ := inverse_wrong n h5 hp fun _ => ⟨fun _ => 0⟩
    obtain ⟨B', hB', hr, _⟩ := h (fun _ => ⟨fun _ => 0⟩) (diag2 n) hd
    rw [hB] at hB'
    cases hB'
    exact hw hr
  · rintro (rfl | ⟨k, rfl⟩) g A hd
    · exact (inverse_right_partial g 3 A (Or.inl rfl)).1 hd
    · rcases Nat.eq_zero_or_pos k with rfl | hk
      · exact inverse_1x1 g A hd
      · exact (inverse_right_partial g _ A (Or.inr ⟨k, hk, rfl⟩)).1 hd

example : ¬ ∀ (g : (k : Nat) → Mat k k ℚ) (A : Mat 7 7 ℚ), (toM A).det ≠ 0 → ∃ B, inv g 7 A = .ok B ∧ toM A * toM B = 1 ∧ toM B * toM A = 1 := by
  rw [inverse_right_iff 7 (by decide)]
  rintro (h | ⟨k, h⟩)
  · omega
  · have hk : k < 3 ∨ 3 ≤ k := by omega
    rcases hk with hk | hk
    · interval_cases k <;> omega
    · have := Nat.pow_le_pow_right (show 0 < 2 by decide) hk
      omega

end Verif.Math.Mat
