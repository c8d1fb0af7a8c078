/-
C49: `rank()` is the rank when the elimination never meets a zero pivot, but is neither a lower nor an upper
bound of the rank in general; the 1x1 version is inverted.
-/
import Verif.Math.Rank
import Verif.Math.MatrixProps
import Mathlib.LinearAlgebra.Matrix.Rank
import Mathlib.LinearAlgebra.Matrix.Determinant.Basic
import Mathlib.LinearAlgebra.Matrix.Block
import Mathlib.LinearAlgebra.Matrix.NonsingularInverse
import Mathlib.Tactic.FinCases
import Mathlib.Tactic.FieldSimp
import Mathlib.Tactic.NormNum
import Mathlib.Tactic.ByContra

set_option linter.unusedSectionVars false

namespace Verif.Math.Mat
variable {M N : Nat} {K : Type} [Field K] [DecidableEq K]

/-! ### Swapping and sorting permutes the rows -/

theorem at_swapRows (A : Mat M N K) {a b : Nat} (ha : a < M) (hb : b < M) {i n : Nat} (hi : i < M) (hn : n < N) :
    (A.swapRows a b).at' i n = A.at' (if i = a then b else if i = b then a else i) n := by
  have key : ∀ k, k ≤ N → ∀ i n, i < M →
      ((List.range k).foldl (fun A n =>
        let t := A.at' a n
        (A.set a n (A.at' b n)).set b n t) A).at' i n =
      if n < k then A.at' (if i = a then b else if i = b then a else i) n else A.at' i n := by
    intro k
    induction k with
    | zero => intro _ i n _; simp
    | succ k ih =>
      intro hk i n hi
      rw [List.range_succ, List.foldl_append, List.foldl_cons, List.foldl_nil]
      simp only
      rw [at_set _ _ hb hi, at_set _ _ ha hi, ih (by omega) a k ha, ih (by omega) b k hb, ih (by omega) i n hi]
      by_cases hnk : n = k
      · subst hnk
        by_cases h1 : i = a
        · subst h1
          by_cases h2 : i = b
          · simp [h2]
          · simp [h2]
        · by_cases h2 : i = b
          · subst h2; simp [h1]
          · simp [h1, h2]
      · have : n < k + 1 ↔ n < k := by omega
        simp [hnk, this]
  have := key N (le_refl _) i n hi
  rw [if_pos hn] at this
  exact this

/-- `B` has the rows of `A`, permuted. -/
def RowPerm (A B : Mat M N K) : Prop := ∃ σ : Equiv.Perm (Fin M), ∀ i j, toM B i j = toM A (σ i) j

theorem RowPerm.refl (A : Mat M N K) : RowPerm A A := ⟨Equiv.refl _, fun _ _ => rfl⟩

theorem RowPerm.trans {A B C : Mat M N K} : RowPerm A B → RowPerm B C → RowPerm A C
  | ⟨σ, h⟩, ⟨τ, h'⟩ => ⟨τ.trans σ, fun i j => by rw [h', h]; rfl⟩

theorem rowPerm_swap (A : Mat M N K) {a b : Nat} (ha : a < M) (hb : b < M) : RowPerm A (A.swapRows a b) := by
  refine ⟨Equiv.swap ⟨a, ha⟩ ⟨b, hb⟩, fun i j => ?_⟩
  simp only [toM]
  rw [at_swapRows A ha hb i.2 j.2]
  congr 1
  rw [Equiv.swap_apply_def]
  simp only [Fin.ext_iff]
  split
  · rfl
  · split <;> rfl

theorem rowPerm_sortInner (fuel col : Nat) : ∀ (A : Mat M N K) (cr sw : Nat),
    RowPerm A (sortInner fuel col A cr sw).1 := by
  induction fuel with
  | zero => intro A cr sw; exact RowPerm.refl A
  | succ fuel ih =>
    intro A cr sw
    unfold sortInner
    split
    · rename_i h1
      split
      · rename_i h2
        exact (rowPerm_swap A h1 h2.2.1).trans (ih _ _ _)
      · exact ih _ _ _
    · exact RowPerm.refl A

/-- The loop ends because of its condition, not because of the bound in the model. -/
theorem sortInner_done (fuel col : Nat) : ∀ (A : Mat M N K) (cr sw : Nat), (M - cr) + (M - sw) < fuel →
    M ≤ (sortInner fuel col A cr sw).2.1 := by
  induction fuel with
  | zero => intro A cr sw h; omega
  | succ fuel ih =>
    intro A cr sw h
    unfold sortInner
    split
    · split
      · apply ih; omega
      · apply ih; omega
    · simp only; omega

theorem rowPerm_sort (A : Mat M N K) : RowPerm A (sort A) := by
  unfold sort
  have key : ∀ (l : List Nat) (st : Mat M N K × Nat × Nat), RowPerm A st.1 →
      RowPerm A (l.foldl (fun (st : Mat M N K × Nat × Nat) col =>
        let st := sortInner (2 * M + 1) col st.1 st.2.1 st.2.2
        (st.1, st.2.1, st.2.1 + 1)) st).1 := by
    intro l
    induction l with
    | nil => intro st h; exact h
    | cons c l ih =>
      intro st h
      rw [List.foldl_cons]
      exact ih _ (h.trans (rowPerm_sortInner _ _ _ _ _))
  exact key _ _ (RowPerm.refl A)

/-! ### One elimination step -/

theorem at_elimRow (A : Mat M N K) {root col r : Nat} (hroot : root < M) (hr : r < M) (_hne : r ≠ root)
    {i n : Nat} (hi : i < M) (hn : n < N) :
    (elimRow A root col r).at' i n =
      if i = r ∧ col ≤ n then A.at' r n - A.at' r col / A.at' root col * A.at' root n else A.at' i n := by
  unfold elimRow
  by_cases h0 : A.at' r col ≠ 0
  · rw [if_pos h0]
    simp only
    have key : ∀ k i n, i < M →
        ((List.range' col k).foldl (fun B n =>
          B.set r n (B.at' r n - A.at' r col / A.at' root col * B.at' root n)) A).at' i n =
        if i = r ∧ col ≤ n ∧ n < col + k then A.at' r n - A.at' r col / A.at' root col * A.at' root n
          else A.at' i n := by
      intro k
      induction k with
      | zero =>
        intro i n _
        rw [if_neg (by omega)]; rfl
      | succ k ih =>
        intro i n hi
        rw [List.range'_concat, List.foldl_append, List.foldl_cons, List.foldl_nil, one_mul]
        rw [at_set _ _ hr hi, ih r (col + k) hr, ih root (col + k) hroot, ih i n hi]
        rw [if_neg (show ¬ (r = r ∧ col ≤ col + k ∧ col + k < col + k) by omega),
          if_neg (show ¬ (root = r ∧ col ≤ col + k ∧ col + k < col + k) by omega)]
        by_cases h1 : i = r ∧ n = col + k
        · rw [if_pos h1, if_pos (by omega), h1.2]
        · rw [if_neg h1]
          by_cases h2 : i = r ∧ col ≤ n ∧ n < col + k
          · rw [if_pos h2, if_pos (by omega)]
          · rw [if_neg h2, if_neg (by omega)]
    rw [key (N - col) i n hi]
    by_cases h1 : i = r ∧ col ≤ n
    · rw [if_pos (by omega), if_pos h1]
    · rw [if_neg (by omega), if_neg h1]
  · rw [if_neg h0]
    rw [not_ne_iff] at h0
    split
    · rename_i h; rw [h.1, h0]; simp
    · rfl

theorem at_elimCol (A : Mat M N K) {c : Nat} (hc : c < N) {i n : Nat} (hi : i < M) (hn : n < N) :
    (elimCol A c).at' i n =
      if c < i ∧ c ≤ n ∧ A.at' c c ≠ 0 then A.at' i n - A.at' i c / A.at' c c * A.at' c n else A.at' i n := by
  unfold elimCol
  have key : ∀ k, c + 1 + k ≤ M → ∀ i n, i < M → n < N →
      ((List.range' (c + 1) k).foldl (fun A r => if A.at' c c ≠ 0 then elimRow A c c r else A) A).at' i n =
      if (c < i ∧ i < c + 1 + k) ∧ c ≤ n ∧ A.at' c c ≠ 0 then A.at' i n - A.at' i c / A.at' c c * A.at' c n
        else A.at' i n := by
    intro k
    induction k with
    | zero => intro _ i n _ _; rw [if_neg (by omega)]; rfl
    | succ k ih =>
      intro hk i n hi hn
      rw [List.range'_concat, List.foldl_append, List.foldl_cons, List.foldl_nil, one_mul]
      have hih := ih (by omega)
      have hcc := hih c c (by omega) hc
      rw [if_neg (by omega)] at hcc
      rw [hcc]
      by_cases h0 : A.at' c c ≠ 0
      · rw [if_pos h0, at_elimRow _ (by omega) (by omega) (by omega) hi hn, hcc]
        rw [hih (c+1+k) n (by omega) hn, hih (c+1+k) c (by omega) hc, hih c n (by omega) hn, hih i n hi hn]
        rw [if_neg (show ¬ ((c < c+1+k ∧ c+1+k < c+1+k) ∧ c ≤ n ∧ A.at' c c ≠ 0) by omega),
          if_neg (show ¬ ((c < c+1+k ∧ c+1+k < c+1+k) ∧ c ≤ c ∧ A.at' c c ≠ 0) by omega),
          if_neg (show ¬ ((c < c ∧ c < c+1+k) ∧ c ≤ n ∧ A.at' c c ≠ 0) by omega)]
        by_cases h1 : i = c + 1 + k ∧ c ≤ n
        · rw [if_pos h1, if_pos ⟨by omega, h1.2, h0⟩, h1.1]
        · rw [if_neg h1]
          by_cases h2 : (c < i ∧ i < c + 1 + k) ∧ c ≤ n ∧ A.at' c c ≠ 0
          · rw [if_pos h2, if_pos ⟨by omega, h2.2.1, h0⟩]
          · rw [if_neg h2, if_neg (by rintro ⟨h3, h4, _⟩; exact h2 ⟨by omega, h4, h0⟩)]
      · rw [if_neg h0, hih i n hi hn, if_neg (by tauto), if_neg (by tauto)]
  by_cases hM : c + 1 ≤ M
  · rw [key (M - (c+1)) (by omega) i n hi hn]
    by_cases h : c < i ∧ c ≤ n ∧ A.at' c c ≠ 0
    · rw [if_pos h, if_pos ⟨by omega, h.2⟩]
    · rw [if_neg h, if_neg (by tauto)]
  · have : M - (c + 1) = 0 := by omega
    rw [this, if_neg (by omega)]
    rfl

/-! ### Elimination with non-zero pivots -/

/-- The leading `s`x`s` block. -/
def lead (s : Nat) (hM : s ≤ M) (hN : s ≤ N) (X : Matrix (Fin M) (Fin N) K) : Matrix (Fin s) (Fin s) K :=
  X.submatrix (Fin.castLE hM) (Fin.castLE hN)

/-- All leading blocks up to size `r` are regular. -/
def LeadRegular (r : Nat) (X : Matrix (Fin M) (Fin N) K) : Prop :=
  ∀ s (hM : s ≤ M) (hN : s ≤ N), s ≤ r → (lead s hM hN X).det ≠ 0

/-- Columns below `k` are zero below the diagonal. -/
def Upper (k : Nat) (A : Mat M N K) : Prop := ∀ i n, i < M → n < k → n < N → n < i → A.at' i n = 0

theorem rank_elimCol (A : Mat M N K) {c : Nat} (hc : c < N) (hcM : c < M) (hu : Upper c A) :
    (toM (elimCol A c)).rank = (toM A).rank := by
  have hrow : ∀ i j, toM (elimCol A c) i j =
      toM A i j - (if c < (i : Nat) ∧ A.at' c c ≠ 0 then A.at' i c / A.at' c c else 0) * toM A ⟨c, hcM⟩ j := by
    intro i j
    change (elimCol A c).at' i j = A.at' i j - _ * A.at' c j
    rw [at_elimCol A hc i.2 j.2]
    by_cases h1 : c < (i : Nat) ∧ A.at' c c ≠ 0
    · rw [if_pos h1]
      by_cases h2 : c ≤ (j : Nat)
      · rw [if_pos ⟨h1.1, h2, h1.2⟩]
      · rw [if_neg (by tauto), hu c j hcM (by omega) j.2 (by omega)]; simp
    · rw [if_neg h1, if_neg (by tauto)]; simp
  have hc' : toM (elimCol A c) ⟨c, hcM⟩ = toM A ⟨c, hcM⟩ := by
    funext j
    rw [hrow, if_neg (by simp)]; simp
  rw [Matrix.rank_eq_finrank_span_row, Matrix.rank_eq_finrank_span_row]
  suffices h : Submodule.span K (Set.range (toM (elimCol A c)).row) = Submodule.span K (Set.range (toM A).row) by
    rw [h]
  apply le_antisymm
  · rw [Submodule.span_le]
    rintro _ ⟨i, rfl⟩
    have : (toM (elimCol A c)).row i = toM A i -
        (if c < (i : Nat) ∧ A.at' c c ≠ 0 then A.at' i c / A.at' c c else 0) • toM A ⟨c, hcM⟩ := by
      funext j; exact hrow i j
    rw [this]
    exact Submodule.sub_mem _ (Submodule.subset_span ⟨i, rfl⟩)
      (Submodule.smul_mem _ _ (Submodule.subset_span ⟨⟨c, hcM⟩, rfl⟩))
  · rw [Submodule.span_le]
    rintro _ ⟨i, rfl⟩
    have : (toM A).row i = toM (elimCol A c) i +
        (if c < (i : Nat) ∧ A.at' c c ≠ 0 then A.at' i c / A.at' c c else 0) • toM (elimCol A c) ⟨c, hcM⟩ := by
      funext j
      rw [hc']
      have := hrow i j
      simp only [Pi.add_apply, Pi.smul_apply, smul_eq_mul]
      rw [this]
      simp [Matrix.row]
    rw [this]
    exact Submodule.add_mem _ (Submodule.subset_span ⟨i, rfl⟩)
      (Submodule.smul_mem _ _ (Submodule.subset_span ⟨⟨c, hcM⟩, rfl⟩))

theorem leadRegular_elimCol (A : Mat M N K) {c r : Nat} (hc : c < N) (hu : Upper c A)
    (hl : LeadRegular r (toM A)) : LeadRegular r (toM (elimCol A c)) := by
  intro s hM hN hs
  have := hl s hM hN hs
  by_cases hcs : c < s
  · rw [Matrix.det_eq_of_forall_row_eq_smul_add_const
      (A := lead s hM hN (toM (elimCol A c))) (B := lead s hM hN (toM A))
      (fun i => - (if c < (i : Nat) ∧ A.at' c c ≠ 0 then A.at' i c / A.at' c c else 0)) ⟨c, hcs⟩ (by simp)]
    · exact this
    · intro i j
      change (elimCol A c).at' i j = A.at' i j + - _ * A.at' c j
      rw [at_elimCol A hc (by omega) (by omega)]
      by_cases h1 : c < (i : Nat) ∧ A.at' c c ≠ 0
      · rw [if_pos h1]
        by_cases h2 : c ≤ (j : Nat)
        · rw [if_pos ⟨h1.1, h2, h1.2⟩]; ring
        · rw [if_neg (by tauto), hu c j (by omega) (by omega) (by omega) (by omega)]; simp
      · rw [if_neg h1, if_neg (by tauto)]; simp
  · have he : lead s hM hN (toM (elimCol A c)) = lead s hM hN (toM A) := by
      ext i j
      change (elimCol A c).at' i j = A.at' i j
      rw [at_elimCol A hc (by omega) (by omega), if_neg (by omega)]
    rw [he]; exact this

theorem pivot_ne_zero (A : Mat M N K) {c r : Nat} (hcr : c < r) (hM : r ≤ M) (hN : r ≤ N) (hu : Upper c A)
    (hl : LeadRegular r (toM A)) : A.at' c c ≠ 0 := by
  have h := hl (c+1) (by omega) (by omega) hcr
  rw [Matrix.det_of_isUpperTriangular] at h
  · have := (Finset.prod_ne_zero_iff.1 h) (Fin.last c) (Finset.mem_univ _)
    exact this
  · intro i j hij
    exact hu i j (by omega) (by have : (j : Nat) < i := hij; omega) (by omega) hij

theorem upper_elimCol (A : Mat M N K) {c : Nat} (hc : c < N) (hu : Upper c A) (hp : A.at' c c ≠ 0) :
    Upper (c+1) (elimCol A c) := by
  intro i n hi hn hnN hni
  rw [at_elimCol A hc hi hnN]
  by_cases h : n = c
  · subst h
    rw [if_pos ⟨hni, le_refl _, hp⟩]
    field_simp
    simp
  · rw [if_neg (by omega)]
    exact hu i n hi (by omega) hnN hni

theorem elim_inv (A : Mat M N K) {r : Nat} (hM : r ≤ M) (hN : r ≤ N) (hl : LeadRegular r (toM A)) (k : Nat)
    (hk : k ≤ r) :
    Upper k ((List.range k).foldl elimCol A) ∧ LeadRegular r (toM ((List.range k).foldl elimCol A)) ∧
      (toM ((List.range k).foldl elimCol A)).rank = (toM A).rank := by
  induction k with
  | zero => exact ⟨fun i n _ h => by omega, hl, rfl⟩
  | succ k ih =>
    obtain ⟨h1, h2, h3⟩ := ih (by omega)
    rw [List.range_succ, List.foldl_append, List.foldl_cons, List.foldl_nil]
    exact ⟨upper_elimCol _ (by omega) h1 (pivot_ne_zero _ (by omega) hM hN h1 h2),
      leadRegular_elimCol _ (by omega) h1 h2, by rw [rank_elimCol _ (by omega) (by omega) h1, h3]⟩

/-- `r + 1` rows with a triangular choice of columns are independent. -/
theorem rank_ge_of_triangular (X : Matrix (Fin M) (Fin N) K) (s : Nat) (ρ : Fin s → Fin M) (γ : Fin s → Fin N)
    (ht : ∀ a b, b < a → X (ρ a) (γ b) = 0) (hd : ∀ a, X (ρ a) (γ a) ≠ 0) : s ≤ X.rank := by
  have hdet : (X.submatrix ρ γ).det ≠ 0 := by
    have hut : (X.submatrix ρ γ).IsUpperTriangular := fun i j hij => ht i j hij
    rw [Matrix.det_of_isUpperTriangular hut]
    exact Finset.prod_ne_zero_iff.2 (fun a _ => hd a)
  have hli : LinearIndependent K (fun a => X (ρ a)) := by
    have := Matrix.linearIndependent_rows_of_det_ne_zero hdet
    exact LinearIndependent.of_comp (LinearMap.funLeft K K γ) this
  rw [Matrix.rank_eq_finrank_span_row]
  have h1 := finrank_span_eq_card hli
  rw [Fintype.card_fin] at h1
  rw [← h1]
  apply Submodule.finrank_mono
  apply Submodule.span_mono
  rintro _ ⟨a, rfl⟩
  exact ⟨ρ a, rfl⟩

theorem rest_zero (A : Mat M N K) {r : Nat} (_hM : r ≤ M) (_hN : r ≤ N) (hu : Upper r A)
    (hp : ∀ c, c < r → A.at' c c ≠ 0) (hr : (toM A).rank ≤ r) : ∀ i n, r ≤ i → i < M → n < N → A.at' i n = 0 := by
  intro i n hri hi hn
  by_contra h0
  by_cases hnr : n < r
  · exact h0 (hu i n hi hnr hn (by omega))
  have := rank_ge_of_triangular (toM A) (r+1)
    (fun a => if h : (a : Nat) < r then ⟨a, by omega⟩ else ⟨i, hi⟩)
    (fun a => if h : (a : Nat) < r then ⟨a, by omega⟩ else ⟨n, hn⟩) ?_ ?_
  · omega
  · intro a b hab
    have hab' : (b : Nat) < a := hab
    have hb : (b : Nat) < r := by omega
    simp only [hb, dite_true]
    by_cases ha : (a : Nat) < r
    · simp only [ha, dite_true]
      exact hu a b (by omega) hb (by omega) hab'
    · simp only [ha, dite_false]
      exact hu i b hi hb (by omega) (by omega)
  · intro a
    by_cases ha : (a : Nat) < r
    · simp only [ha, dite_true]
      exact hp a ha
    · simp only [ha, dite_false]
      exact h0

theorem elim_rest (A : Mat M N K) {r : Nat} (h0 : ∀ i n, r ≤ i → i < M → n < N → A.at' i n = 0) :
    ∀ l : List Nat, (∀ c ∈ l, r ≤ c ∧ c < N) → ∀ i n, i < M → n < N → (l.foldl elimCol A).at' i n = A.at' i n := by
  intro l
  induction l using List.reverseRecOn with
  | nil => intro _ i n _ _; rfl
  | append_singleton l c ih =>
    intro hl i n hi hn
    rw [List.foldl_append, List.foldl_cons, List.foldl_nil]
    obtain ⟨hc1, hc2⟩ := hl c (by simp)
    have ih' := ih (fun c hc => hl c (by simp [hc]))
    rw [at_elimCol _ hc2 hi hn]
    by_cases h : c < i ∧ c ≤ n ∧ (l.foldl elimCol A).at' c c ≠ 0
    · rw [ih' c c (by omega) hc2, h0 c c hc1 (by omega) hc2] at h
      exact absurd rfl h.2.2
    · rw [if_neg h]; exact ih' i n hi hn

theorem count_rows (p : Nat → Bool) (r k : Nat) (hr : r ≤ k) (h1 : ∀ m, m < r → p m = true)
    (h2 : ∀ m, r ≤ m → m < k → p m = false) :
    (List.range k).foldl (fun c m => if p m then c + 1 else c) 0 = r := by
  have : ∀ j, j ≤ k → (List.range j).foldl (fun c m => if p m then c + 1 else c) 0 = min j r := by
    intro j
    induction j with
    | zero => intro _; simp
    | succ j ih =>
      intro hj
      rw [List.range_succ, List.foldl_append, ih (by omega), List.foldl_cons, List.foldl_nil]
      by_cases h : j < r
      · rw [h1 j h, if_pos rfl]; omega
      · rw [h2 j (by omega) (by omega)]; simp; omega
  rw [this k (le_refl _)]; omega

/-- **C49** (partial) If, after the sorting step, all leading blocks up to the size of the rank are regular
(no zero pivot is met), `rank()` returns the rank.  In general this is false: `rank_overcounts`,
`rank_undercounts`, `rank1_inverted`. -/
theorem rank_right_sorted_partial (A : Mat M N K)
    (hl : LeadRegular (toM A).rank (toM (sort A))) : rank A = (toM A).rank := by
  set r := (toM A).rank with hrdef
  have hM : r ≤ M := by have := Matrix.rank_le_height (toM A); omega
  have hN : r ≤ N := by have := Matrix.rank_le_width (toM A); omega
  have hsort : (toM (sort A)).rank = r := by
    obtain ⟨σ, hσ⟩ := rowPerm_sort A
    have : toM (sort A) = (toM A).submatrix σ (Equiv.refl _) := by ext i j; exact hσ i j
    rw [this, Matrix.rank_submatrix]
  obtain ⟨h1, h2, h3⟩ := elim_inv (sort A) hM hN hl r (le_refl _)
  have hp : ∀ c, c < r → ((List.range r).foldl elimCol (sort A)).at' c c ≠ 0 := by
    intro c hc
    have hd := h2 r hM hN (le_refl _)
    rw [Matrix.det_of_isUpperTriangular] at hd
    · exact (Finset.prod_ne_zero_iff.1 hd) ⟨c, hc⟩ (Finset.mem_univ _)
    · intro i j hij
      exact h1 i j (by omega) j.2 (by omega) hij
  have hz := rest_zero _ hM hN h1 hp (by rw [h3, hsort])
  have hsplit : List.range N = List.range r ++ List.range' r (N - r) := by
    have h := List.range'_append_1 (s := 0) (m := r) (n := N - r)
    rw [Nat.zero_add, show r + (N - r) = N by omega] at h
    rw [List.range_eq_range', List.range_eq_range', h]
  have hg : ∀ i n, i < M → n < N → (gauss A).at' i n = ((List.range r).foldl elimCol (sort A)).at' i n := by
    intro i n hi hn
    unfold gauss
    rw [hsplit, List.foldl_append]
    apply elim_rest _ hz _ _ i n hi hn
    intro c hc
    rw [List.mem_range'_1] at hc
    omega
  unfold rank
  apply count_rows _ r M hM
  · intro m hm
    rw [List.any_eq_true]
    refine ⟨m, List.mem_range.2 (by omega), ?_⟩
    rw [hg m m (by omega) (by omega)]
    exact decide_eq_true (hp m hm)
  · intro m hm hmM
    rw [List.any_eq_false]
    intro n hn
    rw [List.mem_range] at hn
    rw [hg m n hmM hn, hz m n hm hmM hn]
    simp

/-- If no element of the first column is zero the sorting step changes nothing. -/
theorem sort_id (A : Mat M N K) (h : ∀ i, i < M → A.at' i 0 ≠ 0) : sort A = A := by
  have hinner : ∀ fuel cr sw, (sortInner fuel 0 A cr sw).1 = A := by
    intro fuel
    induction fuel with
    | zero => intro cr sw; rfl
    | succ fuel ih =>
      intro cr sw
      unfold sortInner
      split
      · rename_i h1
        rw [if_neg (by rintro ⟨h2, _⟩; exact h cr h1 h2)]
        exact ih _ _
      · rfl
  have hdone : ∀ (fuel col : Nat) (B : Mat M N K) cr sw, M ≤ cr → sortInner fuel col B cr sw = (B, cr, sw) := by
    intro fuel col B cr sw hcr
    cases fuel with
    | zero => rfl
    | succ fuel => unfold sortInner; rw [if_neg (by omega)]
  have key : ∀ (l : List Nat) (st : Mat M N K × Nat × Nat), M ≤ st.2.1 →
      (l.foldl (fun (st : Mat M N K × Nat × Nat) col =>
        let st := sortInner (2 * M + 1) col st.1 st.2.1 st.2.2
        (st.1, st.2.1, st.2.1 + 1)) st).1 = st.1 := by
    intro l
    induction l with
    | nil => intro st _; rfl
    | cons c l ih =>
      intro st hst
      rw [List.foldl_cons]
      simp only [hdone _ _ _ _ _ hst]
      exact ih _ hst
  unfold sort
  cases N with
  | zero => rfl
  | succ N =>
    rw [List.range_succ_eq_map, List.foldl_cons, key]
    · exact hinner _ _ _
    · simp only
      exact sortInner_done _ _ _ _ _ (by omega)

/-- **C49** (partial), free of the sorting step: the first column has no zero and all leading blocks up to the
size of the rank are regular. -/
theorem rank_right_partial (A : Mat M N K) (h : ∀ i, i < M → A.at' i 0 ≠ 0)
    (hl : LeadRegular (toM A).rank (toM A)) : rank A = (toM A).rank :=
  rank_right_sorted_partial A (by rw [sort_id A h]; exact hl)

/-- `rank()` returns 0 exactly for the zero matrix. -/
theorem rank_zero_iff (A : Mat M N K) : rank A = 0 ↔ toM A = 0 := by
  have hcount : ∀ (p : Nat → Bool) (l : List Nat) (c : Nat),
      l.foldl (fun c m => if p m then c + 1 else c) c = 0 ↔ c = 0 ∧ ∀ m ∈ l, p m = false := by
    intro p l
    induction l with
    | nil => intro c; simp
    | cons b l ih =>
      intro c
      rw [List.foldl_cons, ih]
      by_cases hb : p b = true
      · simp [hb]
      · simp [hb]
  have hz : rank A = 0 ↔ ∀ i n, i < M → n < N → (gauss A).at' i n = 0 := by
    unfold rank
    rw [hcount]
    simp only [true_and, List.mem_range, List.any_eq_false, decide_eq_true_eq, not_not]
    exact ⟨fun h i n hi hn => h i hi n hn, fun h i hi n hn => h i n hi hn⟩
  -- rows are only changed by non-zero rows above them, which stay as they are
  have hstay : ∀ (B : Mat M N K) (l : List Nat), (∀ c ∈ l, c < N) → l.Pairwise (· < ·) →
      (∀ i n, i < M → n < N → (l.foldl elimCol B).at' i n = 0) → ∀ i n, i < M → n < N → B.at' i n = 0 := by
    intro B l
    induction l using List.reverseRecOn with
    | nil => intro _ _ h; exact h
    | append_singleton l c ih =>
      intro hl hp h
      rw [List.foldl_append, List.foldl_cons, List.foldl_nil] at h
      apply ih (fun c hc => hl c (by simp [hc])) (List.pairwise_append.1 hp).1
      have hc := hl c (by simp)
      intro i n hi hn
      have h1 := h i n hi hn
      rw [at_elimCol _ hc hi hn] at h1
      by_cases hci : c < i
      · have h2 := h c c (by omega) hc
        rw [at_elimCol _ hc (by omega) hc, if_neg (by omega)] at h2
        rw [if_neg (by rw [h2]; simp)] at h1
        exact h1
      · rw [if_neg (by omega)] at h1
        exact h1
  obtain ⟨σ, hσ⟩ := rowPerm_sort A
  rw [hz]
  constructor
  · intro h
    have h0 := hstay (sort A) (List.range N) (fun c hc => List.mem_range.1 hc) List.pairwise_lt_range h
    ext i j
    have := hσ (σ.symm i) j
    rw [Equiv.apply_symm_apply] at this
    rw [← this]
    exact h0 _ _ (σ.symm i).2 j.2
  · intro h
    have h0 : ∀ i n, i < M → n < N → (sort A).at' i n = 0 := by
      intro i n hi hn
      have := hσ ⟨i, hi⟩ ⟨n, hn⟩
      rw [h] at this
      exact this
    intro i n hi hn
    unfold gauss
    rw [elim_rest (r := 0) (sort A) (fun i n _ hi hn => h0 i n hi hn) _
      (fun c hc => ⟨Nat.zero_le _, List.mem_range.1 hc⟩) i n hi hn]
    exact h0 i n hi hn

/-! ### Violations -/

/-- [[0,1],[0,2]] -/
def over : Mat 2 2 ℚ := ⟨fun i => if i = 2 then 1 else if i = 3 then 2 else 0⟩

/-- **C49 violated** (too large): [[0,1],[0,2]] has rank 1 but `rank()` returns 2. -/
theorem rank_overcounts : rank over = 2 ∧ (toM over).rank < 2 := by
  refine ⟨by decide +kernel, ?_⟩
  have hdet : (toM over).det = 0 := by
    rw [Matrix.det_fin_two]; simp [toM, at', over]
  by_contra h
  have hr : (toM over).rank = 2 := by
    have := Matrix.rank_le_height (toM over)
    omega
  have hli : LinearIndependent ℚ (toM over).row := by
    rw [linearIndependent_iff_card_eq_finrank_span]
    rw [Matrix.rank_eq_finrank_span_row] at hr
    simp only [Set.finrank, Fintype.card_fin]
    exact hr.symm
  have := Matrix.linearIndependent_rows_iff_isUnit.1 hli
  rw [Matrix.isUnit_iff_isUnit_det, hdet] at this
  simp at this

/-- Rows (1,0,0,0), (0,1,1,1), (0,0,1,1), (0,0,1,0), stored column by column. -/
def under : Mat 4 4 ℚ := ⟨fun i => [1,0,0,0, 0,1,0,0, 0,1,1,1, 0,1,1,0].getD i 0⟩

/-- **C49 violated** (too small): a regular 4x4 matrix for which `rank()` returns 3. -/
theorem rank_undercounts : rank under = 3 ∧ (toM under).rank = 4 := by
  refine ⟨by decide +kernel, ?_⟩
  have hdet : (toM under).det ≠ 0 := by
    simp [Matrix.det_succ_row_zero, Fin.sum_univ_succ, toM, at', under, Fin.succAbove]
  have h := Matrix.rank_of_isUnit (toM under) ((Matrix.isUnit_iff_isUnit_det _).2 (isUnit_iff_ne_zero.2 hdet))
  rwa [Fintype.card_fin] at h

/-- **C49 violated** (1x1): the result is inverted for every matrix. -/
theorem rank1_inverted (A : Mat 1 1 K) : rank1 A ≠ (toM A).rank := by
  by_cases h : A.value 0 = 0
  · have h0 : toM A = 0 := by
      ext i j
      have hi : i = 0 := Subsingleton.elim _ _
      have hj : j = 0 := Subsingleton.elim _ _
      subst hi hj
      exact h
    rw [h0, Matrix.rank_zero]
    simp [rank1, h]
  · have hdet : (toM A).det ≠ 0 := by rw [Matrix.det_fin_one]; exact h
    have h1 := Matrix.rank_of_isUnit (toM A) ((Matrix.isUnit_iff_isUnit_det _).2 (isUnit_iff_ne_zero.2 hdet))
    rw [h1]
    simp [rank1, h]

/-- Non-vacuity of `rank_right_partial`: [[1,1],[1,2]] meets both hypotheses. -/
example : (∀ i, i < 2 → (⟨fun i => [1,1,1,2].getD i 0⟩ : Mat 2 2 ℚ).at' i 0 ≠ 0) ∧
    LeadRegular (toM (⟨fun i => [1,1,1,2].getD i 0⟩ : Mat 2 2 ℚ)).rank
      (toM (⟨fun i => [1,1,1,2].getD i 0⟩ : Mat 2 2 ℚ)) := by
  refine ⟨by decide +kernel, ?_⟩
  intro s hM _ _
  match s, hM with
  | 0, _ => simp
  | 1, _ => rw [Matrix.det_fin_one]; simp [lead, toM, at']
  | 2, _ => rw [Matrix.det_fin_two]; simp [lead, toM, at']; norm_num

/-- Rank deficient case: [[1,2],[2,4]]. -/
example : rank (⟨fun i => [1,2,2,4].getD i 0⟩ : Mat 2 2 ℚ) = 1 := by decide +kernel

end Verif.Math.Mat
