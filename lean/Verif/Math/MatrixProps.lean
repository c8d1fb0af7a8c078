/-
C47: matrix arithmetic and element access; C71: order of initialisation.
-/
import Verif.Math.Matrix
import Mathlib.LinearAlgebra.Matrix.Trace
import Mathlib.Algebra.BigOperators.Fin
import Mathlib.Tactic.Ring
import Mathlib.Tactic.NormNum
import Mathlib.Data.Rat.Floor

set_option linter.unusedSectionVars false

namespace Verif.Math.Mat
variable {M N P Q : Nat} {T : Type}

/-- The mathematical matrix stored in `A`: the entry at row `i`, column `j` is what `operator()` returns. -/
def toM (A : Mat M N T) : Matrix (Fin M) (Fin N) T := fun i j => A.at' i j

/-! ### Element access -/

theorem index_lt {m n : Nat} (hm : m < M) (hn : n < N) : M * n + m < M * N := by
  calc M * n + m < M * n + M := by omega
    _ = M * (n + 1) := by rw [Nat.mul_add, Nat.mul_one]
    _ ≤ M * N := Nat.mul_le_mul_left M hn

theorem index_inj {m n m' n' : Nat} (hm : m < M) (hm' : m' < M)
    (h : M * n + m = M * n' + m') : m = m' ∧ n = n' := by
  have hM : 0 < M := by omega
  have h1 : (M * n + m) % M = (M * n' + m') % M := by rw [h]
  have h2 : (M * n + m) / M = (M * n' + m') / M := by rw [h]
  rw [Nat.mul_add_mod, Nat.mul_add_mod, Nat.mod_eq_of_lt hm, Nat.mod_eq_of_lt hm'] at h1
  rw [Nat.mul_add_div hM, Nat.mul_add_div hM, Nat.div_eq_of_lt hm, Nat.div_eq_of_lt hm'] at h2
  omega

/-- **C47** (memory safety) Every access through `operator()(m, n)`, for reading and writing, either throws,
namely iff `m ≥ M` or `n ≥ N`, or touches the array element `M * n + m`, which lies inside the array of `M * N`
elements; different positions never share an element. -/
theorem access_in_bounds (A : Mat M N T) (m n : Nat) :
    (A.get? m n = none ↔ M ≤ m ∨ N ≤ n) ∧ (∀ v, A.set? m n v = none ↔ M ≤ m ∨ N ≤ n) ∧
    (m < M → n < N → M * n + m < M * N) ∧
    (∀ m' n', m < M → m' < M → M * n + m = M * n' + m' → m = m' ∧ n = n') := by
  refine ⟨?_, ?_, index_lt, fun m' n' h1 h2 => index_inj h1 h2⟩
  · unfold get?; split <;> rename_i h <;> simp <;> omega
  · intro v; unfold set?; split <;> rename_i h <;> simp <;> omega

/-- **C47** (access) A write inside the dimensions is read back at exactly that position, and every other
position keeps its value. -/
theorem read_after_write (A : Mat M N T) (m n : Nat) (v : T) (hm : m < M) (hn : n < N) :
    ∃ B, A.set? m n v = some B ∧
      ∀ m' n', B.get? m' n' = if m' = m ∧ n' = n then some v else A.get? m' n' := by
  refine ⟨_, if_pos ⟨hm, hn⟩, ?_⟩
  intro m' n'
  unfold get?
  by_cases h : m' < M ∧ n' < N
  · rw [if_pos h, if_pos h]
    by_cases he : m' = m ∧ n' = n
    · rw [if_pos he]; simp [put, he.1, he.2]
    · rw [if_neg he]
      simp only [put]
      rw [if_neg]
      intro hi
      exact he (index_inj h.1 hm hi)
  · rw [if_neg h, if_neg h, if_neg]
    rintro ⟨rfl, rfl⟩
    exact h ⟨hm, hn⟩


example : ((⟨fun _ => 0⟩ : Mat 2 3 Int).set? 1 2 7).map (fun B => (B.get? 1 2, B.get? 0 2, B.get? 2 0)) = some (some 7, some 0, none) := by decide +kernel

/-- The one-index operators address the same elements, column by column. -/
theorem index_access (A : Mat M N T) (i : Nat) :
    (A.getI? i = none ↔ M * N ≤ i) ∧
    (i < M * N → A.getI? i = A.get? (i % M) (i / M)) := by
  constructor
  · unfold getI?; split <;> rename_i h <;> simp <;> omega
  · intro h
    have hM : 0 < M := Nat.pos_of_ne_zero (by rintro rfl; simp at h)
    have h1 : i % M < M := Nat.mod_lt _ hM
    have h2 : i / M < N := by
      rw [Nat.div_lt_iff_lt_mul hM, Nat.mul_comm]; exact h
    rw [getI?, get?, if_pos h, if_pos ⟨h1, h2⟩, Nat.div_add_mod]

/-! ### Loops -/

theorem at_set (A : Mat M N T) {m n m' n' : Nat} (v : T) (hm : m < M) (hm' : m' < M) :
    (A.set m n v).at' m' n' = if m' = m ∧ n' = n then v else A.at' m' n' := by
  unfold set at' put
  simp only
  by_cases he : m' = m ∧ n' = n
  · rw [if_pos he, if_pos (by rw [he.1, he.2])]
  · rw [if_neg he, if_neg]
    intro h
    exact he (index_inj hm' hm h)

theorem row_loop (f : Nat → T) (A : Mat M N T) (m : Nat) (hm : m < M) (k : Nat) :
    ∀ m' n', m' < M →
      ((List.range k).foldl (fun A n => A.set m n (f n)) A).at' m' n' =
        if m' = m ∧ n' < k then f n' else A.at' m' n' := by
  induction k with
  | zero => intro m' n' _; simp
  | succ k ih =>
    intro m' n' hm'
    rw [List.range_succ, List.foldl_append, List.foldl_cons, List.foldl_nil, at_set _ _ hm hm', ih m' n' hm']
    by_cases h1 : m' = m
    · subst h1
      by_cases h2 : n' = k
      · subst h2; simp
      · have : n' < k + 1 ↔ n' < k := by omega
        simp [h2, this]
    · simp [h1]

theorem outer_loop (f : Nat → Nat → T) (A : Mat M N T) (j : Nat) (hj : j ≤ M) :
    ∀ m' n', m' < M →
      ((List.range j).foldl (fun A m => (List.range N).foldl (fun A n => A.set m n (f m n)) A) A).at' m' n' =
        if m' < j ∧ n' < N then f m' n' else A.at' m' n' := by
  induction j with
  | zero => intro m' n' _; simp
  | succ j ih =>
    intro m' n' hm'
    rw [List.range_succ, List.foldl_append, List.foldl_cons, List.foldl_nil,
      row_loop _ _ _ (by omega) N m' n' hm', ih (by omega) m' n' hm']
    by_cases h1 : m' = j
    · subst h1
      by_cases h2 : n' < N <;> simp [h2]
    · have : m' < j + 1 ↔ m' < j := by omega
      simp [h1, this]

/-- A double loop writes exactly `f` everywhere, whatever was there before. -/
theorem at_loop (f : Nat → Nat → T) (A : Mat M N T) {m n : Nat} (hm : m < M) (hn : n < N) :
    (loop f A).at' m n = f m n := by
  unfold loop
  rw [outer_loop f A M (le_refl _) m n hm, if_pos ⟨hm, hn⟩]

variable [Ring T]

theorem at_transpose (A : Mat M N T) (g : Mat N M T) {m n : Nat} (hn : n < N) (hm : m < M) :
    (transpose A g).at' n m = A.at' m n := by
  have inner : ∀ (k : Nat), k ≤ N → ∀ (R : Mat N M T) (m : Nat), ∀ n' m', n' < N →
      ((List.range k).foldl (fun R n => R.set n m (A.at' m n)) R).at' n' m' =
        if n' < k ∧ m' = m then A.at' m' n' else R.at' n' m' := by
    intro k
    induction k with
    | zero => intro _ R m n' m' _; simp
    | succ k ih =>
      intro hk R m n' m' hn'
      rw [List.range_succ, List.foldl_append, List.foldl_cons, List.foldl_nil, at_set _ _ (by omega) hn',
        ih (by omega) R m n' m' hn']
      by_cases h1 : m' = m
      · subst h1
        by_cases h2 : n' = k
        · subst h2; simp
        · have : n' < k + 1 ↔ n' < k := by omega
          simp [h2, this]
      · simp [h1]
  have outer : ∀ (j : Nat), ∀ n' m', n' < N →
      ((List.range j).foldl (fun R m => (List.range N).foldl (fun R n => R.set n m (A.at' m n)) R) g).at' n' m' =
        if m' < j then A.at' m' n' else g.at' n' m' := by
    intro j
    induction j with
    | zero => intro n' m' _; simp
    | succ j ih =>
      intro n' m' hn'
      rw [List.range_succ, List.foldl_append, List.foldl_cons, List.foldl_nil, inner N (le_refl _) _ j n' m' hn',
        ih n' m' hn']
      by_cases h1 : m' = j
      · subst h1; simp [hn']
      · have : m' < j + 1 ↔ m' < j := by omega
        simp [h1, this]
  unfold transpose
  rw [outer M n m hn, if_pos hm]

theorem foldl_sum (f : Nat → T) (k : Nat) :
    (List.range k).foldl (fun acc n => acc + f n) 0 = ∑ i : Fin k, f i := by
  induction k with
  | zero => simp
  | succ k ih =>
    rw [List.range_succ, List.foldl_append, ih, Fin.sum_univ_castSucc]
    simp

/-! ### The operations compute the mathematical operations -/

theorem toM_mul (A : Mat M N T) (B : Mat N P T) (g : Mat M P T) :
    toM (mul A B g) = toM A * toM B := by
  ext i j
  simp only [toM, mul, at_loop _ _ i.2 j.2, Matrix.mul_apply]
  rw [foldl_sum (fun n => A.at' i n * B.at' n j)]

theorem toM_transpose (A : Mat M N T) (g : Mat N M T) : toM (transpose A g) = (toM A).transpose := by
  ext i j
  simp only [toM, at_transpose A g i.2 j.2, Matrix.transpose_apply]

theorem toM_add (A B g : Mat M N T) : toM (add A B g) = toM A + toM B := by
  ext i j; simp only [toM, add, at_loop _ _ i.2 j.2, Matrix.add_apply]

theorem toM_sub (A B g : Mat M N T) : toM (sub A B g) = toM A - toM B := by
  ext i j; simp only [toM, sub, at_loop _ _ i.2 j.2, Matrix.sub_apply]

theorem toM_neg (A g : Mat M N T) : toM (neg A g) = - toM A := by
  ext i j; simp only [toM, neg, at_loop _ _ i.2 j.2, Matrix.neg_apply]

theorem toM_smulL (c : T) (A g : Mat M N T) : toM (smulL c A g) = c • toM A := by
  ext i j; simp only [toM, smulL, at_loop _ _ i.2 j.2, Matrix.smul_apply, smul_eq_mul]

theorem toM_smulR (A g : Mat M N T) (c : T) (i : Fin M) (j : Fin N) :
    toM (smulR A c g) i j = toM A i j * c := by
  simp only [toM, smulR, at_loop _ _ i.2 j.2]

theorem toM_fill (v : T) (g : Mat M N T) (i : Fin M) (j : Fin N) : toM (fill v g) i j = v := by
  simp only [toM, fill, at_loop _ _ i.2 j.2]

theorem at_zero (g : Mat M N T) {m n : Nat} (hm : m < M) (hn : n < N) : (zero g).at' m n = 0 := by
  have : ∀ k (i : Nat), ((List.range k).foldl (fun A i => A.put i 0) g).value i =
      if i < k then 0 else g.value i := by
    intro k
    induction k with
    | zero => intro i; simp
    | succ k ih =>
      intro i
      rw [List.range_succ, List.foldl_append, List.foldl_cons, List.foldl_nil]
      change (if i = k then 0 else ((List.range k).foldl (fun A i => A.put i 0) g).value i) = _
      rw [ih]
      by_cases h : i = k
      · subst h; simp
      · have : i < k + 1 ↔ i < k := by omega
        simp [h, this]
  unfold at' zero
  rw [this, if_pos (index_lt hm hn)]

theorem at_eye (g : Mat M N T) {m n : Nat} (hm : m < M) (hn : n < N) :
    (eye g).at' m n = if m = n then 1 else 0 := by
  have : ∀ k, k ≤ M → ∀ m n, m < M → n < N →
      ((List.range k).foldl (fun A i => A.set i i 1) (zero g)).at' m n =
        if m = n ∧ m < k then 1 else 0 := by
    intro k
    induction k with
    | zero => intro _ m n hm hn; simp [at_zero g hm hn]
    | succ k ih =>
      intro hk m n hm hn
      rw [List.range_succ, List.foldl_append, List.foldl_cons, List.foldl_nil, at_set _ _ (by omega) hm,
        ih (by omega) m n hm hn]
      by_cases h : m = k
      · subst h
        by_cases h2 : m = n
        · subst h2; simp
        · have h2' : ¬ n = m := fun h => h2 h.symm
          simp [h2, h2']
      · have : m < k + 1 ↔ m < k := by omega
        simp [h, this]
  unfold eye
  rw [this _ (by split <;> omega) m n hm hn]
  by_cases h : m = n
  · subst h
    have : m < if M < N then M else N := by split <;> assumption
    simp [this]
  · simp [h]

theorem toM_eye (g : Mat M M T) : toM (eye g) = 1 := by
  ext i j
  simp only [toM, at_eye g i.2 j.2, Matrix.one_apply, Fin.ext_iff]

theorem toM_zero (g : Mat M N T) : toM (zero g) = 0 := by
  ext i j; simp only [toM, at_zero g i.2 j.2, Matrix.zero_apply]

theorem trace_eq (A : Mat M M T) : trace A = (toM A).trace := by
  unfold trace
  rw [show (if M < M then M else M) = M by split <;> rfl, foldl_sum (fun i => A.at' i i)]
  rfl

/-- `operator==` decides equality of all elements. -/
theorem eqOp_iff [DecidableEq T] (A B : Mat M N T) : eqOp A B = true ↔ toM A = toM B := by
  unfold eqOp
  simp only [List.all_eq_true, List.mem_range, decide_eq_true_eq]
  constructor
  · intro h; ext i j; exact h i i.2 j j.2
  · intro h m hm n hn; exact congrFun (congrFun h ⟨m, hm⟩) ⟨n, hn⟩

/-! ### C47: the laws, as observed through `operator==` -/

section Laws
variable [DecidableEq T]

/-- **C47** Associativity, for all dimensions, values and uninitialised result contents. -/
theorem mul_assoc' (A : Mat M N T) (B : Mat N P T) (C : Mat P Q T) (g₁ : Mat M P T) (g₂ : Mat M Q T)
    (g₃ : Mat N Q T) (g₄ : Mat M Q T) :
    eqOp (mul (mul A B g₁) C g₂) (mul A (mul B C g₃) g₄) = true := by
  rw [eqOp_iff]; simp only [toM_mul, Matrix.mul_assoc]

/-- **C47** Left and right distributivity. -/
theorem mul_add' (A A' : Mat M N T) (B C : Mat N P T) (g₁ : Mat N P T) (g₂ g₃ g₄ g₅ : Mat M P T)
    (g₆ : Mat M N T) :
    eqOp (mul A (add B C g₁) g₂) (add (mul A B g₃) (mul A C g₄) g₅) = true ∧
    eqOp (mul (add A A' g₆) B g₂) (add (mul A B g₃) (mul A' B g₄) g₅) = true := by
  constructor <;> rw [eqOp_iff] <;> simp only [toM_mul, toM_add, Matrix.mul_add, Matrix.add_mul]

/-- **C47** Addition is commutative and associative, subtraction undoes it, negation is `0 - A`. -/
theorem add_laws (A B C : Mat M N T) (g₁ g₂ g₃ g₄ : Mat M N T) :
    eqOp (add A B g₁) (add B A g₂) = true ∧
    eqOp (add (add A B g₁) C g₂) (add A (add B C g₃) g₄) = true ∧
    eqOp (sub (add A B g₁) B g₂) A = true ∧
    eqOp (neg A g₁) (sub (zero g₂) A g₃) = true ∧ eqOp (add A (zero g₁) g₂) A = true := by
  refine ⟨?_, ?_, ?_, ?_, ?_⟩ <;> rw [eqOp_iff] <;>
    simp only [toM_add, toM_sub, toM_neg, toM_zero, add_sub_cancel_right, zero_sub, add_zero]
  · exact add_comm _ _
  · exact add_assoc _ _ _

/-- **C47** The identity matrix is neutral. -/
theorem eye_laws (A : Mat M N T) (g₁ : Mat M M T) (g₂ : Mat N N T) (g₃ : Mat M N T) :
    eqOp (mul (eye g₁) A g₃) A = true ∧ eqOp (mul A (eye g₂) g₃) A = true := by
  constructor <;> rw [eqOp_iff] <;> simp only [toM_mul, toM_eye, Matrix.one_mul, Matrix.mul_one]

/-- **C47** Scalar factors from the left distribute and associate. -/
theorem smul_laws (c d : T) (A B : Mat M N T) (C : Mat N P T) (g₁ g₂ g₃ g₄ : Mat M N T)
    (g₅ g₆ g₇ : Mat M P T) :
    eqOp (smulL c (add A B g₁) g₂) (add (smulL c A g₃) (smulL c B g₄) g₁) = true ∧
    eqOp (smulL c (smulL d A g₁) g₂) (smulL (c * d) A g₃) = true ∧
    eqOp (mul (smulL c A g₁) C g₅) (smulL c (mul A C g₆) g₇) = true := by
  refine ⟨?_, ?_, ?_⟩ <;> rw [eqOp_iff] <;>
    simp only [toM_smulL, toM_add, toM_mul, smul_add, Matrix.smul_mul, smul_smul]

end Laws

/-- **C47** Transposition is an involution and additive, and reverses products (over a commutative ring such
as the reals). -/
theorem transpose_laws {T : Type} [CommRing T] [DecidableEq T] (A B : Mat M N T) (C : Mat N P T)
    (g₁ : Mat N M T) (g₂ g₉ : Mat M N T) (g₃ : Mat M P T) (g₄ : Mat P M T) (g₅ : Mat P N T) (g₆ : Mat N M T)
    (g₇ : Mat P M T) (g₈ : Mat N M T) :
    eqOp (transpose (transpose A g₁) g₂) A = true ∧
    eqOp (transpose (add A B g₉) g₁) (add (transpose A g₆) (transpose B g₈) g₆) = true ∧
    eqOp (transpose (mul A C g₃) g₄) (mul (transpose C g₅) (transpose A g₆) g₇) = true := by
  refine ⟨?_, ?_, ?_⟩ <;> rw [eqOp_iff] <;>
    simp only [toM_transpose, toM_add, toM_mul, Matrix.transpose_transpose, Matrix.transpose_add,
      Matrix.transpose_mul]

/-- A concrete non-trivial product through the model: [1 2; 3 4] * [5; 6] = [17; 39]. -/
example : (mul (⟨fun i => [1, 3, 2, 4].getD i 0⟩ : Mat 2 2 ℚ) (⟨fun i => [5, 6].getD i 0⟩ : Mat 2 1 ℚ) ⟨fun _ => 99⟩).at' 0 0 = 17 ∧
    (mul (⟨fun i => [1, 3, 2, 4].getD i 0⟩ : Mat 2 2 ℚ) (⟨fun i => [5, 6].getD i 0⟩ : Mat 2 1 ℚ) ⟨fun _ => 99⟩).at' 1 0 = 39 := by
  decide +kernel

/-! ### C71: initialisation -/

theorem stream_go (vs : List T) : ∀ (A : Mat M N T) (index : Nat), index + vs.length ≤ M * N →
    ∃ B, stream.go A index vs = some B ∧
      ∀ m n, m < M → n < N → B.at' m n =
        if index ≤ m * N + n then (vs[m * N + n - index]?).getD (A.at' m n) else A.at' m n := by
  induction vs with
  | nil => intro A index _; exact ⟨A, rfl, by intro m n _ _; simp⟩
  | cons v vs ih =>
    intro A index h
    have hlt : index < M * N := by simp only [List.length_cons] at h; omega
    have hN : 0 < N := Nat.pos_of_ne_zero (by rintro rfl; simp at hlt)
    have h1 : index / N < M := by rw [Nat.div_lt_iff_lt_mul hN]; exact hlt
    have h2 : index % N < N := Nat.mod_lt _ hN
    obtain ⟨B, hB, hB'⟩ := ih (A.set (index / N) (index % N) v) (index + 1)
      (by simp only [List.length_cons] at h; omega)
    refine ⟨B, ?_, ?_⟩
    · simp only [stream.go, set?, if_pos (And.intro h1 h2)]; exact hB
    · intro m n hm hn
      rw [hB' m n hm hn, at_set _ _ h1 hm]
      by_cases he : m * N + n = index
      · have hm' : m = index / N := by
          rw [← he, Nat.mul_comm, Nat.mul_add_div hN, Nat.div_eq_of_lt hn]; omega
        have hn' : n = index % N := by
          rw [← he, Nat.mul_comm, Nat.mul_add_mod, Nat.mod_eq_of_lt hn]
        have hc : ¬ (index + 1 ≤ m * N + n) := by omega
        rw [if_neg hc, if_pos ⟨hm', hn'⟩, if_pos (by omega)]
        simp [he]
      · have hne : ¬ (m = index / N ∧ n = index % N) := by
          rintro ⟨a, b⟩
          apply he
          rw [a, b, Nat.mul_comm, Nat.div_add_mod]
        rw [if_neg hne]
        by_cases hc : index + 1 ≤ m * N + n
        · rw [if_pos hc, if_pos (by omega)]
          have : m * N + n - index = (m * N + n - (index + 1)) + 1 := by omega
          rw [this, List.getElem?_cons_succ]
        · rw [if_neg hc, if_neg (by omega)]

/-- **C71** The stream initialiser fills the matrix row by row: with exactly `M * N` values, value number
`m * N + n` becomes the element at row `m`, column `n`. -/
theorem stream_row_major (g : Mat M N T) (vs : List T) (h : vs.length = M * N) (hpos : 0 < M * N) :
    ∃ B, stream g vs = some B ∧ ∀ m n, m < M → n < N → vs[m * N + n]? = some (B.at' m n) := by
  cases vs with
  | nil => rw [← h] at hpos; simp at hpos
  | cons v vs =>
    simp only [List.length_cons] at h
    have hN : 0 < N := Nat.pos_of_ne_zero (by rintro rfl; simp at hpos)
    have hM : 0 < M := Nat.pos_of_ne_zero (by rintro rfl; simp at hpos)
    obtain ⟨B, hB, hB'⟩ := stream_go vs (g.put 0 v) 1 (by omega)
    refine ⟨B, ?_, ?_⟩
    · simp only [stream, setI?, if_pos hpos]; exact hB
    · intro m n hm hn
      rw [hB' m n hm hn]
      have hb : m * N + n < M * N := by
        calc m * N + n < m * N + N := by omega
          _ = (m + 1) * N := by rw [Nat.add_mul, Nat.one_mul]
          _ ≤ M * N := Nat.mul_le_mul_right N hm
      by_cases hc : 1 ≤ m * N + n
      · rw [if_pos hc]
        obtain ⟨k, hk⟩ : ∃ k, m * N + n = k + 1 := ⟨m * N + n - 1, by omega⟩
        rw [hk, List.getElem?_cons_succ]
        have : k < vs.length := by omega
        simp [List.getElem?_eq_getElem this]
      · have h0 : m * N + n = 0 := by omega
        have hn0 : n = 0 := by omega
        have hm0 : m = 0 := by
          rcases Nat.eq_zero_or_pos m with h | h
          · exact h
          · have := Nat.mul_pos h hN; omega
        rw [if_neg hc, h0, hm0, hn0]
        simp [at', put]

/-- **C71** More values than elements throw. -/
theorem stream_too_many (g : Mat M N T) (vs : List T) (h : M * N < vs.length) : stream g vs = none := by
  have key : ∀ (vs : List T) (A : Mat M N T) (index : Nat), M * N < index + vs.length → index ≤ M * N →
      stream.go A index vs = none := by
    intro vs
    induction vs with
    | nil => intro A index h1 h2; simp at h1; omega
    | cons v vs ih =>
      intro A index h1 h2
      simp only [stream.go, set?]
      by_cases hc : index / N < M ∧ index % N < N
      · rw [if_pos hc]
        have hN : 0 < N := by omega
        have : index < M * N := by rw [← Nat.div_lt_iff_lt_mul hN]; exact hc.1
        exact ih _ _ (by simp only [List.length_cons] at h1; omega) (by omega)
      · rw [if_neg hc]
  cases vs with
  | nil => simp at h
  | cons v vs =>
    simp only [stream, setI?]
    by_cases hp : 0 < M * N
    · rw [if_pos hp]
      exact key vs _ 1 (by simp only [List.length_cons] at h; omega) (by omega)
    · rw [if_neg hp]


example : stream (⟨fun _ => 0⟩ : Mat 2 2 Int) [1, 2, 3, 4, 5] = none := stream_too_many _ _ (by decide)

/-- **C71** The constructor with one argument per element fills it column by column instead. -/
theorem ctor_column_major (vs : List T) (h : vs.length = M * N) (m n : Nat) (hm : m < M) (hn : n < N) :
    vs[M * n + m]? = some ((ofArgs vs h : Mat M N T).at' m n) := by
  have : M * n + m < vs.length := by rw [h]; exact index_lt hm hn
  simp [at', ofArgs, List.getElem?_eq_getElem this]

/-- **C71** A sub matrix is the block at the given position, or an exception when it does not fit. -/
theorem subMatrix_block (U V : Nat) (A : Mat M N T) (m n : Nat) (g : Mat U V T) :
    (M < m + U ∨ N < n + V → subMatrix U V A m n g = none) ∧
    (m + U ≤ M → n + V ≤ N → ∃ B, subMatrix U V A m n g = some B ∧
      ∀ u v, u < U → v < V → A.get? (m + u) (n + v) = some (B.at' u v)) := by
  constructor
  · intro h; unfold subMatrix; rw [if_neg (by omega)]
  · intro h1 h2
    refine ⟨_, if_pos ⟨h1, h2⟩, ?_⟩
    intro u v hu hv
    rw [at_loop _ _ hu hv, get?, if_pos ⟨by omega, by omega⟩]
    rfl

/-- Non-vacuity: the same six numbers give different 2x3 matrices. -/
example : ∃ B : Mat 2 3 Int, stream ⟨fun _ => 0⟩ [1, 2, 3, 4, 5, 6] = some B ∧ B.at' 0 1 = 2 ∧
    (ofArgs [1, 2, 3, 4, 5, 6] rfl : Mat 2 3 Int).at' 0 1 = 3 := by
  refine ⟨_, rfl, ?_, ?_⟩ <;> decide +kernel

end Verif.Math.Mat
