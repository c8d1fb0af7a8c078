/-
C72: rotations and cross product; C73: the predicates; C74: rows and columns.
-/
import Verif.Math.Geometry
import Verif.Math.MatrixProps
import Verif.Math.InverseProps

set_option linter.unusedSectionVars false

namespace Verif.Math.Mat

/-! ### C72 -/

theorem toM_rotx (a : ℝ) (g : Mat 3 3 ℝ) :
    toM (rotx a g) = !![1, 0, 0; 0, Real.cos a, -Real.sin a; 0, Real.sin a, Real.cos a] := by
  ext i j; fin_cases i <;> fin_cases j <;> simp [rotx, toM, at_set]

theorem toM_roty (a : ℝ) (g : Mat 3 3 ℝ) :
    toM (roty a g) = !![Real.cos a, 0, Real.sin a; 0, 1, 0; -Real.sin a, 0, Real.cos a] := by
  ext i j; fin_cases i <;> fin_cases j <;> simp [roty, toM, at_set]

theorem toM_rotz (a : ℝ) (g : Mat 3 3 ℝ) :
    toM (rotz a g) = !![Real.cos a, -Real.sin a, 0; Real.sin a, Real.cos a, 0; 0, 0, 1] := by
  ext i j; fin_cases i <;> fin_cases j <;> simp [rotz, toM, at_set]

/-- **C72** The rotation matrices are orthogonal with determinant 1 for every angle and every previous
content. -/
theorem rot_orthogonal (a : ℝ) (g : Mat 3 3 ℝ) (R : Mat 3 3 ℝ)
    (hR : R = rotx a g ∨ R = roty a g ∨ R = rotz a g) :
    toM R * (toM R).transpose = 1 ∧ (toM R).det = 1 := by
  have hs := Real.sin_sq_add_cos_sq a
  rcases hR with rfl | rfl | rfl
  · rw [toM_rotx]
    refine ⟨?_, ?_⟩
    · ext i j; fin_cases i <;> fin_cases j <;>
        simp [Matrix.mul_apply, Fin.sum_univ_three] <;> nlinarith
    · rw [Matrix.det_fin_three]; simp; nlinarith
  · rw [toM_roty]
    refine ⟨?_, ?_⟩
    · ext i j; fin_cases i <;> fin_cases j <;>
        simp [Matrix.mul_apply, Fin.sum_univ_three] <;> nlinarith
    · rw [Matrix.det_fin_three]; simp; nlinarith
  · rw [toM_rotz]
    refine ⟨?_, ?_⟩
    · ext i j; fin_cases i <;> fin_cases j <;>
        simp [Matrix.mul_apply, Fin.sum_univ_three] <;> nlinarith
    · rw [Matrix.det_fin_three]; simp; nlinarith

example : (toM (rotz 2 (⟨fun _ => 7⟩ : Mat 3 3 ℝ))).det = 1 := (rot_orthogonal 2 ⟨fun _ => 7⟩ _ (Or.inr (Or.inr rfl))).2

/-- **C72** The product of two rotations about the same axis is the rotation by the sum of the angles. -/
theorem rot_add (a b : ℝ) (g g' g'' h : Mat 3 3 ℝ) :
    toM (mul (rotx a g) (rotx b g') h) = toM (rotx (a + b) g'') ∧
    toM (mul (roty a g) (roty b g') h) = toM (roty (a + b) g'') ∧
    toM (mul (rotz a g) (rotz b g') h) = toM (rotz (a + b) g'') := by
  simp only [toM_mul, toM_rotx, toM_roty, toM_rotz, Real.sin_add, Real.cos_add]
  refine ⟨?_, ?_, ?_⟩ <;>
    (ext i j; fin_cases i <;> fin_cases j <;> simp [Matrix.mul_apply, Fin.sum_univ_three] <;> ring)

/-- **C72** Each rotation fixes its axis and turns by a right angle in the right-handed sense: for 90° `rotx`
maps y to z, `roty` maps z to x and `rotz` maps x to y. -/
theorem rot_sense (a : ℝ) (g : Mat 3 3 ℝ) :
    (toM (rotx a g)).mulVec ![1, 0, 0] = ![1, 0, 0] ∧
    (toM (roty a g)).mulVec ![0, 1, 0] = ![0, 1, 0] ∧
    (toM (rotz a g)).mulVec ![0, 0, 1] = ![0, 0, 1] ∧
    (toM (rotx (Real.pi / 2) g)).mulVec ![0, 1, 0] = ![0, 0, 1] ∧
    (toM (roty (Real.pi / 2) g)).mulVec ![0, 0, 1] = ![1, 0, 0] ∧
    (toM (rotz (Real.pi / 2) g)).mulVec ![1, 0, 0] = ![0, 1, 0] := by
  simp only [toM_rotx, toM_roty, toM_rotz]
  refine ⟨?_, ?_, ?_, ?_, ?_, ?_⟩ <;> (ext i; fin_cases i <;> simp [Matrix.mulVec, dotProduct, Fin.sum_univ_three])

section Cross
variable {T : Type} [CommRing T]

/-- The column as a vector. -/
def vec3 (a : Mat 3 1 T) : Fin 3 → T := fun i => a.at' i 0

theorem at_cross (a b g : Mat 3 1 T) : (cross a b g).at' 0 0 = a.at' 1 0 * b.at' 2 0 - a.at' 2 0 * b.at' 1 0 ∧
    (cross a b g).at' 1 0 = a.at' 2 0 * b.at' 0 0 - a.at' 0 0 * b.at' 2 0 ∧
    (cross a b g).at' 2 0 = a.at' 0 0 * b.at' 1 0 - a.at' 1 0 * b.at' 0 0 := by
  refine ⟨?_, ?_, ?_⟩ <;> simp [cross, at_set]

/-- **C72** The skew-symmetric matrix of `a` times `b` is the cross product; the cross product is
perpendicular to both factors, antisymmetric, and satisfies Lagrange's identity. -/
theorem cross_laws (a b g g₁ : Mat 3 1 T) (g₂ : Mat 3 3 T) (g₃ : Mat 3 1 T) :
    toM (mul (skew a g₂) b g₃) = toM (cross a b g) ∧
    dotProduct (vec3 a) (vec3 (cross a b g)) = 0 ∧ dotProduct (vec3 b) (vec3 (cross a b g)) = 0 ∧
    vec3 (cross b a g₁) = - vec3 (cross a b g) ∧
    dotProduct (vec3 (cross a b g)) (vec3 (cross a b g)) =
      dotProduct (vec3 a) (vec3 a) * dotProduct (vec3 b) (vec3 b) - (dotProduct (vec3 a) (vec3 b)) ^ 2 := by
  obtain ⟨h0, h1, h2⟩ := at_cross a b g
  obtain ⟨k0, k1, k2⟩ := at_cross b a g₁
  have hv : ∀ (x : Mat 3 1 T) (i : Nat), x.value i = x.at' i 0 := by intro x i; simp [at']
  refine ⟨?_, ?_, ?_, ?_, ?_⟩
  · rw [toM_mul]
    ext i j
    have hj : j = 0 := Subsingleton.elim _ _
    subst hj
    rw [Matrix.mul_apply, Fin.sum_univ_three]
    fin_cases i
    · simp [toM, skew, at_set, h0, hv]; ring
    · simp [toM, skew, at_set, h1, hv]; ring
    · simp [toM, skew, at_set, h2, hv]; ring
  · simp [dotProduct, Fin.sum_univ_three, vec3, h0, h1, h2]; ring
  · simp [dotProduct, Fin.sum_univ_three, vec3, h0, h1, h2]; ring
  · ext i
    fin_cases i
    · simp [vec3, h0, k0]; ring
    · simp [vec3, h1, k1]; ring
    · simp [vec3, h2, k2]; ring
  · simp [dotProduct, Fin.sum_univ_three, vec3, h0, h1, h2]; ring

/-- Example: x cross y = z. -/
example : vec3 (cross (⟨fun i => if i = 0 then 1 else 0⟩ : Mat 3 1 ℚ) ⟨fun i => if i = 1 then 1 else 0⟩ ⟨fun _ => 7⟩) =
    ![0, 0, 1] := by
  decide +kernel

end Cross

/-! ### C73 -/
section Predicates
variable {M N : Nat} {T : Type} [CommRing T] [DecidableEq T]

theorem scan_iff (bad : Nat → Nat → Bool) (A : Mat M N T) :
    scan bad A = true ↔ ∀ (i : Fin M) (j : Fin N), bad i j = true → toM A i j = 0 := by
  unfold scan
  simp only [List.all_eq_true, List.mem_range, Bool.not_eq_true', Bool.and_eq_false_iff, decide_eq_false_iff_not,
    not_not]
  constructor
  · intro h i j hb
    rcases h i i.2 j j.2 with h1 | h1
    · rw [h1] at hb; simp at hb
    · exact h1
  · intro h m hm n hn
    by_cases hb : bad m n = true
    · right; exact h ⟨m, hm⟩ ⟨n, hn⟩ hb
    · left; simpa using hb

/-- **C73** The predicates decide what their names say, for every size. -/
theorem predicates_right (A : Mat M N T) (S g : Mat M M T) :
    (isSymmetric S g = true ↔ (toM S).IsSymm) ∧
    (isDiagonal A = true ↔ ∀ (i : Fin M) (j : Fin N), (i : Nat) ≠ j → toM A i j = 0) ∧
    (isLower A = true ↔ ∀ (i : Fin M) (j : Fin N), (i : Nat) < j → toM A i j = 0) ∧
    (isUpper A = true ↔ ∀ (i : Fin M) (j : Fin N), (j : Nat) < i → toM A i j = 0) := by
  refine ⟨?_, ?_, ?_, ?_⟩
  · unfold isSymmetric
    rw [eqOp_iff, toM_transpose]
    exact eq_comm
  · unfold isDiagonal; rw [scan_iff]; simp
  · unfold isLower; rw [scan_iff]; simp
  · unfold isUpper; rw [scan_iff]; simp

/-- **C73** `isInvertible` returns true exactly if the matrix has an inverse. -/
theorem isInvertible_iff {K : Type} [Field K] [DecidableEq K] (g : (k : Nat) → Mat k k K) (n : Nat)
    (A : Mat (n+1) (n+1) K) : isInvertible g (n+1) A = true ↔ ∃ B, toM A * B = 1 ∧ B * toM A = 1 := by
  unfold isInvertible
  rw [decide_eq_true_iff, det_eq]
  constructor
  · intro h
    have hu : IsUnit (toM A).det := isUnit_iff_ne_zero.2 h
    exact ⟨(toM A)⁻¹, Matrix.mul_nonsing_inv _ hu, Matrix.nonsing_inv_mul _ hu⟩
  · rintro ⟨B, h1, _⟩ h0
    have := congrArg Matrix.det h1
    rw [Matrix.det_mul, h0, zero_mul, Matrix.det_one] at this
    exact zero_ne_one this

/-- `createDiag` (796-800). -/
theorem createDiag_right (v : T) (g g' : Mat M M T) : toM (createDiag v g g') = Matrix.diagonal fun _ => v := by
  ext i j
  have h := toM_smulR (eye g) g' v i j
  unfold createDiag
  rw [h, toM_eye]
  by_cases hij : i = j
  · subst hij; simp
  · simp [hij]

example : isUpper (⟨fun i => if i = 2 then 5 else 0⟩ : Mat 2 2 ℚ) = true ∧
    isLower (⟨fun i => if i = 2 then 5 else 0⟩ : Mat 2 2 ℚ) = false := by decide +kernel
end Predicates

/-! ### C74 -/
section RowsCols
variable {M N : Nat} {T : Type} [CommRing T]

theorem set?_eq (A : Mat M N T) {m n : Nat} (hm : m < M) (hn : n < N) (v : T) : A.set? m n v = some (A.set m n v) := by
  unfold set? set; rw [if_pos ⟨hm, hn⟩]

theorem foldlM_some {α : Type} (f : α → Nat → Option α) (h : α → Nat → α) (l : List Nat)
    (hf : ∀ a, ∀ x ∈ l, f a x = some (h a x)) : ∀ a, l.foldlM f a = some (l.foldl h a) := by
  induction l with
  | nil => intro a; rfl
  | cons x l ih =>
    intro a
    rw [List.foldlM_cons, hf a x (List.mem_cons_self ..), List.foldl_cons]
    exact ih (fun a y hy => hf a y (List.mem_cons_of_mem _ hy)) _

theorem at_setColLoop (f : Nat → T) (A : Mat M N T) (n k : Nat) (hk : k ≤ M) {i j : Nat} (hi : i < M) :
    ((List.range k).foldl (fun A m => A.set m n (f m)) A).at' i j = if i < k ∧ j = n then f i else A.at' i j := by
  induction k with
  | zero => simp
  | succ k ih =>
    rw [List.range_succ, List.foldl_append, List.foldl_cons, List.foldl_nil, at_set _ _ (by omega) hi, ih (by omega)]
    by_cases h1 : i = k
    · subst h1
      by_cases h2 : j = n <;> simp [h2]
    · have : i < k + 1 ↔ i < k := by omega
      simp [h1, this]

theorem at_setRowLoop (f : Nat → T) (A : Mat M N T) (m k : Nat) (hm : m < M) {i j : Nat} (hi : i < M) :
    ((List.range k).foldl (fun A n => A.set m n (f n)) A).at' i j = if i = m ∧ j < k then f j else A.at' i j := by
  induction k with
  | zero => simp
  | succ k ih =>
    rw [List.range_succ, List.foldl_append, List.foldl_cons, List.foldl_nil, at_set _ _ hm hi, ih]
    by_cases h1 : j = k
    · subst h1
      by_cases h2 : i = m <;> simp [h2]
    · have : j < k + 1 ↔ j < k := by omega
      simp [h1, this]

/-- **C74** `setCol`/`setRow` replace exactly one column or row; `getCol`/`getRow` return it; an index out of
range throws. -/
theorem rows_cols (A : Mat M N T) (m n : Nat) (hm : m < M) (hn : n < N) (col gc : Mat M 1 T) (row gr : Mat 1 N T) :
    (∃ B, setCol A n col = some B ∧ ∀ i j, toM B i j = if (j : Nat) = n then col.at' i 0 else toM A i j) ∧
    (∃ B, setRow A m row = some B ∧ ∀ i j, toM B i j = if (i : Nat) = m then row.at' 0 j else toM A i j) ∧
    (∃ C, getCol A n gc = some C ∧ ∀ i : Fin M, C.at' i 0 = toM A i ⟨n, hn⟩) ∧
    (∃ C, getRow A m gr = some C ∧ ∀ j : Fin N, C.at' 0 j = toM A ⟨m, hm⟩ j) := by
  have h1 : setCol A n col = some ((List.range M).foldl (fun A m => A.set m n (col.at' m 0)) A) := by
    unfold setCol
    exact foldlM_some _ (fun A m => A.set m n (col.at' m 0)) _ (fun A x hx => set?_eq A (List.mem_range.1 hx) hn _) A
  have h2 : setRow A m row = some ((List.range N).foldl (fun A n => A.set m n (row.at' 0 n)) A) := by
    unfold setRow
    exact foldlM_some _ (fun A n => A.set m n (row.at' 0 n)) _ (fun A x hx => set?_eq A hm (List.mem_range.1 hx) _) A
  have h3 : getCol A n gc = some ((List.range M).foldl (fun C m => C.set m 0 (A.at' m n)) gc) := by
    refine foldlM_some _ (fun C m => C.set m 0 (A.at' m n)) _ (fun C x hx => ?_) gc
    rw [show A.get? x n = some (A.at' x n) by unfold get? at'; rw [if_pos ⟨List.mem_range.1 hx, hn⟩]]
    exact set?_eq C (List.mem_range.1 hx) (by omega) _
  have h4 : getRow A m gr = some ((List.range N).foldl (fun C n => C.set 0 n (A.at' m n)) gr) := by
    refine foldlM_some _ (fun C n => C.set 0 n (A.at' m n)) _ (fun C x hx => ?_) gr
    rw [show A.get? m x = some (A.at' m x) by unfold get? at'; rw [if_pos ⟨hm, List.mem_range.1 hx⟩]]
    exact set?_eq C (by omega) (List.mem_range.1 hx) _
  refine ⟨⟨_, h1, ?_⟩, ⟨_, h2, ?_⟩, ⟨_, h3, ?_⟩, ⟨_, h4, ?_⟩⟩
  · intro i j
    simp only [toM]
    rw [at_setColLoop (fun m => col.at' m 0) _ _ _ (le_refl _) i.2]
    simp [i.2]
  · intro i j
    simp only [toM]
    rw [at_setRowLoop (fun n => row.at' 0 n) _ _ _ hm i.2]
    simp [j.2]
  · intro i
    rw [at_setColLoop (fun m => A.at' m n) _ _ _ (le_refl _) i.2]
    simp [i.2, toM]
  · intro j
    rw [at_setRowLoop (fun n => A.at' m n) _ _ _ (by omega) (by omega)]
    simp [j.2, toM]

/-- **C74** Indices out of range. -/
theorem rows_cols_range (A : Mat M N T) (m n : Nat) (col gc : Mat M 1 T) (row gr : Mat 1 N T) :
    (N ≤ n → 0 < M → setCol A n col = none ∧ getCol A n gc = none) ∧
    (M ≤ m → 0 < N → setRow A m row = none ∧ getRow A m gr = none) := by
  refine ⟨fun hn hM => ?_, fun hm hN => ?_⟩
  · obtain ⟨k, rfl⟩ : ∃ k, M = k + 1 := ⟨M - 1, by omega⟩
    refine ⟨?_, ?_⟩
    · unfold setCol
      rw [List.range_succ_eq_map, List.foldlM_cons, show A.set? 0 n (col.at' 0 0) = none by
        unfold set?; rw [if_neg (by omega)]]
      rfl
    · unfold getCol
      rw [List.range_succ_eq_map, List.foldlM_cons, show A.get? 0 n = none by unfold get?; rw [if_neg (by omega)]]
      rfl
  · obtain ⟨k, rfl⟩ : ∃ k, N = k + 1 := ⟨N - 1, by omega⟩
    refine ⟨?_, ?_⟩
    · unfold setRow
      rw [List.range_succ_eq_map, List.foldlM_cons, show A.set? m 0 (row.at' 0 0) = none by
        unfold set?; rw [if_neg (by omega)]]
      rfl
    · unfold getRow
      rw [List.range_succ_eq_map, List.foldlM_cons, show A.get? m 0 = none by unfold get?; rw [if_neg (by omega)]]
      rfl

/-- Case of `rows_cols` and `rows_cols_range`: a 2x2 matrix (1 3; 2 4) in column order, column 1 replaced by (5, 6), row 0 read, column 2 refused. -/
example : let A : Mat 2 2 Int := ⟨fun k => k + 1⟩
    (∃ B, setCol A 1 ⟨fun k => 5 + k⟩ = some B ∧ toM B 0 0 = 1 ∧ toM B 1 0 = 2 ∧ toM B 0 1 = 5 ∧ toM B 1 1 = 6) ∧
    (∃ C, getRow A 0 ⟨fun _ => 0⟩ = some C ∧ C.at' 0 0 = 1 ∧ C.at' 0 1 = 3) ∧
    setCol A 2 ⟨fun k => 5 + k⟩ = none := by
  refine ⟨⟨_, rfl, by decide⟩, ⟨_, rfl, by decide⟩, rfl⟩

end RowsCols
end Verif.Math.Mat
