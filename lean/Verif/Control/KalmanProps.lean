/-
C52: the covariance stays symmetric positive semidefinite; C75: an exact start stays exact.
-/
import Verif.Control.Kalman
import Verif.Math.InverseProps
import Mathlib.LinearAlgebra.Matrix.PosDef
import Mathlib.Algebra.Order.Star.Real
import Mathlib.Tactic.NoncommRing

set_option linter.unusedSectionVars false

namespace Verif.Control.Kalman
open Verif.Math Verif.Math.Mat Matrix

variable {n q p v : Nat} (G : (a b : Nat) → Mat a b ℝ)

/-! ### The equations -/

theorem predict_P (k : Params n q p v) (u : Mat q 1 ℝ) (s : St n) :
    toM (predict G k u s).P =
      toM k.Ad * toM s.P * (toM k.Ad).transpose + toM k.Gd * toM k.Q * (toM k.Gd).transpose := by
  simp only [predict, noise, toM_add, toM_mul, toM_transpose]

theorem innov_eq (k : Params n q p v) (P : Mat n n ℝ) :
    toM (innov G k P) = toM k.C * toM P * (toM k.C).transpose + toM k.R := by
  simp only [innov, toM_add, toM_mul, toM_transpose]

theorem update_P (k : Params n q p v) (y : Mat p 1 ℝ) (u : Mat q 1 ℝ) (s : St n) (B : Mat p p ℝ) :
    toM (update G k y u s B).P = (1 - toM s.P * (toM k.C).transpose * toM B * toM k.C) * toM s.P := by
  simp only [update, toM_sub, toM_mul, toM_transpose, toM_eye]

theorem posSemidef_conj {a b : Nat} (X : Matrix (Fin a) (Fin b) ℝ) {P : Matrix (Fin b) (Fin b) ℝ}
    (hP : P.PosSemidef) : (X * P * X.transpose).PosSemidef := by
  have := hP.mul_mul_conjTranspose_same X
  rwa [conjTranspose_eq_transpose_of_trivial] at this

theorem innov_posDef (k : Params n q p v) (P : Mat n n ℝ) (hP : (toM P).PosSemidef) (hR : (toM k.R).PosDef) :
    (toM (innov G k P)).PosDef := by
  rw [innov_eq]
  exact PosDef.posSemidef_add (posSemidef_conj _ hP) hR

/-- The covariance update with a gain which satisfies `K S = P Cᵀ`: Joseph's form, and the decrease. -/
theorem joseph {P : Matrix (Fin n) (Fin n) ℝ} {C : Matrix (Fin p) (Fin n) ℝ} {R : Matrix (Fin p) (Fin p) ℝ}
    {K : Matrix (Fin n) (Fin p) ℝ} (hPs : P.transpose = P) (hRs : R.transpose = R)
    (hKS : K * (C * P * C.transpose + R) = P * C.transpose) :
    (1 - K * C) * P = (1 - K * C) * P * (1 - K * C).transpose + K * R * K.transpose ∧
    P - (1 - K * C) * P = K * (C * P * C.transpose + R) * K.transpose := by
  have hR : K * R = P * C.transpose - K * (C * P * C.transpose) := by
    rw [← hKS, Matrix.mul_add]; abel
  have hSs : (C * P * C.transpose + R).transpose = C * P * C.transpose + R := by
    rw [transpose_add, transpose_mul, transpose_mul, transpose_transpose, hPs, hRs, Matrix.mul_assoc]
  constructor
  · rw [hR, transpose_sub, transpose_one, transpose_mul]
    simp only [Matrix.sub_mul, Matrix.mul_sub, Matrix.one_mul, Matrix.mul_one, Matrix.mul_assoc]
    abel
  · rw [Matrix.sub_mul, Matrix.one_mul, sub_sub_cancel]
    have h1 := congrArg Matrix.transpose hKS
    rw [transpose_mul, hSs, transpose_mul, transpose_transpose, hPs] at h1
    rw [Matrix.mul_assoc K (C * P * C.transpose + R), h1, Matrix.mul_assoc]

/-- Sizes for which `operator!` is right (see C48): 1, 2, 3 and the powers of two. -/
def GoodSize (p : Nat) : Prop := p = 3 ∨ ∃ k, p = 2 ^ k

theorem inv_right (hp : GoodSize p) (S : Mat p p ℝ) (hS : (toM S).det ≠ 0) :
    ∃ B, Mat.inv (fun k => G k k) p S = .ok B ∧ toM S * toM B = 1 ∧ toM B * toM S = 1 := by
  rcases hp with h3 | ⟨k, hk⟩
  · exact (inverse_right_partial (fun k => G k k) p S (Or.inl h3)).1 hS
  · by_cases hk0 : k = 0
    · subst hk0
      have h1 : p = 1 := by rw [hk]; rfl
      subst h1
      exact inverse_1x1 (fun k => G k k) S hS
    · exact (inverse_right_partial (fun k => G k k) p S (Or.inr ⟨k, by omega, hk⟩)).1 hS

/-- One correction (after the first call): it does not throw, the innovation covariance is invertible, the
covariance stays positive semidefinite (this includes symmetry) and does not increase. -/
theorem correct_psd_partial (hp : GoodSize p) (k : Params n q p v) (hR : (toM k.R).PosDef) (y : Mat p 1 ℝ)
    (u : Mat q 1 ℝ) (s : St n) (hP : (toM s.P).PosSemidef) (hf : s.first = false) :
    ∃ s', correct G k y u s = some s' ∧ (toM (innov G k s.P)).det ≠ 0 ∧
      (toM s'.P).PosSemidef ∧ (toM s.P - toM s'.P).PosSemidef := by
  have hS := innov_posDef G k s.P hP hR
  have hd : (toM (innov G k s.P)).det ≠ 0 := by
    have := hS.isUnit
    rw [isUnit_iff_isUnit_det] at this
    exact this.ne_zero
  obtain ⟨B, hB, h1, h2⟩ := inv_right G hp (innov G k s.P) hd
  refine ⟨update G k y u s B, ?_, hd, ?_⟩
  · unfold correct
    rw [hf, hB]
    simp
  · rw [update_P]
    rw [innov_eq] at h2 hS
    have hPs : (toM s.P).transpose = toM s.P := by
      have := hP.isHermitian.eq
      rwa [conjTranspose_eq_transpose_of_trivial] at this
    have hRs : (toM k.R).transpose = toM k.R := by
      have := hR.isHermitian.eq
      rwa [conjTranspose_eq_transpose_of_trivial] at this
    obtain ⟨j1, j2⟩ := joseph (K := toM s.P * (toM k.C).transpose * toM B) hPs hRs
      (by rw [Matrix.mul_assoc, h2, Matrix.mul_one])
    refine ⟨?_, ?_⟩
    · rw [j1]
      exact (posSemidef_conj _ hP).add (posSemidef_conj _ hR.posSemidef)
    · rw [j2]
      exact posSemidef_conj _ hS.posSemidef

theorem predict_psd (k : Params n q p v) (hQ : (toM k.Q).PosSemidef) (u : Mat q 1 ℝ) (s : St n)
    (hP : (toM s.P).PosSemidef) : (toM (predict G k u s).P).PosSemidef := by
  rw [predict_P]
  exact (posSemidef_conj _ hP).add (posSemidef_conj _ hQ)

/-- **C52** (partial: outputs in number 3 or a power of two, because of C48) After every sequence of predictions
and corrections no exception was thrown and the covariance is symmetric positive semidefinite; a further
correction finds an invertible innovation covariance and does not increase the covariance.
The full statement (any number of outputs) is refuted by `five_outputs_negative`. -/
theorem kalman_psd_partial (hp : GoodSize p) (k : Params n q p v) (hR : (toM k.R).PosDef)
    (hQ : (toM k.Q).PosSemidef) (ops : List (Op q p)) : ∀ (s : St n), (toM s.P).PosSemidef →
    ∃ s', run G k s ops = some s' ∧ (toM s'.P).PosSemidef ∧ (toM (innov G k s'.P)).det ≠ 0 ∧
      ∀ y u, ∃ s'', correct G k y u s' = some s'' ∧ (toM s'.P - toM s''.P).PosSemidef := by
  induction ops with
  | nil =>
    intro s hP
    refine ⟨s, rfl, hP, ?_, ?_⟩
    · have := (innov_posDef G k s.P hP hR).isUnit
      rw [isUnit_iff_isUnit_det] at this
      exact this.ne_zero
    · intro y u
      cases hf : s.first with
      | true => exact ⟨{ s with first := false }, by simp [correct, hf], by simpa using PosSemidef.zero⟩
      | false =>
        obtain ⟨s'', h1, _, _, h4⟩ := correct_psd_partial G hp k hR y u s hP hf
        exact ⟨s'', h1, h4⟩
  | cons op ops ih =>
    intro s hP
    cases op with
    | predict u =>
      obtain ⟨s', h⟩ := ih (predict G k u s) (predict_psd G k hQ u s hP)
      exact ⟨s', h⟩
    | correct y u =>
      cases hf : s.first with
      | true =>
        obtain ⟨s', h⟩ := ih { s with first := false } hP
        refine ⟨s', ?_, h.2⟩
        rw [← h.1]
        simp [run, step, correct, hf]
      | false =>
        obtain ⟨s1, h1, _, h3, _⟩ := correct_psd_partial G hp k hR y u s hP hf
        obtain ⟨s', h⟩ := ih s1 h3
        refine ⟨s', ?_, h.2⟩
        rw [← h.1]
        simp [run, step, h1]

/-- The start of the constructors without initial covariance meets the hypothesis. -/
theorem init_psd : (toM (init0 G : St n).P).PosSemidef := by
  have : toM (init0 G : St n).P = 1 := toM_eye _
  rw [this]
  exact PosSemidef.one

/-- Non-vacuity: one output, one random variable, `R = Q = 1`. -/
example : GoodSize 1 ∧ (toM (Mat.eye (G 1 1))).PosDef ∧ (toM (Mat.eye (G 1 1))).PosSemidef := by
  rw [toM_eye]
  exact ⟨Or.inr ⟨0, rfl⟩, PosDef.one, PosSemidef.one⟩

/-! ### C75 -/

/-- The state as a vector, and the true system `x⁺ = A x + B u`, `y = C x + D u`. -/
def vec {a : Nat} (x : Mat a 1 ℝ) : Fin a → ℝ := fun i => x.at' i 0

theorem vec_mul {a b : Nat} (A : Mat a b ℝ) (x : Mat b 1 ℝ) (g : Mat a 1 ℝ) :
    vec (Mat.mul A x g) = (toM A).mulVec (vec x) := by
  funext i
  have := congrFun (congrFun (toM_mul A x g) i) 0
  rw [Matrix.mul_apply] at this
  exact this

theorem vec_add {a : Nat} (x y g : Mat a 1 ℝ) : vec (Mat.add x y g) = vec x + vec y := by
  funext i
  exact congrFun (congrFun (toM_add x y g) i) 0

theorem vec_sub {a : Nat} (x y g : Mat a 1 ℝ) : vec (Mat.sub x y g) = vec x - vec y := by
  funext i
  exact congrFun (congrFun (toM_sub x y g) i) 0

/-- The error of the estimate: a prediction multiplies it by `A`, a correction with a measurement of the true
system by `1 - K C`, where `K = P Cᵀ B` and `B` is the computed inverse. -/
theorem error_dynamics (k : Params n q p v) (s : St n) (u : Mat q 1 ℝ) (y : Mat p 1 ℝ) (B : Mat p p ℝ)
    (xt : Fin n → ℝ) :
    (toM k.Ad).mulVec xt + (toM k.Bd).mulVec (vec u) - vec (predict G k u s).x =
      (toM k.Ad).mulVec (xt - vec s.x) ∧
    (vec y = (toM k.C).mulVec xt + (toM k.D).mulVec (vec u) →
      xt - vec (update G k y u s B).x =
        (1 - toM s.P * (toM k.C).transpose * toM B * toM k.C).mulVec (xt - vec s.x)) := by
  constructor
  · simp only [predict, vec_add, vec_mul, Matrix.mulVec_sub]
    abel
  · intro hy
    simp only [update, vec_add, vec_mul, vec_sub, hy, toM_mul, toM_transpose]
    have : (toM k.C).mulVec xt + (toM k.D).mulVec (vec u) - (toM k.C).mulVec (vec s.x) - (toM k.D).mulVec (vec u) =
        (toM k.C).mulVec (xt - vec s.x) := by
      rw [Matrix.mulVec_sub]; abel
    rw [this, Matrix.mulVec_mulVec, Matrix.sub_mulVec, Matrix.one_mulVec]
    abel

/-- Measurements and inputs come from the true system with state `xt`. -/
def Consistent (k : Params n q p v) : (Fin n → ℝ) → List (Op q p) → Prop
  | _, [] => True
  | xt, .predict u :: ops => Consistent k ((toM k.Ad).mulVec xt + (toM k.Bd).mulVec (vec u)) ops
  | xt, .correct y u :: ops => vec y = (toM k.C).mulVec xt + (toM k.D).mulVec (vec u) ∧ Consistent k xt ops

/-- State of the true system after the predictions of a history. -/
def truth (k : Params n q p v) : (Fin n → ℝ) → List (Op q p) → Fin n → ℝ
  | xt, [] => xt
  | xt, .predict u :: ops => truth k ((toM k.Ad).mulVec xt + (toM k.Bd).mulVec (vec u)) ops
  | xt, .correct _ _ :: ops => truth k xt ops

/-- **C75** If the filter starts in the state of a noise-free system and all measurements and inputs are those of
that system, the estimate equals the true state after every history which does not throw. -/
theorem exact_start_stays_exact (k : Params n q p v) (ops : List (Op q p)) : ∀ (s : St n) (xt : Fin n → ℝ) (s' : St n),
    vec s.x = xt → Consistent k xt ops → run G k s ops = some s' → vec s'.x = truth k xt ops := by
  induction ops with
  | nil =>
    intro s xt s' h _ hr
    simp only [run, Option.some.injEq] at hr
    subst hr
    exact h
  | cons op ops ih =>
    intro s xt s' h hc hr
    cases op with
    | predict u =>
      refine ih (predict G k u s) _ s' ?_ hc hr
      have := (error_dynamics G k s u ⟨fun _ => 0⟩ ⟨fun _ => 0⟩ xt).1
      rw [h, sub_self, Matrix.mulVec_zero, sub_eq_zero] at this
      exact this.symm
    | correct y u =>
      have hstep : ∃ s1, correct G k y u s = some s1 ∧ run G k s1 ops = some s' := by
        cases hcr : correct G k y u s with
        | none => simp [run, step, hcr] at hr
        | some s1 => exact ⟨s1, rfl, by simpa [run, step, hcr] using hr⟩
      obtain ⟨s1, h1, h2⟩ := hstep
      refine ih s1 xt s' ?_ hc.2 h2
      unfold correct at h1
      split at h1
      · simp only [Option.some.injEq] at h1
        subst h1
        exact h
      · split at h1
        · rename_i B _
          simp only [Option.some.injEq] at h1
          subst h1
          have := (error_dynamics G k s u y B xt).2 hc.1
          rw [h, sub_self, Matrix.mulVec_zero, sub_eq_zero] at this
          exact this.symm
        · simp at h1

/-- Case of `exact_start_stays_exact` and `error_dynamics`: one state which doubles and is moved by the input, the first correction (whose
measurement 3 is that of the system) and a prediction with input 1 bring the estimate from 3 to 7. -/
example : let k : Params 1 1 1 1 := ⟨⟨fun _ => 2⟩, ⟨fun _ => 1⟩, ⟨fun _ => 1⟩, ⟨fun _ => 0⟩, ⟨fun _ => 1⟩, ⟨fun _ => 1⟩, ⟨fun _ => 1⟩⟩
    let ops : List (Op 1 1) := [.correct ⟨fun _ => 3⟩ ⟨fun _ => 1⟩, .predict ⟨fun _ => 1⟩]
    Consistent k (fun _ => 3) ops ∧ (∃ s', run G k ⟨⟨fun _ => 3⟩, ⟨fun _ => 1⟩, true⟩ ops = some s' ∧ vec s'.x = truth k (fun _ => 3) ops) ∧
    truth k (fun _ => 3) ops = fun _ => 7 := by
  intro k ops
  have hc : Consistent k (fun _ => 3) ops := by
    refine ⟨?_, trivial⟩
    funext i
    simp [k, vec, Matrix.mulVec, dotProduct, toM, at']
  refine ⟨hc, ⟨_, rfl, exact_start_stays_exact G k ops ⟨⟨fun _ => 3⟩, ⟨fun _ => 1⟩, true⟩ _ _ rfl hc rfl⟩, ?_⟩
  funext i
  simp only [ops, k, truth, vec, Matrix.mulVec, dotProduct, toM, at', Pi.add_apply, Finset.univ_unique, Finset.sum_const, Finset.card_singleton]
  norm_num

/-! ### Five outputs -/

/-- Uninitialised memory: 4x4 matrices contain the rows (?, ?, ?, ?), (-4,0,0,0), (0,1,0,0), (0,0,1,0). -/
noncomputable def badMem : (a b : Nat) → Mat a b ℝ := fun a b =>
  if a = 4 ∧ b = 4 then ⟨fun i => if i = 1 then -4 else if i = 6 then 1 else if i = 11 then 1 else 0⟩ else ⟨fun _ => 0⟩

/-- One state, five outputs of which the first one measures the state; identity covariances. -/
noncomputable def five : Params 1 1 5 1 where
  Ad := ⟨fun _ => 1⟩
  Bd := ⟨fun _ => 0⟩
  C := ⟨fun i => if i = 0 then 1 else 0⟩
  D := ⟨fun _ => 0⟩
  Gd := ⟨fun _ => 1⟩
  Q := ⟨fun _ => 1⟩
  R := ⟨fun i => if i % 6 = 0 then 1 else 0⟩

theorem five_R : (toM five.R) = 1 := by
  ext i j
  fin_cases i <;> fin_cases j <;> simp [toM, at', five]

theorem five_innov : ∀ i j : Fin 5, (innov badMem five (⟨fun _ => 1⟩ : Mat 1 1 ℝ)).at' i j =
    if i = j then (if i = 0 then 2 else 1) else 0 := by
  intro i j
  have h := congrFun (congrFun (innov_eq badMem five ⟨fun _ => 1⟩) i) j
  change (innov badMem five _).at' i j = _ at h
  rw [h, five_R]
  simp only [Matrix.add_apply, Matrix.mul_apply, Fin.sum_univ_one, Matrix.transpose_apply, toM, at', five]
  fin_cases i <;> fin_cases j <;> norm_num [Matrix.one_apply]

theorem five_det : (toM (innov badMem five (⟨fun _ => 1⟩ : Mat 1 1 ℝ))).det = 2 := by
  have h : toM (innov badMem five (⟨fun _ => 1⟩ : Mat 1 1 ℝ)) = Matrix.diagonal ![2, 1, 1, 1, 1] := by
    ext i j
    change (innov badMem five (⟨fun _ => 1⟩ : Mat 1 1 ℝ)).at' i j = _
    rw [five_innov]
    fin_cases i <;> fin_cases j <;> simp
  rw [h, Matrix.det_diagonal]
  simp [Fin.prod_univ_succ]

/-- **C52 violated** for five outputs: `operator!` is wrong for this size (C48), and for some contents of
uninitialised memory the variance of the single state becomes negative after one correction, although all
covariances are identities. -/
theorem five_outputs_negative :
    ∃ (G : (a b : Nat) → Mat a b ℝ) (k : Params 1 1 5 1) (s s' : St 1),
      toM k.R = 1 ∧ toM k.Q = 1 ∧ toM s.P = 1 ∧ s.first = false ∧
      correct G k ⟨fun _ => 0⟩ ⟨fun _ => 0⟩ s = some s' ∧ s'.P.at' 0 0 < 0 := by
  have h1 : toM (⟨fun _ => 1⟩ : Mat 1 1 ℝ) = 1 := by
    ext i j
    have hi : i = 0 := Subsingleton.elim _ _
    have hj : j = 0 := Subsingleton.elim _ _
    subst hi hj; rfl
  let s : St 1 := ⟨⟨fun _ => 0⟩, ⟨fun _ => 1⟩, false⟩
  let S := innov badMem five s.P
  have hdet : Mat.det (fun k => badMem k k) 5 S = 2 := by
    rw [det_eq (fun k => badMem k k) 4]; exact five_det
  have hno : isOrthogonal S (badMem 5 5) = false := by
    rw [Bool.eq_false_iff, ne_eq, isOrthogonal_iff]
    intro h
    have h00 := congrFun (congrFun h 0) 0
    rw [Matrix.mul_apply, Fin.sum_univ_five] at h00
    simp only [Matrix.transpose_apply, toM] at h00
    simp only [S, s] at h00
    rw [five_innov 0 0, five_innov 0 1, five_innov 0 2, five_innov 0 3, five_innov 0 4] at h00
    have e2 : ¬ (0 : Fin 5) = 2 := by decide
    have e3 : ¬ (0 : Fin 5) = 3 := by decide
    have e4 : ¬ (0 : Fin 5) = 4 := by decide
    norm_num [e2, e3, e4] at h00
  have hinv : Mat.inv (fun k => badMem k k) 5 S =
      .ok (Mat.transpose (cofactors (fun k => badMem k k) S 2) (badMem 5 5)) := by
    unfold Mat.inv
    simp only [hdet, hno]
    norm_num
  let B := Mat.transpose (cofactors (fun k => badMem k k) S 2) (badMem 5 5)
  refine ⟨badMem, five, s, update badMem five ⟨fun _ => 0⟩ ⟨fun _ => 0⟩ s B, five_R, h1, h1, rfl, ?_, ?_⟩
  · unfold correct
    change (if false = true then _ else _) = _
    rw [if_neg (by simp)]
    rw [show Mat.inv (fun k => badMem k k) 5 (innov badMem five s.P) = _ from hinv]
  · -- the computed element (0,0) of the inverse is 2 instead of 1/2
    have hB : B.at' 0 0 = 2 := by
      change (Mat.transpose (cofactors (fun k => badMem k k) S 2) (badMem 5 5)).at' 0 0 = 2
      rw [at_transpose _ _ (by omega) (by omega)]
      obtain ⟨S0, hS0, hc0⟩ := cofactors5 (fun k => badMem k k) S 2 0 0 (by omega) (by omega) rfl
      rw [hc0, det_eq (fun k => badMem k k) 3]
      have hm : toM (minor S 0 0 S0) = !![0, 0, 0, 1; -4, 0, 0, 0; 0, 1, 0, 0; 0, 0, 1, 0] := by
        have hrow : ∀ (y x : Fin 4), 0 < (y : Nat) → toM (minor S 0 0 S0) y x = (badMem 4 4).at' y x := by
          intro y x hy
          change (minor S 0 0 S0).at' y x = _
          rw [minor5_rows _ _ _ _ hy y.2, hS0 _ _ hy y.2]
        have hrow0 : ∀ x : Fin 4, toM (minor S 0 0 S0) 0 x = S.at' 4 (x + 1) := by
          intro x
          change (minor S 0 0 S0).at' 0 x = _
          rw [minor5_row0 S 0 0 (by omega) (by omega) S0 x.2]
          rfl
        have hS4 : ∀ x : Fin 4, S.at' 4 (x + 1) = if (x : Nat) = 3 then 1 else 0 := by
          intro x
          have := five_innov 4 x.succ
          simp only [Fin.val_succ] at this
          rw [show S.at' 4 (x + 1) = _ from this]
          fin_cases x <;> simp
        ext y x
        by_cases hy : 0 < (y : Nat)
        · rw [hrow y x hy]
          fin_cases y <;> fin_cases x <;> first | (exfalso; simp at hy; done) | simp [badMem, at']
        · have : y = 0 := by ext; simp; omega
          subst this
          rw [hrow0, hS4]
          fin_cases x <;> simp
      rw [hm]
      simp [Matrix.det_succ_row_zero, Fin.sum_univ_succ, Fin.succAbove]
      norm_num
    have h := congrFun (congrFun (update_P badMem five ⟨fun _ => 0⟩ ⟨fun _ => 0⟩ s B) 0) 0
    change (update badMem five _ _ s B).P.at' 0 0 = _ at h
    rw [h]
    simp only [Matrix.mul_apply, Fin.sum_univ_one, Matrix.sub_apply, Fin.sum_univ_five, Matrix.transpose_apply,
      Matrix.one_apply_eq]
    have hP : toM s.P 0 0 = 1 := rfl
    have hC : ∀ i : Fin 5, toM five.C i 0 = if i = 0 then 1 else 0 := by
      intro i; fin_cases i <;> simp [toM, at', five]
    simp only [hP, hC]
    have hB' : toM B 0 0 = 2 := hB
    simp [hB']

end Verif.Control.Kalman
