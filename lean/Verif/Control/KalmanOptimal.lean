/-
C230: the covariance of the Kalman filter is the covariance of its error; C231: no other gains give a smaller error.

The filter is that of `Verif/Control/Kalman.lean`.  What is random is described by a linear functional `E` (the expected value) on functions of the outcome `ω`: each
outcome has its own initial state, disturbances and measurement errors, hence its own run of the filter.
-/
import Verif.Control.KalmanProps
import Mathlib.Algebra.Module.LinearMap.Basic

set_option linter.unusedSectionVars false

namespace Verif.Control.Kalman.Optimal
open Verif.Math Verif.Math.Mat Matrix

/-! ### Specification -/

variable {Ω : Type} {n q p v : Nat}

/-- Second moments of two random vectors. -/
def cov {a b : Nat} (E : (Ω → ℝ) →ₗ[ℝ] ℝ) (x : Ω → Fin a → ℝ) (y : Ω → Fin b → ℝ) : Matrix (Fin a) (Fin b) ℝ := fun i j => E (fun ω => x ω i * y ω j)

/-- One call of the filter, and what is random in it: the disturbance of the system until this prediction, or the error of the measurement. -/
inductive Noisy (Ω : Type) (q p v : Nat) where
  | predict (u : Mat q 1 ℝ) (w : Ω → Fin v → ℝ)
  | correct (u : Mat q 1 ℝ) (r : Ω → Fin p → ℝ)

/-- A vector as matrix with one column. -/
def col {a : Nat} (f : Fin a → ℝ) : Mat a 1 ℝ := ⟨fun i => if h : i < a then f ⟨i, h⟩ else 0⟩

/-- The system: `x⁺ = Ad x + Bd u + Gd w`. -/
def next (k : Params n q p v) (x : Ω → Fin n → ℝ) : Noisy Ω q p v → Ω → Fin n → ℝ
  | .predict u w => fun ω => (toM k.Ad).mulVec (x ω) + (toM k.Bd).mulVec (vec u) + (toM k.Gd).mulVec (w ω)
  | .correct _ _ => x

/-- The call the filter gets in outcome `ω`: measured is `C x + D u + r`. -/
def call (k : Params n q p v) (x : Ω → Fin n → ℝ) (ω : Ω) : Noisy Ω q p v → Op q p
  | .predict u _ => .predict u
  | .correct u r => .correct (col ((toM k.C).mulVec (x ω) + (toM k.D).mulVec (vec u) + r ω)) u

/-- The true state after a history. -/
def world (k : Params n q p v) (x : Ω → Fin n → ℝ) (l : List (Noisy Ω q p v)) : Ω → Fin n → ℝ := l.foldl (next k) x

/-- The calls of a history. -/
def calls (k : Params n q p v) : (Ω → Fin n → ℝ) → Ω → List (Noisy Ω q p v) → List (Op q p)
  | _, _, [] => []
  | x, ω, o :: l => call k x ω o :: calls k (next k x o) ω l

/-- `x` is uncorrelated with what is random in a call. -/
def Uncor {a : Nat} (E : (Ω → ℝ) →ₗ[ℝ] ℝ) (x : Ω → Fin a → ℝ) : Noisy Ω q p v → Prop
  | .predict _ w => cov E x w = 0
  | .correct _ r => cov E x r = 0

/-- The disturbances have covariance `Q`, the measurement errors `R`, and all of them are uncorrelated with each other. -/
def White (E : (Ω → ℝ) →ₗ[ℝ] ℝ) (k : Params n q p v) : List (Noisy Ω q p v) → Prop
  | [] => True
  | .predict _ w :: l => cov E w w = toM k.Q ∧ (∀ o ∈ l, Uncor E w o) ∧ White E k l
  | .correct _ r :: l => cov E r r = toM k.R ∧ (∀ o ∈ l, Uncor E r o) ∧ White E k l

/-- Another filter with the same model but gains of its own, one for each correction. -/
def other (k : Params n q p v) : (Fin n → ℝ) → List (Op q p × Matrix (Fin n) (Fin p) ℝ) → Fin n → ℝ
  | x, [] => x
  | x, (.predict u, _) :: l => other k ((toM k.Ad).mulVec x + (toM k.Bd).mulVec (vec u)) l
  | x, (.correct y u, L) :: l => other k (x + L.mulVec (vec y - (toM k.C).mulVec x - (toM k.D).mulVec (vec u))) l

/-- The other filter leaves out the first measurement as well, if the filter of the code does (`f`). -/
def Skips : Bool → List (Noisy Ω q p v × Matrix (Fin n) (Fin p) ℝ) → Prop
  | _, [] => True
  | f, (.predict _ _, _) :: l => Skips f l
  | f, (.correct _ _, L) :: _ => f = true → L = 0

/-! ### Second moments -/

variable (E : (Ω → ℝ) →ₗ[ℝ] ℝ)

theorem cov_transpose {a b : Nat} (x : Ω → Fin a → ℝ) (y : Ω → Fin b → ℝ) : (cov E x y).transpose = cov E y x := by
  ext i j
  simp only [Matrix.transpose_apply, cov]
  congr 1; funext ω; ring

theorem cov_add_left {a b : Nat} (x x' : Ω → Fin a → ℝ) (y : Ω → Fin b → ℝ) : cov E (fun ω => x ω + x' ω) y = cov E x y + cov E x' y := by
  ext i j
  simp only [Matrix.add_apply, cov, ← map_add]
  congr 1; funext ω; simp only [Pi.add_apply]; ring

theorem cov_mul_left {a b c : Nat} (M : Matrix (Fin c) (Fin a) ℝ) (x : Ω → Fin a → ℝ) (y : Ω → Fin b → ℝ) :
    cov E (fun ω => M.mulVec (x ω)) y = M * cov E x y := by
  ext i j
  rw [Matrix.mul_apply]
  simp only [cov]
  have : (fun ω => M.mulVec (x ω) i * y ω j) = ∑ t, M i t • (fun ω => x ω t * y ω j) := by
    funext ω
    simp only [Matrix.mulVec, dotProduct, Finset.sum_apply, Pi.smul_apply, smul_eq_mul, Finset.sum_mul]
    exact Finset.sum_congr rfl fun t _ => by ring
  rw [this, map_sum]
  exact Finset.sum_congr rfl fun t _ => by rw [map_smul, smul_eq_mul]

theorem cov_add_right {a b : Nat} (x : Ω → Fin a → ℝ) (y y' : Ω → Fin b → ℝ) : cov E x (fun ω => y ω + y' ω) = cov E x y + cov E x y' := by
  rw [← cov_transpose, cov_add_left, transpose_add, cov_transpose, cov_transpose]

theorem cov_mul_right {a b c : Nat} (M : Matrix (Fin c) (Fin b) ℝ) (x : Ω → Fin a → ℝ) (y : Ω → Fin b → ℝ) :
    cov E x (fun ω => M.mulVec (y ω)) = cov E x y * M.transpose := by
  rw [← cov_transpose, cov_mul_left, transpose_mul, cov_transpose]

/-- The covariance of `M x + N z` if `x` and `z` are uncorrelated. -/
theorem cov_combine {a b c : Nat} (M : Matrix (Fin c) (Fin a) ℝ) (N : Matrix (Fin c) (Fin b) ℝ) (x : Ω → Fin a → ℝ) (z : Ω → Fin b → ℝ) (h : cov E x z = 0) :
    cov E (fun ω => M.mulVec (x ω) + N.mulVec (z ω)) (fun ω => M.mulVec (x ω) + N.mulVec (z ω)) =
      M * cov E x x * M.transpose + N * cov E z z * N.transpose := by
  have h' : cov E z x = 0 := by rw [← cov_transpose, h, transpose_zero]
  rw [cov_add_left, cov_mul_left, cov_mul_left, cov_add_right, cov_add_right, cov_mul_right, cov_mul_right, cov_mul_right, cov_mul_right, h, h']
  simp [Matrix.mul_assoc]

theorem uncor_combine {a b c : Nat} (M : Matrix (Fin c) (Fin a) ℝ) (N : Matrix (Fin c) (Fin b) ℝ) (x : Ω → Fin a → ℝ) (z : Ω → Fin b → ℝ) (o : Noisy Ω q p v)
    (h : Uncor E x o) (hz : Uncor E z o) : Uncor E (fun ω => M.mulVec (x ω) + N.mulVec (z ω)) o := by
  cases o with
  | predict u w => simp only [Uncor] at *; rw [cov_add_left, cov_mul_left, cov_mul_left, h, hz]; simp
  | correct u w => simp only [Uncor] at *; rw [cov_add_left, cov_mul_left, cov_mul_left, h, hz]; simp

/-- The mean square of a combination of the components. -/
theorem square (c : Fin n → ℝ) (x : Ω → Fin n → ℝ) : E (fun ω => (c ⬝ᵥ x ω) ^ 2) = c ⬝ᵥ (cov E x x).mulVec c := by
  let M : Matrix (Fin 1) (Fin n) ℝ := Matrix.of fun _ => c
  have h := congrFun (congrFun ((cov_mul_left E M x (fun ω => M.mulVec (x ω))).trans (congrArg _ (cov_mul_right E M x x))) 0) 0
  have h2 : (fun ω => (c ⬝ᵥ x ω) ^ 2) = fun ω => M.mulVec (x ω) 0 * M.mulVec (x ω) 0 := by
    funext ω; rw [sq]; rfl
  rw [h2, show E _ = _ from h, Matrix.mul_apply]
  rfl

/-! ### The errors -/

theorem vec_col {a : Nat} (f : Fin a → ℝ) : vec (col f) = f := by
  funext i
  simp [vec, col, at', i.2]

/-- The gain of the code, for the computed inverse `B`. -/
def gain (k : Params n q p v) (P : Mat n n ℝ) (B : Mat p p ℝ) : Matrix (Fin n) (Fin p) ℝ := toM P * (toM k.C).transpose * toM B

theorem err_predict (G : (a b : Nat) → Mat a b ℝ) (k : Params n q p v) (s : St n) (u : Mat q 1 ℝ) (w : Ω → Fin v → ℝ) (x : Ω → Fin n → ℝ) (ω : Ω) :
    next k x (.predict u w) ω - vec (predict G k u s).x = (toM k.Ad).mulVec (x ω - vec s.x) + (toM k.Gd).mulVec (w ω) := by
  simp only [next, predict, vec_add, vec_mul, Matrix.mulVec_sub]
  abel

theorem err_correct (G : (a b : Nat) → Mat a b ℝ) (k : Params n q p v) (s : St n) (u : Mat q 1 ℝ) (r : Ω → Fin p → ℝ) (x : Ω → Fin n → ℝ) (ω : Ω) (B : Mat p p ℝ) :
    x ω - vec (update G k (col ((toM k.C).mulVec (x ω) + (toM k.D).mulVec (vec u) + r ω)) u s B).x =
      (1 - gain k s.P B * toM k.C).mulVec (x ω - vec s.x) + (-gain k s.P B).mulVec (r ω) := by
  simp only [update, vec_add, vec_mul, vec_sub, vec_col, toM_mul, toM_transpose, gain]
  have : (toM k.C).mulVec (x ω) + (toM k.D).mulVec (vec u) + r ω - (toM k.C).mulVec (vec s.x) - (toM k.D).mulVec (vec u) =
      (toM k.C).mulVec (x ω - vec s.x) + r ω := by
    rw [Matrix.mulVec_sub]; abel
  rw [this, Matrix.mulVec_add, Matrix.mulVec_mulVec, Matrix.sub_mulVec, Matrix.one_mulVec, Matrix.neg_mulVec]
  abel

/-- **C230.** In every history the covariance matrix of the filter is the covariance of its error: if it is at the begin, and the disturbances and measurement errors
have the covariances given to the filter and are uncorrelated, the filter throws no exception and after the history `P i j` is the expected value of the product of
the errors of the components `i` and `j` of the estimate. -/
theorem covariance_true (G : (a b : Nat) → Mat a b ℝ) (hp : GoodSize p) (k : Params n q p v) (hR : (toM k.R).PosDef) (hQ : (toM k.Q).PosSemidef)
    (l : List (Noisy Ω q p v)) (hw : White E k l) : ∀ (s : Ω → St n) (P : Mat n n ℝ) (f : Bool) (x : Ω → Fin n → ℝ),
    (∀ ω, (s ω).P = P ∧ (s ω).first = f) → (toM P).PosSemidef → cov E (fun ω => x ω - vec (s ω).x) (fun ω => x ω - vec (s ω).x) = toM P →
    (∀ o ∈ l, Uncor E (fun ω => x ω - vec (s ω).x) o) →
    ∃ (s' : Ω → St n) (P' : Mat n n ℝ), (∀ ω, run G k (s ω) (calls k x ω l) = some (s' ω) ∧ (s' ω).P = P') ∧ (toM P').PosSemidef ∧
      cov E (fun ω => world k x l ω - vec (s' ω).x) (fun ω => world k x l ω - vec (s' ω).x) = toM P' := by
  induction l with
  | nil => intro s P f x hs hP hc _; exact ⟨s, P, fun ω => ⟨rfl, (hs ω).1⟩, hP, hc⟩
  | cons o l ih =>
    intro s P f x hs hP hc hu
    cases o with
    | predict u w =>
      obtain ⟨h1, h2, h3⟩ := hw
      have he : (fun ω => next k x (.predict u w) ω - vec (predict G k u (s ω)).x) = fun ω => (toM k.Ad).mulVec (x ω - vec (s ω).x) + (toM k.Gd).mulVec (w ω) := by
        funext ω; exact err_predict G k (s ω) u w x ω
      let P1 : Mat n n ℝ := Mat.add (Mat.mul (Mat.mul k.Ad P (G _ _)) (Mat.transpose k.Ad (G _ _)) (G _ _)) (noise G k) (G _ _)
      have hP1 : toM P1 = toM k.Ad * toM P * (toM k.Ad).transpose + toM k.Gd * toM k.Q * (toM k.Gd).transpose := by
        simp only [P1, noise, toM_add, toM_mul, toM_transpose]
      have hux : cov E (fun ω => x ω - vec (s ω).x) w = 0 := hu (.predict u w) (by simp)
      refine ih h3 (fun ω => predict G k u (s ω)) P1 f (next k x (.predict u w)) ?_ ?_ ?_ ?_
      · intro ω; exact ⟨by simp only [predict, P1, (hs ω).1], (hs ω).2⟩
      · rw [hP1]; exact (posSemidef_conj _ hP).add (posSemidef_conj _ hQ)
      · rw [he, cov_combine E _ _ _ _ hux, hc, h1, hP1]
      · intro o ho; rw [he]; exact uncor_combine E _ _ _ _ o (hu o (by simp [ho])) (h2 o ho)
    | correct u r =>
      obtain ⟨h1, h2, h3⟩ := hw
      have hux : cov E (fun ω => x ω - vec (s ω).x) r = 0 := hu (.correct u r) (by simp)
      cases f with
      | true =>
        obtain ⟨s', P', a1, a2⟩ := ih h3 (fun ω => { s ω with first := false }) P false x (fun ω => ⟨(hs ω).1, rfl⟩) hP hc (fun o ho => hu o (by simp [ho]))
        refine ⟨s', P', fun ω => ?_, a2⟩
        rw [← (a1 ω).1]
        exact ⟨by simp [calls, call, run, step, correct, (hs ω).2, next], (a1 ω).2⟩
      | false =>
        have hS := innov_posDef G k P hP hR
        have hd : (toM (innov G k P)).det ≠ 0 := by
          have := hS.isUnit
          rw [isUnit_iff_isUnit_det] at this
          exact this.ne_zero
        obtain ⟨B, hB, b1, b2⟩ := inv_right G hp (innov G k P) hd
        rw [innov_eq] at b2
        have hPs : (toM P).transpose = toM P := by
          have := hP.isHermitian.eq
          rwa [conjTranspose_eq_transpose_of_trivial] at this
        have hRs : (toM k.R).transpose = toM k.R := by
          have := hR.isHermitian.eq
          rwa [conjTranspose_eq_transpose_of_trivial] at this
        obtain ⟨j1, -⟩ := joseph (K := gain k P B) hPs hRs (by rw [gain, Matrix.mul_assoc, b2, Matrix.mul_one])
        let y : Ω → Mat p 1 ℝ := fun ω => col ((toM k.C).mulVec (x ω) + (toM k.D).mulVec (vec u) + r ω)
        let P1 : Mat n n ℝ := Mat.mul (Mat.sub (Mat.eye (G _ _)) (Mat.mul (Mat.mul (Mat.mul P (Mat.transpose k.C (G _ _)) (G _ _)) B (G _ _)) k.C (G _ _)) (G _ _)) P (G _ _)
        have hP1 : toM P1 = (1 - gain k P B * toM k.C) * toM P := by
          simp only [P1, gain, toM_sub, toM_mul, toM_transpose, toM_eye]
        have he : (fun ω => x ω - vec (update G k (y ω) u (s ω) B).x) = fun ω => (1 - gain k P B * toM k.C).mulVec (x ω - vec (s ω).x) + (-gain k P B).mulVec (r ω) := by
          funext ω
          have := err_correct G k (s ω) u r x ω B
          rwa [(hs ω).1] at this
        have c1 : ∀ ω, (update G k (y ω) u (s ω) B).P = P1 ∧ (update G k (y ω) u (s ω) B).first = false := by
          intro ω; exact ⟨by simp only [update, P1, (hs ω).1], (hs ω).2⟩
        have c2 : (toM P1).PosSemidef := by
          rw [hP1, j1]; exact (posSemidef_conj _ hP).add (posSemidef_conj _ hR.posSemidef)
        have c3 : cov E (fun ω => x ω - vec (update G k (y ω) u (s ω) B).x) (fun ω => x ω - vec (update G k (y ω) u (s ω) B).x) = toM P1 := by
          rw [he, cov_combine E _ _ _ _ hux, hc, h1, hP1]
          simp only [transpose_neg, Matrix.neg_mul, Matrix.mul_neg, neg_neg]
          exact j1.symm
        have c4 : ∀ o ∈ l, Uncor E (fun ω => x ω - vec (update G k (y ω) u (s ω) B).x) o := by
          intro o ho; rw [he]; exact uncor_combine E _ _ _ _ o (hu o (by simp [ho])) (h2 o ho)
        obtain ⟨s', P', a1, a2⟩ := ih h3 (fun ω => update G k (y ω) u (s ω) B) P1 false x c1 c2 c3 c4
        refine ⟨s', P', fun ω => ⟨?_, (a1 ω).2⟩, a2⟩
        rw [← (a1 ω).1]
        simp [calls, call, run, step, correct, (hs ω).2, (hs ω).1, hB, next, y]

/-! ### Other gains -/

/-- Completing the square: with a gain `K` satisfying `K S = P Cᵀ` any other gain `L` is worse. -/
theorem gap {P : Matrix (Fin n) (Fin n) ℝ} {C : Matrix (Fin p) (Fin n) ℝ} {R : Matrix (Fin p) (Fin p) ℝ} {K : Matrix (Fin n) (Fin p) ℝ} (L : Matrix (Fin n) (Fin p) ℝ)
    (hPs : P.transpose = P) (hRs : R.transpose = R) (hKS : K * (C * P * C.transpose + R) = P * C.transpose) :
    (1 - L * C) * P * (1 - L * C).transpose + L * R * L.transpose - (1 - K * C) * P = (L - K) * (C * P * C.transpose + R) * (L - K).transpose := by
  have hSs : (C * P * C.transpose + R).transpose = C * P * C.transpose + R := by
    rw [transpose_add, transpose_mul, transpose_mul, transpose_transpose, hPs, hRs, Matrix.mul_assoc]
  have h1 := congrArg Matrix.transpose hKS
  rw [transpose_mul, hSs, transpose_mul, transpose_transpose, hPs] at h1
  have e1 : (L - K) * (C * P * C.transpose + R) * (L - K).transpose =
      L * (C * P * C.transpose + R) * L.transpose - L * ((C * P * C.transpose + R) * K.transpose) - K * (C * P * C.transpose + R) * L.transpose +
        K * ((C * P * C.transpose + R) * K.transpose) := by
    rw [transpose_sub]
    simp only [Matrix.sub_mul, Matrix.mul_sub, Matrix.mul_assoc]
    abel
  rw [e1, h1, hKS, transpose_sub, transpose_one, transpose_mul]
  simp only [Matrix.sub_mul, Matrix.mul_sub, Matrix.one_mul, Matrix.mul_one, Matrix.mul_assoc, Matrix.mul_add, Matrix.add_mul]
  abel

theorem symm_of {a : Nat} {P : Matrix (Fin a) (Fin a) ℝ} (h : P.PosSemidef) : P.transpose = P := by
  have := h.isHermitian.eq
  rwa [conjTranspose_eq_transpose_of_trivial] at this

theorem err_other_predict (k : Params n q p v) (z : Fin n → ℝ) (u : Mat q 1 ℝ) (w : Ω → Fin v → ℝ) (x : Ω → Fin n → ℝ) (ω : Ω) :
    next k x (.predict u w) ω - ((toM k.Ad).mulVec z + (toM k.Bd).mulVec (vec u)) = (toM k.Ad).mulVec (x ω - z) + (toM k.Gd).mulVec (w ω) := by
  simp only [next, Matrix.mulVec_sub]
  abel

theorem err_other_correct (k : Params n q p v) (L : Matrix (Fin n) (Fin p) ℝ) (z : Fin n → ℝ) (u : Mat q 1 ℝ) (r : Ω → Fin p → ℝ) (x : Ω → Fin n → ℝ) (ω : Ω) :
    x ω - (z + L.mulVec (vec (col ((toM k.C).mulVec (x ω) + (toM k.D).mulVec (vec u) + r ω)) - (toM k.C).mulVec z - (toM k.D).mulVec (vec u))) =
      (1 - L * toM k.C).mulVec (x ω - z) + (-L).mulVec (r ω) := by
  rw [vec_col]
  have : (toM k.C).mulVec (x ω) + (toM k.D).mulVec (vec u) + r ω - (toM k.C).mulVec z - (toM k.D).mulVec (vec u) = (toM k.C).mulVec (x ω - z) + r ω := by
    rw [Matrix.mulVec_sub]; abel
  rw [this, Matrix.mulVec_add, Matrix.mulVec_mulVec, Matrix.sub_mulVec, Matrix.one_mulVec, Matrix.neg_mulVec]
  abel

theorem skips_false (l : List (Noisy Ω q p v × Matrix (Fin n) (Fin p) ℝ)) : Skips false l := by
  induction l with
  | nil => trivial
  | cons b l ih =>
    obtain ⟨o, M⟩ := b
    cases o with
    | predict _ _ => exact ih
    | correct _ _ => intro h; cases h

/-- The covariance of the other filter minus that of the filter of the code stays positive semidefinite. -/
theorem other_above (G : (a b : Nat) → Mat a b ℝ) (hp : GoodSize p) (k : Params n q p v) (hR : (toM k.R).PosDef) (hQ : (toM k.Q).PosSemidef)
    (l : List (Noisy Ω q p v × Matrix (Fin n) (Fin p) ℝ)) : ∀ (s s' : St n) (x z : Ω → Fin n → ℝ) (ω : Ω), White E k (l.map Prod.fst) → Skips s.first l →
    (toM s.P).PosSemidef → (cov E (fun ω => x ω - z ω) (fun ω => x ω - z ω) - toM s.P).PosSemidef → (∀ o ∈ l.map Prod.fst, Uncor E (fun ω => x ω - z ω) o) →
    run G k s (calls k x ω (l.map Prod.fst)) = some s' →
    (cov E (fun ω => world k x (l.map Prod.fst) ω - other k (z ω) ((calls k x ω (l.map Prod.fst)).zip (l.map Prod.snd)))
      (fun ω => world k x (l.map Prod.fst) ω - other k (z ω) ((calls k x ω (l.map Prod.fst)).zip (l.map Prod.snd))) - toM s'.P).PosSemidef := by
  induction l with
  | nil =>
    intro s s' x z ω _ _ _ hd _ hr
    simp only [List.map_nil, calls, run, Option.some.injEq] at hr
    subst hr
    exact hd
  | cons a l ih =>
    intro s s' x z ω hw hk hP hd hu hr
    obtain ⟨o, L⟩ := a
    cases o with
    | predict u w =>
      obtain ⟨h1, h2, h3⟩ := hw
      have hux : cov E (fun ω => x ω - z ω) w = 0 := hu (.predict u w) (by simp)
      have he : (fun ω => next k x (.predict u w) ω - ((toM k.Ad).mulVec (z ω) + (toM k.Bd).mulVec (vec u))) =
          fun ω => (toM k.Ad).mulVec (x ω - z ω) + (toM k.Gd).mulVec (w ω) := by
        funext ω; exact err_other_predict k (z ω) u w x ω
      refine ih (predict G k u s) s' (next k x (.predict u w)) (fun ω => (toM k.Ad).mulVec (z ω) + (toM k.Bd).mulVec (vec u)) ω h3 hk (predict_psd G k hQ u s hP) ?_ ?_ hr
      · rw [he, cov_combine E _ _ _ _ hux, h1, predict_P]
        have := posSemidef_conj (toM k.Ad) hd
        rw [Matrix.mul_sub, Matrix.sub_mul] at this
        convert this using 1
        abel
      · intro o ho; rw [he]; exact uncor_combine E _ _ _ _ o (hu o (by simp [ho])) (h2 o ho)
    | correct u r =>
      obtain ⟨h1, h2, h3⟩ := hw
      have hux : cov E (fun ω => x ω - z ω) r = 0 := hu (.correct u r) (by simp)
      let y : Ω → Mat p 1 ℝ := fun ω => col ((toM k.C).mulVec (x ω) + (toM k.D).mulVec (vec u) + r ω)
      have he : (fun ω => x ω - (z ω + L.mulVec (vec (y ω) - (toM k.C).mulVec (z ω) - (toM k.D).mulVec (vec u)))) =
          fun ω => (1 - L * toM k.C).mulVec (x ω - z ω) + (-L).mulVec (r ω) := by
        funext ω; exact err_other_correct k L (z ω) u r x ω
      have hun : ∀ o ∈ l.map Prod.fst, Uncor E (fun ω => x ω - (z ω + L.mulVec (vec (y ω) - (toM k.C).mulVec (z ω) - (toM k.D).mulVec (vec u)))) o := by
        intro o ho; rw [he]; exact uncor_combine E _ _ _ _ o (hu o (by simp at ho ⊢; exact Or.inr ho)) (h2 o ho)
      cases hf : s.first with
      | true =>
        have hL : L = 0 := hk hf
        have hr' : run G k { s with first := false } (calls k x ω (l.map Prod.fst)) = some s' := by
          simpa [calls, call, run, step, correct, hf, next] using hr
        have hk' : Skips (Ω := Ω) (q := q) (p := p) (v := v) (n := n) false l := skips_false l
        refine ih { s with first := false } s' x _ ω h3 hk' hP ?_ hun hr'
        rw [he, hL]
        simp only [Matrix.zero_mul, sub_zero, neg_zero, Matrix.one_mulVec, Matrix.zero_mulVec, add_zero]
        exact hd
      | false =>
        have hS := innov_posDef G k s.P hP hR
        have hdet : (toM (innov G k s.P)).det ≠ 0 := by
          have := hS.isUnit
          rw [isUnit_iff_isUnit_det] at this
          exact this.ne_zero
        obtain ⟨B, hB, b1, b2⟩ := inv_right G hp (innov G k s.P) hdet
        rw [innov_eq] at b2 hS
        have hg := gap (K := gain k s.P B) L (symm_of hP) (symm_of hR.posSemidef) (by rw [gain, Matrix.mul_assoc, b2, Matrix.mul_one])
        obtain ⟨j1, -⟩ := joseph (K := gain k s.P B) (symm_of hP) (symm_of hR.posSemidef) (by rw [gain, Matrix.mul_assoc, b2, Matrix.mul_one])
        have hUP : toM (update G k (y ω) u s B).P = (1 - gain k s.P B * toM k.C) * toM s.P := update_P G k (y ω) u s B
        have hr' : run G k (update G k (y ω) u s B) (calls k x ω (l.map Prod.fst)) = some s' := by
          simpa [calls, call, run, step, correct, hf, hB, next, y] using hr
        refine ih (update G k (y ω) u s B) s' x _ ω h3 ?_ ?_ ?_ hun hr'
        · have : (update G k (y ω) u s B).first = false := hf
          rw [this]
          exact skips_false l
        · rw [hUP, j1]; exact (posSemidef_conj _ hP).add (posSemidef_conj _ hR.posSemidef)
        · rw [he, cov_combine E _ _ _ _ hux, h1, hUP]
          simp only [transpose_neg, Matrix.neg_mul, Matrix.mul_neg, neg_neg]
          have a1 := posSemidef_conj (1 - L * toM k.C) hd
          have a2 := posSemidef_conj (L - gain k s.P B) hS.posSemidef
          rw [← hg] at a2
          have := a1.add a2
          rw [Matrix.mul_sub, Matrix.sub_mul] at this
          convert this using 1
          abel

theorem dot_nonneg {a : Nat} {M : Matrix (Fin a) (Fin a) ℝ} (h : M.PosSemidef) (c : Fin a → ℝ) : 0 ≤ c ⬝ᵥ M.mulVec c := by
  have := h.dotProduct_mulVec_nonneg c
  rwa [star_trivial] at this

theorem quad {a b : Nat} (K : Matrix (Fin a) (Fin b) ℝ) (S : Matrix (Fin b) (Fin b) ℝ) (c : Fin a → ℝ) :
    c ⬝ᵥ (K * S * K.transpose).mulVec c = (K.transpose.mulVec c) ⬝ᵥ S.mulVec (K.transpose.mulVec c) := by
  rw [Matrix.mul_assoc, ← Matrix.mulVec_mulVec, ← Matrix.mulVec_mulVec, Matrix.dotProduct_mulVec, ← Matrix.mulVec_transpose]

/-- **C231** (partial: filters which leave out the first measurement as the filter of the code does, see `first_measurement_violated`).  Whatever gains another
filter uses in its corrections, after every history the mean square error of its estimate is at least that of the filter of the code, for each component and each
combination `c` of the components. -/
theorem no_better_partial (G : (a b : Nat) → Mat a b ℝ) (hp : GoodSize p) (k : Params n q p v) (hR : (toM k.R).PosDef) (hQ : (toM k.Q).PosSemidef)
    (l : List (Noisy Ω q p v × Matrix (Fin n) (Fin p) ℝ)) (hw : White E k (l.map Prod.fst)) (s : St n) (x : Ω → Fin n → ℝ) (hk : Skips s.first l)
    (hP : (toM s.P).PosSemidef) (hc : cov E (fun ω => x ω - vec s.x) (fun ω => x ω - vec s.x) = toM s.P)
    (hu : ∀ o ∈ l.map Prod.fst, Uncor E (fun ω => x ω - vec s.x) o) :
    ∃ s' : Ω → St n, (∀ ω, run G k s (calls k x ω (l.map Prod.fst)) = some (s' ω)) ∧
      ∀ c : Fin n → ℝ, E (fun ω => (c ⬝ᵥ (world k x (l.map Prod.fst) ω - vec (s' ω).x)) ^ 2) ≤
        E (fun ω => (c ⬝ᵥ (world k x (l.map Prod.fst) ω - other k (vec s.x) ((calls k x ω (l.map Prod.fst)).zip (l.map Prod.snd)))) ^ 2) := by
  obtain ⟨s', P', h1, h2, h3⟩ := covariance_true E G hp k hR hQ (l.map Prod.fst) hw (fun _ => s) s.P s.first x (fun _ => ⟨rfl, rfl⟩) hP hc hu
  refine ⟨s', fun ω => (h1 ω).1, fun c => ?_⟩
  rcases isEmpty_or_nonempty Ω with he | ⟨⟨ω0⟩⟩
  · apply le_of_eq
    congr 1
    funext ω
    exact he.elim ω
  · rw [square, square, h3]
    have h4 := dot_nonneg (other_above E G hp k hR hQ l s (s' ω0) x (fun _ => vec s.x) ω0 hw hk hP (by rw [hc, sub_self]; exact PosSemidef.zero) hu (h1 ω0).1) c
    rw [(h1 ω0).2, Matrix.sub_mulVec, dotProduct_sub] at h4
    linarith

/-- **C231, violated.** The filter throws away the measurement of its first correction.  If the measurement depends on what is not known of the state at all (`C P` is not
zero), there is a gain for it with which the mean square error is nowhere larger and for some combination of the components smaller. -/
theorem first_measurement_violated (G : (a b : Nat) → Mat a b ℝ) (k : Params n q p v) (hR : (toM k.R).PosDef) (s : St n) (hf : s.first = true) (x : Ω → Fin n → ℝ)
    (u : Mat q 1 ℝ) (r : Ω → Fin p → ℝ) (hP : (toM s.P).PosSemidef) (hc : cov E (fun ω => x ω - vec s.x) (fun ω => x ω - vec s.x) = toM s.P)
    (hu : cov E (fun ω => x ω - vec s.x) r = 0) (hr : cov E r r = toM k.R) (hne : toM k.C * toM s.P ≠ 0) :
    ∃ (s' : St n) (L : Matrix (Fin n) (Fin p) ℝ), (∀ ω, run G k s [call k x ω (.correct u r)] = some s') ∧
      (∀ c : Fin n → ℝ, E (fun ω => (c ⬝ᵥ (x ω - other k (vec s.x) [(call k x ω (.correct u r), L)])) ^ 2) ≤ E (fun ω => (c ⬝ᵥ (x ω - vec s'.x)) ^ 2)) ∧
      ∃ c : Fin n → ℝ, E (fun ω => (c ⬝ᵥ (x ω - other k (vec s.x) [(call k x ω (.correct u r), L)])) ^ 2) < E (fun ω => (c ⬝ᵥ (x ω - vec s'.x)) ^ 2) := by
  let S := toM k.C * toM s.P * (toM k.C).transpose + toM k.R
  have hS : S.PosDef := PosDef.posSemidef_add (posSemidef_conj _ hP) hR
  have hSu : S⁻¹ * S = 1 := Matrix.nonsing_inv_mul S (by have := hS.isUnit; rwa [isUnit_iff_isUnit_det] at this)
  let K := toM s.P * (toM k.C).transpose * S⁻¹
  have hKS : K * S = toM s.P * (toM k.C).transpose := by simp only [K]; rw [Matrix.mul_assoc, hSu, Matrix.mul_one]
  obtain ⟨j1, j2⟩ := joseph (K := K) (symm_of hP) (symm_of hR.posSemidef) hKS
  have he : (fun ω => x ω - other k (vec s.x) [(call k x ω (.correct u r), K)]) = fun ω => (1 - K * toM k.C).mulVec (x ω - vec s.x) + (-K).mulVec (r ω) := by
    funext ω; exact err_other_correct k K (vec s.x) u r x ω
  have hcov : cov E (fun ω => x ω - other k (vec s.x) [(call k x ω (.correct u r), K)]) (fun ω => x ω - other k (vec s.x) [(call k x ω (.correct u r), K)]) =
      toM s.P - K * S * K.transpose := by
    rw [he, cov_combine E _ _ _ _ hu, hc, hr]
    simp only [transpose_neg, Matrix.neg_mul, Matrix.mul_neg, neg_neg]
    rw [← j1, ← j2]
    abel
  have hval : ∀ c : Fin n → ℝ, c ⬝ᵥ (K * S * K.transpose).mulVec c = (K.transpose.mulVec c) ⬝ᵥ S.mulVec (K.transpose.mulVec c) :=
    fun c => quad K S c
  refine ⟨{ s with first := false }, K, ?_, ?_, ?_⟩
  · intro ω; simp [call, run, step, correct, hf]
  · intro c
    rw [square, square, hcov, hc, Matrix.sub_mulVec, dotProduct_sub, hval]
    have := dot_nonneg hS.posSemidef (K.transpose.mulVec c)
    linarith
  · have hK : K ≠ 0 := by
      intro h0
      apply hne
      have h1 := hKS
      rw [h0, Matrix.zero_mul] at h1
      have h2 := congrArg Matrix.transpose h1
      rw [transpose_zero, transpose_mul, transpose_transpose, symm_of hP] at h2
      exact h2.symm
    obtain ⟨c, hcne⟩ : ∃ c : Fin n → ℝ, K.transpose.mulVec c ≠ 0 := by
      by_contra hall
      apply hK
      have : K.transpose = 0 := by
        ext i j
        have h1 := congrFun (not_exists_not.mp hall (Pi.single j 1)) i
        rw [Matrix.mulVec_single_one] at h1
        exact h1
      have h2 := congrArg Matrix.transpose this
      rwa [transpose_transpose, transpose_zero] at h2
    refine ⟨c, ?_⟩
    rw [square, square, hcov, hc, Matrix.sub_mulVec, dotProduct_sub, hval]
    have := (posDef_iff_dotProduct_mulVec.mp hS).2 hcne
    rw [star_trivial] at this
    linarith

/-! ### A concrete case: three coins for the initial state, the disturbance and the measurement error -/

/-- A fair coin as ±1, and the expected value over three of them. -/
def coin (b : Bool) : ℝ := if b then 1 else -1

noncomputable def mean3 : (Bool × Bool × Bool → ℝ) →ₗ[ℝ] ℝ := (1 / 8 : ℝ) • ∑ ω, LinearMap.proj ω

def plant : Params 1 1 1 1 := ⟨⟨fun _ => 2⟩, ⟨fun _ => 1⟩, ⟨fun _ => 1⟩, ⟨fun _ => 0⟩, ⟨fun _ => 1⟩, ⟨fun _ => 1⟩, ⟨fun _ => 1⟩⟩
def start (f : Bool) : St 1 := ⟨⟨fun _ => 0⟩, ⟨fun _ => 1⟩, f⟩
def state3 : Bool × Bool × Bool → Fin 1 → ℝ := fun ω _ => coin ω.1
def dist3 : Bool × Bool × Bool → Fin 1 → ℝ := fun ω _ => coin ω.2.1
def meas3 : Bool × Bool × Bool → Fin 1 → ℝ := fun ω _ => coin ω.2.2
def history3 : List (Noisy (Bool × Bool × Bool) 1 1 1) := [.predict ⟨fun _ => 5⟩ dist3, .correct ⟨fun _ => 5⟩ meas3]

theorem one1 : toM (⟨fun _ => 1⟩ : Mat 1 1 ℝ) = 1 := by
  ext i j
  rw [Subsingleton.elim i j]
  simp [toM, at']

theorem white3 : White mean3 plant history3 := by
  refine ⟨?_, ?_, ?_, ?_, trivial⟩
  · ext i j; simp [cov, mean3, dist3, coin, plant, toM, at', Fintype.sum_prod_type]; try norm_num
  · intro o ho
    simp only [List.mem_singleton] at ho
    subst ho
    simp only [Uncor]
    ext i j; simp [cov, mean3, dist3, meas3, coin, Fintype.sum_prod_type]
  · ext i j; simp [cov, mean3, meas3, coin, plant, toM, at', Fintype.sum_prod_type]; try norm_num
  · simp

theorem start3 (f : Bool) : cov mean3 (fun ω => state3 ω - vec (start f).x) (fun ω => state3 ω - vec (start f).x) = toM (start f).P := by
  ext i j; simp [cov, mean3, state3, coin, start, vec, toM, at', Fintype.sum_prod_type]; try norm_num

theorem uncor3 (f : Bool) : ∀ o ∈ history3, Uncor mean3 (fun ω => state3 ω - vec (start f).x) o := by
  intro o ho
  simp only [history3, List.mem_cons, List.not_mem_nil, or_false] at ho
  rcases ho with rfl | rfl <;> simp only [Uncor] <;> ext i j <;> simp [cov, mean3, state3, dist3, meas3, coin, start, vec, at', Fintype.sum_prod_type]

/-- `covariance_true`: the run of the filter and its error. -/
example (G : (a b : Nat) → Mat a b ℝ) (f : Bool) : ∃ (s' : Bool × Bool × Bool → St 1) (P' : Mat 1 1 ℝ),
    (∀ ω, run G plant (start f) (calls plant state3 ω history3) = some (s' ω) ∧ (s' ω).P = P') ∧
      mean3 (fun ω => (world plant state3 history3 ω 0 - (s' ω).x.at' 0 0) ^ 2) = P'.at' 0 0 := by
  obtain ⟨s', P', h1, -, h3⟩ := covariance_true mean3 G (Or.inr ⟨0, rfl⟩) plant (by simp only [plant, one1]; exact PosDef.one)
    (by simp only [plant, one1]; exact PosSemidef.one) history3 white3 (fun _ => start f) (start f).P f state3 (fun _ => ⟨rfl, rfl⟩)
    (by simp only [start, one1]; exact PosSemidef.one) (start3 f) (uncor3 f)
  refine ⟨s', P', h1, ?_⟩
  have := congrFun (congrFun h3 0) 0
  simp only [cov, ← sq] at this
  exact this

/-- `no_better_partial`: another filter which uses the gain 1/3 in the correction. -/
example (G : (a b : Nat) → Mat a b ℝ) : ∃ s' : Bool × Bool × Bool → St 1, (∀ ω, run G plant (start false) (calls plant state3 ω history3) = some (s' ω)) ∧
    ∀ c : Fin 1 → ℝ, mean3 (fun ω => (c ⬝ᵥ (world plant state3 history3 ω - vec (s' ω).x)) ^ 2) ≤
      mean3 (fun ω => (c ⬝ᵥ (world plant state3 history3 ω - other plant (vec (start false).x)
        ((calls plant state3 ω history3).zip [0, Matrix.of fun _ _ => 1 / 3]))) ^ 2) :=
  no_better_partial mean3 G (Or.inr ⟨0, rfl⟩) plant (by simp only [plant, one1]; exact PosDef.one) (by simp only [plant, one1]; exact PosSemidef.one)
    [(.predict ⟨fun _ => 5⟩ dist3, 0), (.correct ⟨fun _ => 5⟩ meas3, Matrix.of fun _ _ => 1 / 3)] white3 (start false) state3 (by simp [Skips, start])
    (by simp only [start, one1]; exact PosSemidef.one) (start3 false) (uncor3 false)

/-- `first_measurement_violated`: a new filter with the initial values of its constructor. -/
example (G : (a b : Nat) → Mat a b ℝ) := first_measurement_violated mean3 G plant (by simp only [plant, one1]; exact PosDef.one) (start true) rfl state3 ⟨fun _ => 5⟩ meas3
  (by simp only [start, one1]; exact PosSemidef.one) (start3 true) (uncor3 true (.correct ⟨fun _ => 5⟩ meas3) (by simp [history3])) white3.2.2.1
  (by simp only [plant, start, one1]; exact fun h => one_ne_zero ((Matrix.one_mul _).symm.trans h))

end Verif.Control.Kalman.Optimal
