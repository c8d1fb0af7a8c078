/-
C52: the numbers of outputs for which the covariance stays positive semidefinite.
-/
import Verif.Control.KalmanProps
import Verif.Math.InverseAll
import Mathlib.LinearAlgebra.Matrix.Permutation

namespace Verif.Control.Kalman
open Verif.Math Verif.Math.Mat Matrix

/-- A matrix given by its elements. -/
def mk (a b : Nat) (f : Nat → Nat → ℝ) : Mat a b ℝ := ⟨fun i => f (i % a) (i / a)⟩

theorem at_mk {a b i j : Nat} (f : Nat → Nat → ℝ) (hi : i < a) : (mk a b f).at' i j = f i j := by
  unfold at' mk
  simp only
  rw [Nat.mul_add_mod, Nat.mod_eq_of_lt hi, Nat.mul_add_div (by omega), Nat.div_eq_of_lt hi, Nat.add_zero]

/-- One state, `p` outputs of which the first one measures the state; identity covariances. -/
noncomputable def manyOutputs (p : Nat) : Params 1 1 p 1 where
  Ad := ⟨fun _ => 1⟩
  Bd := ⟨fun _ => 0⟩
  C := mk p 1 fun i _ => if i = 0 then 1 else 0
  D := ⟨fun _ => 0⟩
  Gd := ⟨fun _ => 1⟩
  Q := ⟨fun _ => 1⟩
  R := mk p p fun i j => if i = j then 1 else 0

theorem many_R (p : Nat) : toM (manyOutputs p).R = 1 := by
  ext i j
  change (manyOutputs p).R.at' i j = _
  simp only [manyOutputs]
  rw [at_mk _ i.2, Matrix.one_apply]
  simp only [Fin.ext_iff]

theorem many_innov (p : Nat) (G : (a b : Nat) → Mat a b ℝ) (i j : Fin p) : (innov G (manyOutputs p) (⟨fun _ => 1⟩ : Mat 1 1 ℝ)).at' i j =
    if i = j then (if i.val = 0 then 2 else 1) else 0 := by
  have h := congrFun (congrFun (innov_eq G (manyOutputs p) ⟨fun _ => 1⟩) i) j
  change (innov G (manyOutputs p) _).at' i j = _ at h
  have hC : ∀ i : Fin p, toM (manyOutputs p).C i 0 = if i.val = 0 then 1 else 0 := by
    intro i
    change (manyOutputs p).C.at' i 0 = _
    simp only [manyOutputs]
    rw [at_mk _ i.2]
  have h1 : toM (⟨fun _ => 1⟩ : Mat 1 1 ℝ) 0 0 = 1 := rfl
  rw [h, many_R]
  simp only [Matrix.add_apply, Matrix.mul_apply, Fin.sum_univ_one, Matrix.transpose_apply, hC, h1]
  by_cases hij : i = j
  · subst hij
    rw [Matrix.one_apply_eq, if_pos rfl]
    by_cases hi : i.val = 0
    · rw [if_pos hi, if_pos hi]; norm_num
    · rw [if_neg hi, if_neg hi]; norm_num
  · rw [Matrix.one_apply_ne hij, if_neg hij]
    by_cases hi : i.val = 0
    · have hj : j.val ≠ 0 := fun hj => hij (Fin.ext (by omega))
      rw [if_neg hj]; simp
    · rw [if_neg hi]; simp

theorem many_toM (p : Nat) (G : (a b : Nat) → Mat a b ℝ) : toM (innov G (manyOutputs p) (⟨fun _ => 1⟩ : Mat 1 1 ℝ)) =
    Matrix.diagonal fun i : Fin p => if i.val = 0 then (2 : ℝ) else 1 := by
  ext i j
  change (innov G (manyOutputs p) _).at' i j = _
  rw [many_innov, Matrix.diagonal_apply]

theorem many_det (n : Nat) (G : (a b : Nat) → Mat a b ℝ) : (toM (innov G (manyOutputs (n + 1)) (⟨fun _ => 1⟩ : Mat 1 1 ℝ))).det = 2 := by
  rw [many_toM, Matrix.det_diagonal, Fin.prod_univ_succ]
  simp

/-- The column of the one in row `y` of the minor: below `P` the last row of the minor which is written there, above any of the others. -/
def col (n P y : Nat) : Nat := if y < P then P * ((n - 1 - y) / P) + y else y - P

theorem col_spec {n P y : Nat} (h0 : 0 < P) (_ : P < n) (hy : y < n) :
    col n P y < n ∧ (y < P → n ≤ col n P y + P ∧ col n P y % P = y) ∧ (P ≤ y → col n P y + P < n) := by
  unfold col
  have hd := Nat.div_add_mod (n - 1 - y) P
  have hm := Nat.mod_lt (n - 1 - y) h0
  split
  · rename_i h
    refine ⟨by omega, fun _ => ⟨by omega, ?_⟩, fun _ => by omega⟩
    rw [Nat.mul_add_mod, Nat.mod_eq_of_lt h]
  · exact ⟨by omega, fun _ => by omega, fun _ => by omega⟩

theorem col_inj {n P : Nat} (h0 : 0 < P) (hP : P < n) {y z : Nat} (hy : y < n) (hz : z < n) (h : col n P y = col n P z) : y = z := by
  obtain ⟨_, a2, a3⟩ := col_spec h0 hP hy
  obtain ⟨_, b2, b3⟩ := col_spec h0 hP hz
  by_cases h1 : y < P <;> by_cases h2 : z < P
  · have := (a2 h1).2; have := (b2 h2).2; rw [h] at *; omega
  · have := (a2 h1).1; have := b3 (by omega); rw [h] at *; omega
  · have := a3 (by omega); have := (b2 h2).1; rw [h] at *; omega
  · unfold col at h; rw [if_neg h1, if_neg h2] at h; omega

/-- The permutation of the columns. -/
noncomputable def colPerm (n P : Nat) (h0 : 0 < P) (hP : P < n) : Equiv.Perm (Fin n) :=
  Equiv.ofBijective (fun y => ⟨col n P y, (col_spec h0 hP y.2).1⟩)
    (Finite.injective_iff_bijective.1 fun y z h => Fin.ext (col_inj h0 hP y.2 z.2 (Fin.mk.inj h)))

/-- Uninitialised memory which makes the determinant of the first minor four. -/
noncomputable def mem (n P : Nat) (c : ℝ) : (a b : Nat) → Mat a b ℝ := fun a b =>
  if a = n ∧ b = n then mk a b fun y x => if x = col n P y then (if y = P then c else 1) else 0 else ⟨fun _ => 0⟩

/-- **C52 violated** for every number of outputs above four which is not a power of two: `operator!` is wrong for this size (C48), and for some contents of
uninitialised memory the variance of the single state becomes negative after one correction, although all covariances are identities. -/
theorem many_outputs_negative (p : Nat) (hp5 : 5 ≤ p) (hpow : ∀ k, p ≠ 2 ^ k) :
    ∃ (G : (a b : Nat) → Mat a b ℝ) (k : Params 1 1 p 1) (s s' : St 1),
      toM k.R = 1 ∧ toM k.Q = 1 ∧ toM s.P = 1 ∧ s.first = false ∧
      correct G k ⟨fun _ => 0⟩ ⟨fun _ => 0⟩ s = some s' ∧ s'.P.at' 0 0 < 0 := by
  obtain ⟨n, rfl⟩ : ∃ n, p = n + 4 := ⟨p - 4, by omega⟩
  obtain ⟨j, q, hq, hjq⟩ := Nat.exists_eq_two_pow_mul_odd (n := n + 4) (by omega)
  obtain ⟨r, rfl⟩ := hq
  have hr : 0 < r := by
    rcases Nat.eq_zero_or_pos r with h0 | h0
    · exact absurd (by rw [hjq, h0]; simp) (hpow j)
    · exact h0
  have h : (n + 3) + 1 = 2 ^ j * (2 * r + 1) := hjq
  have h0 : 0 < 2 ^ j := Nat.two_pow_pos j
  have hPn : 2 ^ j < n + 3 := by
    have : 2 ^ j * 3 ≤ 2 ^ j * (2 * r + 1) := Nat.mul_le_mul_left _ (by omega)
    omega
  let σ := colPerm (n + 3) (2 ^ j) h0 hPn
  let ε : ℝ := (((Equiv.Perm.sign σ : ℤˣ) : ℤ) : ℝ)
  have hε : ε * ε = 1 := by
    have : ((Equiv.Perm.sign σ : ℤˣ) : ℤ) * ((Equiv.Perm.sign σ : ℤˣ) : ℤ) = 1 := by
      rw [← Units.val_mul, Int.units_mul_self]; rfl
    have h2 := congrArg (fun z : ℤ => (z : ℝ)) this
    simp only [Int.cast_mul, Int.cast_one] at h2
    exact h2
  let G := mem (n + 3) (2 ^ j) (4 * ε)
  have h1 : toM (⟨fun _ => 1⟩ : Mat 1 1 ℝ) = 1 := by
    ext i j
    have hi : i = 0 := Subsingleton.elim _ _
    have hj : j = 0 := Subsingleton.elim _ _
    subst hi hj; rfl
  let s : St 1 := ⟨⟨fun _ => 0⟩, ⟨fun _ => 1⟩, false⟩
  let S := innov G (manyOutputs (n + 4)) s.P
  have hdet : Mat.det (fun k => G k k) (n + 4) S = 2 := by
    rw [det_eq (fun k => G k k) (n + 3)]; exact many_det (n + 3) G
  have hno : isOrthogonal S (G (n + 4) (n + 4)) = false := by
    rw [Bool.eq_false_iff, ne_eq, isOrthogonal_iff, show toM S = _ from many_toM (n + 4) G, Matrix.diagonal_transpose, Matrix.diagonal_mul_diagonal]
    intro h
    have := congrFun (congrFun h 0) 0
    rw [Matrix.diagonal_apply_eq, Matrix.one_apply_eq] at this
    norm_num at this
  have hinv : Mat.inv (fun k => G k k) (n + 4) S = .ok (Mat.transpose (cofactors (fun k => G k k) S 2) (G (n + 4) (n + 4))) := by
    unfold Mat.inv
    simp only [hdet, hno]
    norm_num
  let B := Mat.transpose (cofactors (fun k => G k k) S 2) (G (n + 4) (n + 4))
  refine ⟨G, manyOutputs (n + 4), s, update G (manyOutputs (n + 4)) ⟨fun _ => 0⟩ ⟨fun _ => 0⟩ s B, many_R _, h1, h1, rfl, ?_, ?_⟩
  · unfold correct
    change (if false = true then _ else _) = _
    rw [if_neg (by simp)]
    rw [show Mat.inv (fun k => G k k) (n + 4) (innov G (manyOutputs (n + 4)) s.P) = _ from hinv]
  · have hB : B.at' 0 0 = 2 := by
      change (Mat.transpose (cofactors (fun k => G k k) S 2) (G (n + 4) (n + 4))).at' 0 0 = 2
      rw [at_transpose _ _ (by omega) (by omega)]
      obtain ⟨S0, hS0, hc0⟩ := cofactors_diag h hr (fun k => G k k) S 2 0 (by omega)
      rw [hc0, det_eq (fun k => G k k) (n + 2)]
      have hm : toM (minor S 0 0 S0) = Matrix.diagonal (fun y : Fin (n + 3) => if y.val = 2 ^ j then 4 * ε else 1) * σ.permMatrix ℝ := by
        ext y x
        rw [Matrix.diagonal_mul, Equiv.Perm.permMatrix, PEquiv.toMatrix_toPEquiv_apply, Pi.single_apply]
        obtain ⟨c1, c2, c3⟩ := col_spec h0 hPn y.2
        have hσ : σ y = ⟨col (n + 3) (2 ^ j) y, c1⟩ := rfl
        obtain ⟨m1, m2⟩ := minor_rows h hr S 0 0 (by omega) (by omega) S0
        change (minor S 0 0 S0).at' y x = _
        have hx := x.2
        rw [hσ]
        by_cases hy : y.val < 2 ^ j
        · obtain ⟨c4, c5⟩ := c2 hy
          have := m2 (col (n + 3) (2 ^ j) y) x c1 c4 hx
          rw [c5] at this
          rw [this]
          have e0 : ∀ i, skip 0 i = i + 1 := fun i => by unfold skip; rw [if_neg (by omega)]
          rw [e0, e0, if_neg (show ¬ y.val = 2 ^ j by omega), one_mul]
          have hi := many_innov (n + 4) G ⟨col (n + 3) (2 ^ j) y + 1, by omega⟩ ⟨x + 1, by omega⟩
          rw [show S.at' (col (n + 3) (2 ^ j) y + 1) (x + 1) = _ from hi]
          by_cases hxc : x.val = col (n + 3) (2 ^ j) y
          · rw [if_pos (Fin.ext (by simp [hxc])), if_neg (by simp), if_pos (Fin.ext hxc)]
          · rw [if_neg (fun e => hxc (by have := Fin.mk.inj e; omega)), if_neg (fun e => hxc (congrArg Fin.val e))]
        · rw [m1 y x (by omega) y.2 hx, hS0 y x (by omega) y.2 hx]
          change (mem (n + 3) (2 ^ j) (4 * ε) (n + 3) (n + 3)).at' y x = _
          unfold mem
          rw [if_pos ⟨rfl, rfl⟩, at_mk _ y.2]
          by_cases hxc : x.val = col (n + 3) (2 ^ j) y
          · rw [if_pos hxc, if_pos (Fin.ext hxc), mul_one]
          · rw [if_neg hxc, if_neg (fun e => hxc (congrArg Fin.val e)), mul_zero]
      have hprod : (∏ y : Fin (n + 3), if y.val = 2 ^ j then 4 * ε else 1) = 4 * ε := by
        rw [Finset.prod_eq_single (⟨2 ^ j, hPn⟩ : Fin (n + 3))]
        · rw [if_pos rfl]
        · intro b _ hb; rw [if_neg fun e => hb (Fin.ext e)]
        · intro hh; exact absurd (Finset.mem_univ _) hh
      rw [hm, Matrix.det_mul, Matrix.det_diagonal, hprod, Matrix.det_permutation]
      change 4 * ε * ε / 2 = 2
      rw [mul_assoc, hε]; norm_num
    have hu := congrFun (congrFun (update_P G (manyOutputs (n + 4)) ⟨fun _ => 0⟩ ⟨fun _ => 0⟩ s B) 0) 0
    change (update G (manyOutputs (n + 4)) _ _ s B).P.at' 0 0 = _ at hu
    rw [hu]
    have hP : toM s.P = 1 := h1
    rw [hP, Matrix.one_mul, Matrix.mul_one, Matrix.sub_apply, Matrix.one_apply_eq, Matrix.mul_apply]
    have hC : ∀ i : Fin (n + 4), toM (manyOutputs (n + 4)).C i 0 = if i = 0 then 1 else 0 := by
      intro i
      change (manyOutputs (n + 4)).C.at' i 0 = _
      simp only [manyOutputs]
      rw [at_mk _ i.2]
      simp only [Fin.ext_iff]
      rfl
    have hB' : toM B 0 0 = 2 := hB
    simp only [hC, Matrix.mul_apply, Matrix.transpose_apply, mul_ite, mul_one, mul_zero, Finset.sum_ite_eq', Finset.mem_univ, if_true, ite_mul, one_mul, zero_mul, hB']
    norm_num

/-- Six outputs. -/
example : ∃ (G : (a b : Nat) → Mat a b ℝ) (k : Params 1 1 6 1) (s s' : St 1),
    toM k.R = 1 ∧ toM k.Q = 1 ∧ toM s.P = 1 ∧ s.first = false ∧
    correct G k ⟨fun _ => 0⟩ ⟨fun _ => 0⟩ s = some s' ∧ s'.P.at' 0 0 < 0 :=
  many_outputs_negative 6 (by decide) fun k h => by
    have hk : k < 3 ∨ 3 ≤ k := by omega
    rcases hk with hk | hk
    · interval_cases k <;> omega
    · have := Nat.pow_le_pow_right (show 0 < 2 by decide) hk
      omega

/-- **C52** Exactly for 3 and the powers of two as number of outputs the covariance stays positive semidefinite in every run of every filter, whatever the uninitialised memory contains. -/
theorem kalman_psd_iff (p : Nat) (hp : 0 < p) :
    (∀ (G : (a b : Nat) → Mat a b ℝ) (n q v : Nat) (k : Params n q p v) (s : St n) (ops : List (Op q p)), (toM k.R).PosDef → (toM k.Q).PosSemidef → (toM s.P).PosSemidef →
      ∃ s', run G k s ops = some s' ∧ (toM s'.P).PosSemidef) ↔ p = 3 ∨ ∃ k, p = 2 ^ k := by
  constructor
  · intro h
    by_contra hc
    simp only [not_or, not_exists] at hc
    obtain ⟨h3, hpow⟩ := hc
    have h5 : 5 ≤ p := by
      have h1 := hpow 0
      have h2 := hpow 1
      have h4 := hpow 2
      norm_num at h1 h2 h4
      omega
    obtain ⟨G, k, s, s', hR, hQ, hP, _, hs, hneg⟩ := many_outputs_negative p h5 hpow
    obtain ⟨s1, hs1, hpsd⟩ := h G 1 1 1 k s [.correct ⟨fun _ => 0⟩ ⟨fun _ => 0⟩] (by rw [hR]; exact PosDef.one) (by rw [hQ]; exact PosSemidef.one) (by rw [hP]; exact PosSemidef.one)
    have : s1 = s' := by
      simp only [run, step, hs, Option.bind_some, Option.some.injEq] at hs1
      exact hs1.symm
    subst this
    have := hpsd.diag_nonneg (i := 0)
    exact absurd (show s1.P.at' 0 0 ≥ 0 from this) (by linarith)
  · intro hg G n q v k s ops hR hQ hP
    obtain ⟨s', h1, h2, _⟩ := kalman_psd_partial G hg k hR hQ ops s hP
    exact ⟨s', h1, h2⟩

example : ¬ ∃ k, 7 = 2 ^ k := by
  rintro ⟨k, h⟩
  have hk : k < 3 ∨ 3 ≤ k := by omega
  rcases hk with hk | hk
  · interval_cases k <;> omega
  · have := Nat.pow_le_pow_right (show 0 < 2 by decide) hk
    omega

end Verif.Control.Kalman
