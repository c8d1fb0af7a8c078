import Verif.Common.Double
/-!
A calculus of rounding errors: after `k` roundings on the way the relative error, with respect to a bound `m` of the magnitude, is at most `(1 + 2^-53)^k - 1`.
-/
namespace Verif.Common.Round

/-- Unit roundoff of doubles. -/
def unit : ℚ := 1 / 2 ^ 53

/-- Error factor of `k` roundings. -/
def gam (k : ℕ) : ℚ := (1 + unit) ^ k - 1

/-- `x` is computed with `k` roundings for the exact value `y` of magnitude at most `m`. -/
structure Approx (k : ℕ) (x y m : ℚ) : Prop where
  err : |x - y| ≤ gam k * m
  mag : |y| ≤ m

theorem unit_pos : 0 < unit := by unfold unit; positivity

theorem gam_nonneg (k : ℕ) : 0 ≤ gam k := by
  unfold gam
  have := one_le_pow₀ (show 1 ≤ 1 + unit by linarith [unit_pos]) (n := k)
  linarith

theorem gam_mono {k l : ℕ} (h : k ≤ l) : gam k ≤ gam l := by
  unfold gam
  have := pow_le_pow_right₀ (show 1 ≤ 1 + unit by linarith [unit_pos]) h
  linarith

/-- For less than 2^20 roundings the factor is at most `(k + 1) 2^-53`. -/
theorem gam_small (k : ℕ) (hk : k ≤ 2 ^ 20) : gam k ≤ (k + 1) * unit := by
  have hu := unit_pos
  have hkq : (k : ℚ) ≤ 2 ^ 20 := by exact_mod_cast hk
  have key : ∀ j : ℕ, j ≤ k → gam j ≤ j * unit + j * j * unit ^ 2 := by
    intro j
    induction j with
    | zero => intro _; simp [gam]
    | succ j ih =>
      intro hj
      have h1 := ih (by omega)
      have e : gam (j + 1) = gam j + unit * (gam j + 1) := by unfold gam; rw [pow_succ]; ring
      rw [e]
      push_cast
      have hj' : (j : ℚ) ≤ 2 ^ 20 := le_trans (by exact_mod_cast (by omega : j ≤ k)) hkq
      have h0 : (0:ℚ) ≤ j := by positivity
      have hsmall : (j : ℚ) * unit ≤ 1 / 2 ^ 33 := by unfold unit; linarith
      have h2 : gam j ≤ 2 * j * unit := by
        have h3 : (j : ℚ) * j * unit ^ 2 = (j * unit) * (j * unit) := by ring
        have h4 : (j : ℚ) * unit * (j * unit) ≤ 1 / 2 ^ 33 * (j * unit) := mul_le_mul_of_nonneg_right hsmall (by positivity)
        have h5 : 0 ≤ (j : ℚ) * unit := by positivity
        linarith
      have h6 : unit * gam j ≤ unit * (2 * j * unit) := mul_le_mul_of_nonneg_left h2 hu.le
      have h7 : 0 ≤ unit ^ 2 := by positivity
      nlinarith
  have h := key k le_rfl
  have h0 : (0:ℚ) ≤ k := by positivity
  have hk2 : (k : ℚ) * k * unit ^ 2 ≤ unit := by
    have : (k : ℚ) * k * unit ≤ 1 := by
      have : (k : ℚ) * k ≤ 2 ^ 20 * 2 ^ 20 := mul_le_mul hkq hkq h0 (by positivity)
      unfold unit
      linarith
    have := mul_le_mul_of_nonneg_right this hu.le
    calc (k : ℚ) * k * unit ^ 2 = k * k * unit * unit := by ring
      _ ≤ 1 * unit := this
      _ = unit := one_mul _
  linarith

namespace Approx

theorem nonneg {k : ℕ} {x y m : ℚ} (h : Approx k x y m) : 0 ≤ m := le_trans (abs_nonneg _) h.mag

theorem exact (x : ℚ) : Approx 0 x x |x| := ⟨by simp [gam], le_rfl⟩

theorem weaken {k l : ℕ} {x y m : ℚ} (h : Approx k x y m) (hkl : k ≤ l) : Approx l x y m :=
  ⟨le_trans h.err (mul_le_mul_of_nonneg_right (gam_mono hkl) h.nonneg), h.mag⟩

theorem larger {k : ℕ} {x y m m' : ℚ} (h : Approx k x y m) (hm : m ≤ m') : Approx k x y m' :=
  ⟨le_trans h.err (mul_le_mul_of_nonneg_left hm (gam_nonneg k)), le_trans h.mag hm⟩

theorem abs_le' {k : ℕ} {x y m : ℚ} (h : Approx k x y m) : |x| ≤ (1 + gam k) * m := by
  have := abs_sub_abs_le_abs_sub x y
  have := h.err
  have := h.mag
  linarith

theorem round {k : ℕ} {x y m : ℚ} (h : Approx k x y m) : Approx (k + 1) (rnd x) y m := by
  refine ⟨?_, h.mag⟩
  have h1 := rnd_rel x
  have h2 := h.abs_le'
  have h3 : |rnd x - y| ≤ |rnd x - x| + |x - y| := abs_sub_le _ _ _
  have e : gam (k + 1) = gam k + unit * (1 + gam k) := by unfold gam; rw [pow_succ]; ring
  have h4 : |x| / 2 ^ 53 ≤ unit * ((1 + gam k) * m) := by
    have : |x| / 2 ^ 53 = unit * |x| := by unfold unit; ring
    rw [this]
    exact mul_le_mul_of_nonneg_left h2 unit_pos.le
  rw [e]
  have h5 := h.err
  linarith

theorem add {k : ℕ} {x y m x' y' m' : ℚ} (h : Approx k x y m) (h' : Approx k x' y' m') : Approx k (x + x') (y + y') (m + m') := by
  refine ⟨?_, le_trans (abs_add_le _ _) (add_le_add h.mag h'.mag)⟩
  have e : x + x' - (y + y') = (x - y) + (x' - y') := by ring
  rw [e, mul_add]
  exact le_trans (abs_add_le _ _) (add_le_add h.err h'.err)

theorem neg {k : ℕ} {x y m : ℚ} (h : Approx k x y m) : Approx k (-x) (-y) m := by
  refine ⟨?_, by rw [abs_neg]; exact h.mag⟩
  rw [show -x - -y = -(x - y) by ring, abs_neg]
  exact h.err

theorem sub {k : ℕ} {x y m x' y' m' : ℚ} (h : Approx k x y m) (h' : Approx k x' y' m') : Approx k (x - x') (y - y') (m + m') := by
  rw [sub_eq_add_neg, sub_eq_add_neg]
  exact h.add h'.neg

theorem mul {k l : ℕ} {x y m x' y' m' : ℚ} (h : Approx k x y m) (h' : Approx l x' y' m') : Approx (k + l) (x * x') (y * y') (m * m') := by
  refine ⟨?_, by rw [abs_mul]; exact mul_le_mul h.mag h'.mag (abs_nonneg _) h.nonneg⟩
  have e : x * x' - y * y' = x * (x' - y') + (x - y) * y' := by ring
  have g : gam (k + l) = (1 + gam k) * gam l + gam k := by unfold gam; rw [pow_add]; ring
  rw [e, g]
  have h1 : |x * (x' - y')| ≤ (1 + gam k) * m * (gam l * m') := by
    rw [abs_mul]
    exact mul_le_mul h.abs_le' h'.err (abs_nonneg _) (mul_nonneg (by linarith [gam_nonneg k]) h.nonneg)
  have h2 : |(x - y) * y'| ≤ gam k * m * m' := by
    rw [abs_mul]
    exact mul_le_mul h.err h'.mag (abs_nonneg _) (mul_nonneg (gam_nonneg k) h.nonneg)
  have := abs_add_le (x * (x' - y')) ((x - y) * y')
  linarith

/-- A factor without error. -/
theorem scale {k : ℕ} {x y m : ℚ} (c : ℚ) (h : Approx k x y m) : Approx k (c * x) (c * y) (|c| * m) := by
  have := (Approx.exact c).mul h
  rwa [zero_add] at this

theorem divide {k : ℕ} {x y m : ℚ} (c : ℚ) (hc : 0 ≤ c) (h : Approx k x y m) : Approx k (x / c) (y / c) (m / c) := by
  have := h.scale (1 / c)
  rw [abs_of_nonneg (by positivity)] at this
  rwa [one_div_mul_eq_div, one_div_mul_eq_div, one_div_mul_eq_div] at this

end Approx

/-- Case of the calculus: rounding 1/10. -/
example : Approx 1 (rnd (1 / 10)) (1 / 10) (1 / 10) := by
  have := (Approx.exact (1 / 10 : ℚ)).round
  rwa [abs_of_pos (by norm_num)] at this

end Verif.Common.Round
