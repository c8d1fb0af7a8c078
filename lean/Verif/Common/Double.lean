import Verif.Common.Round
/-!
Further properties of the rounding to doubles (`Verif.Common.Round`): sign, monotonicity, relative error, multiples of powers of two, absorption.
-/
namespace Verif.Common.Round

/-- The numbers which are doubles (subnormal numbers and overflow left out). -/
def IsDouble (x : ℚ) : Prop := rnd x = x

theorem fl_zero : fl 0 = 0 := by simp [fl]

theorem rnd_zero : rnd 0 = 0 := by simp [rnd, fl_zero]

theorem rnd_neg_eq (x : ℚ) : rnd (-x) = - rnd x := by
  rcases lt_trichotomy x 0 with h | h | h
  · rw [rnd_pos (by linarith), rnd_neg h, neg_neg]
  · simp [h, rnd_zero]
  · rw [rnd_neg (by linarith), rnd_pos h.le, neg_neg]

theorem rnd_nonneg {x : ℚ} (h : 0 ≤ x) : 0 ≤ rnd x := by rw [rnd_pos h]; exact fl_nonneg x

theorem rnd_mono {x y : ℚ} (h : x ≤ y) : rnd x ≤ rnd y := by
  rcases lt_or_ge x 0 with hx | hx
  · rcases lt_or_ge y 0 with hy | hy
    · rw [rnd_neg hx, rnd_neg hy]
      exact neg_le_neg (fl_mono (by linarith))
    · rw [rnd_neg hx]
      have := fl_nonneg (-x)
      have := rnd_nonneg hy
      linarith
  · rw [rnd_pos hx, rnd_pos (le_trans hx h)]
    exact fl_mono h

/-- Numbers with at most 53 binary digits are doubles. -/
theorem rnd_exact (m : ℤ) (k : ℤ) (hm : |m| ≤ 2 ^ 53) : rnd ((m : ℚ) * 2 ^ k) = (m : ℚ) * 2 ^ k := by
  have hp : (0:ℚ) < 2 ^ k := by positivity
  rcases le_total 0 m with h | h
  · obtain ⟨n, rfl⟩ := Int.eq_ofNat_of_zero_le h
    have hn : n ≤ 2 ^ 53 := by rw [abs_of_nonneg h] at hm; exact_mod_cast hm
    have := fl_exact n k hn
    rw [rnd_pos (by positivity)]
    exact_mod_cast this
  · obtain ⟨n, hn⟩ := Int.eq_ofNat_of_zero_le (neg_nonneg.2 h)
    have hle : n ≤ 2 ^ 53 := by rw [abs_of_nonpos h, hn] at hm; exact_mod_cast hm
    have e : (m : ℚ) * 2 ^ k = - ((n : ℚ) * 2 ^ k) := by
      have : m = - (n : ℤ) := by omega
      rw [this]; push_cast; ring
    rw [e, rnd_neg_eq, rnd_pos (by positivity), fl_exact n k hle]

/-- The result of rounding, with its digits. -/
theorem fl_digits {x : ℚ} (h : 0 < x) : ∃ n : ℕ, 2 ^ 52 ≤ n ∧ n ≤ 2 ^ 53 ∧ fl x = (n : ℚ) * 2 ^ (Int.log 2 x - 52) := by
  obtain ⟨s1, s2⟩ := scaled h
  have a : (2:ℤ) ^ 52 ≤ nearest (x / ulp x) := by
    have := nearest_mono (x := ((2 ^ 52 : ℤ) : ℚ)) (y := x / ulp x) (by push_cast; exact s1)
    rwa [nearest_int] at this
  have b : nearest (x / ulp x) ≤ 2 ^ 53 := by
    have := nearest_mono (x := x / ulp x) (y := ((2 ^ 53 : ℤ) : ℚ)) (by push_cast; exact s2.le)
    rwa [nearest_int] at this
  obtain ⟨n, hn⟩ := Int.eq_ofNat_of_zero_le (le_trans (by positivity) a)
  rw [hn] at a b
  refine ⟨n, by exact_mod_cast a, by exact_mod_cast b, ?_⟩
  rw [fl, if_neg (not_le.2 h), hn, ulp]
  simp

/-- A rounded number is a double. -/
theorem rnd_idem (x : ℚ) : IsDouble (rnd x) := by
  have key : ∀ y : ℚ, 0 < y → rnd (fl y) = fl y := by
    intro y hy
    obtain ⟨n, -, h2, h3⟩ := fl_digits hy
    rw [h3]
    have := rnd_exact n (Int.log 2 y - 52) (by rw [abs_of_nonneg (by positivity)]; exact_mod_cast h2)
    exact_mod_cast this
  unfold IsDouble
  rcases lt_trichotomy x 0 with h | h | h
  · rw [rnd_neg h, rnd_neg_eq, key (-x) (by linarith)]
  · rw [h, rnd_zero, rnd_zero]
  · rw [rnd_pos h.le, key x h]

/-- Relative error of rounding. -/
theorem fl_rel {x : ℚ} (h : 0 ≤ x) : |fl x - x| ≤ x / 2 ^ 53 := by
  rcases eq_or_lt_of_le h with h | h
  · rw [← h]; simp [fl_zero]
  · have h1 := fl_error h
    have h2 := (scaled h).1
    have hu := ulp_pos x
    rw [le_div_iff₀ hu] at h2
    have : ulp x / 2 ≤ x / 2 ^ 53 := by
      rw [div_le_div_iff₀ (by norm_num) (by norm_num)]
      nlinarith
    linarith

theorem rnd_rel (x : ℚ) : |rnd x - x| ≤ |x| / 2 ^ 53 := by
  rcases lt_or_ge x 0 with h | h
  · rw [rnd_neg h, abs_of_neg h]
    have := fl_rel (x := -x) (by linarith)
    have e : -fl (-x) - x = -(fl (-x) - -x) := by ring
    rw [e, abs_neg]
    exact this
  · rw [rnd_pos h, abs_of_nonneg h]
    exact fl_rel h

/-- Rounding a number of at least `2^e` gives a multiple of `2^(e-52)`. -/
theorem fl_multiple {x : ℚ} {e : ℤ} (h : (2:ℚ) ^ e ≤ x) : ∃ n : ℤ, fl x = n * 2 ^ (e - 52) := by
  have hpos : 0 < x := lt_of_lt_of_le (by positivity) h
  obtain ⟨n, -, -, hn⟩ := fl_digits hpos
  have hl : e ≤ Int.log 2 x := by
    have := (log_bounds hpos).2
    have := (zpow_lt_zpow_iff_right₀ (by norm_num : (1:ℚ) < 2)).1 (lt_of_le_of_lt h this)
    omega
  refine ⟨n * 2 ^ (Int.log 2 x - e).toNat, ?_⟩
  rw [hn]
  push_cast
  rw [← zpow_natCast (2:ℚ) (Int.log 2 x - e).toNat, Int.toNat_of_nonneg (by omega), mul_assoc, ← zpow_add₀ (by norm_num)]
  congr 2
  ring

/-- Rounding keeps multiples of a power of two. -/
theorem rnd_multiple (n k : ℤ) : ∃ m : ℤ, rnd ((n : ℚ) * 2 ^ k) = m * 2 ^ k := by
  rcases le_or_gt |n| (2 ^ 53) with h | h
  · exact ⟨n, rnd_exact n k h⟩
  · have key : ∀ a : ℤ, 2 ^ 53 < a → ∃ m : ℤ, rnd ((a : ℚ) * 2 ^ k) = m * 2 ^ k := by
      intro a ha
      have hp : (0:ℚ) < 2 ^ k := by positivity
      have ha' : ((2:ℚ) ^ (53:ℕ)) < (a : ℚ) := by exact_mod_cast ha
      have h1 : (2:ℚ) ^ (k + 52) ≤ (a : ℚ) * 2 ^ k := by
        rw [zpow_add₀ (by norm_num)]
        have : (2:ℚ) ^ (52:ℤ) ≤ (a : ℚ) := by
          refine le_trans ?_ ha'.le
          norm_num
        nlinarith
      obtain ⟨m, hm⟩ := fl_multiple h1
      refine ⟨m, ?_⟩
      rw [rnd_pos (by nlinarith [show (0:ℚ) < 2 ^ (53:ℕ) by positivity]), hm]
      congr 2
      ring
    rcases le_total 0 n with hn | hn
    · exact key n (by rwa [abs_of_nonneg hn] at h)
    · obtain ⟨m, hm⟩ := key (-n) (by rwa [abs_of_nonpos hn] at h)
      refine ⟨-m, ?_⟩
      have e : (n : ℚ) * 2 ^ k = - (((-n : ℤ) : ℚ) * 2 ^ k) := by push_cast; ring
      rw [e, rnd_neg_eq, hm]
      push_cast; ring

/-- A positive double with its digits. -/
theorem double_digits {x : ℚ} (h : IsDouble x) (hx : 0 < x) : ∃ n : ℕ, 2 ^ 52 ≤ n ∧ n < 2 ^ 53 ∧ x = (n : ℚ) * ulp x := by
  unfold IsDouble at h
  rw [rnd_pos hx.le] at h
  obtain ⟨n, h1, h2, h3⟩ := fl_digits hx
  rw [h] at h3
  have hs := (scaled hx).2
  have hu := ulp_pos x
  have e : x = (n : ℚ) * ulp x := h3
  rw [e, mul_div_assoc] at hs
  have : ulp (↑n * ulp x) = ulp x := by rw [← e]
  rw [this, div_self hu.ne', mul_one] at hs
  exact ⟨n, h1, by exact_mod_cast hs, e⟩

/-- Absorption: adding less than half the distance of the doubles at `x` changes nothing. -/
theorem absorb {x d : ℚ} (h : IsDouble x) (hx : 0 < x) (hd0 : 0 ≤ d) (hd : d < ulp x / 2) : rnd (x + d) = x := by
  obtain ⟨n, h1, h2, h3⟩ := double_digits h hx
  have hu := ulp_pos x
  have hlog := log_bounds hx
  have h2' : (n : ℚ) + 1 ≤ 2 ^ (53:ℕ) := by exact_mod_cast h2
  have e2 : (2:ℚ) ^ (Int.log 2 x + 1) = 2 ^ (53:ℕ) * ulp x := by
    unfold ulp
    rw [← zpow_natCast, ← zpow_add₀ (by norm_num)]
    congr 1; push_cast; ring
  rw [rnd_pos (by linarith), fl_eq (x + d) (Int.log 2 x) n (by linarith [hlog.1]) ?_ ?_]
  · exact h3.symm
  · rw [e2]
    nlinarith
  · change |(x + d) / ulp x - ((n : ℕ) : ℤ)| < 1 / 2
    have : (x + d) / ulp x - (((n : ℕ) : ℤ) : ℚ) = d / ulp x := by
      push_cast
      rw [add_div]
      have : x / ulp x = n := by
        rw [div_eq_iff hu.ne']; exact h3
      rw [this]; ring
    rw [this, abs_of_nonneg (by positivity), div_lt_iff₀ hu]
    linarith

/-- Progress: adding at least the distance of the doubles at `x` raises a positive double by at least this distance. -/
theorem progress {x d : ℚ} (h : IsDouble x) (hx : 0 < x) (hd : ulp x ≤ d) : x + ulp x ≤ rnd (x + d) := by
  obtain ⟨n, h1, h2, h3⟩ := double_digits h hx
  have hu := ulp_pos x
  have : IsDouble (x + ulp x) := by
    have e : x + ulp x = ((n + 1 : ℤ) : ℚ) * 2 ^ (Int.log 2 x - 52) := by
      have h3' : x = (n : ℚ) * 2 ^ (Int.log 2 x - 52) := h3
      rw [show ulp x = 2 ^ (Int.log 2 x - 52) from rfl]
      push_cast
      rw [add_mul, ← h3', one_mul]
    unfold IsDouble
    rw [e]
    apply rnd_exact
    rw [abs_of_nonneg (by positivity)]
    exact_mod_cast h2
  unfold IsDouble at this
  calc x + ulp x = rnd (x + ulp x) := this.symm
    _ ≤ rnd (x + d) := rnd_mono (by linarith)

theorem ulp_mono {x y : ℚ} (hx : 0 < x) (h : x ≤ y) : ulp x ≤ ulp y := by
  unfold ulp
  apply zpow_le_zpow_right₀ (by norm_num)
  have := Int.log_mono_right hx h (b := 2)
  omega

/-- Case of `absorb` and of `rnd_exact`: adding 2^-54 to 1. -/
example : rnd (1 + 1 / 2 ^ 54) = 1 := by
  refine absorb ?_ (by norm_num) (by norm_num) ?_
  · have := rnd_exact 1 0 (by norm_num)
    simpa [IsDouble] using this
  · have : ulp 1 = 1 / 2 ^ 52 := by
      unfold ulp
      rw [Int.log_one_right]
      norm_num
    rw [this]
    norm_num

end Verif.Common.Round
