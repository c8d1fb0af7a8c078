/-
C130: which floating point numbers survive being written and read.
-/
import Verif.Config.DoubleTextProps

namespace Verif.Config

open Verif.Common.Round

/-! ### Rounding -/

theorem nearest_eq {y : ℚ} {n : ℤ} (h : |y - n| < 1 / 2) : nearest y = n := by
  have he := nearest_error y
  rw [abs_lt] at h
  rw [abs_le] at he
  have a : ((nearest y : ℤ) : ℚ) < ((n + 1 : ℤ) : ℚ) := by push_cast; linarith
  have b : ((n - 1 : ℤ) : ℚ) < ((nearest y : ℤ) : ℚ) := by push_cast; linarith
  have a' : nearest y < n + 1 := by exact_mod_cast a
  have b' : n - 1 < nearest y := by exact_mod_cast b
  omega

theorem ulp_le {y : ℚ} (h : 0 < y) : ulp y ≤ y / 2 ^ 52 := by
  have := (log_bounds h).1
  unfold ulp
  rw [zpow_sub₀ (by norm_num), le_div_iff₀ (by positivity), div_mul_eq_mul_div, div_le_iff₀ (by positivity)]
  have e : (2 : ℚ) ^ (52 : ℤ) = 2 ^ (52 : ℕ) := by norm_num
  rw [e]
  nlinarith [this, show (0 : ℚ) < 2 ^ 52 by positivity]

theorem fl_rel {y : ℚ} (h : 0 < y) : |fl y - y| ≤ y / 2 ^ 53 := by
  have h1 := fl_error h
  have h2 := ulp_le h
  have : y / 2 ^ 53 = y / 2 ^ 52 / 2 := by rw [div_div]; norm_num
  rw [this]
  linarith

theorem fl_pos {y : ℚ} (h : 0 < y) : 0 < fl y := by
  have h1 := fl_rel h
  rw [abs_le] at h1
  have : y / 2 ^ 53 < y := by rw [div_lt_iff₀ (by positivity)]; nlinarith [h]
  linarith [h1.1]

theorem rnd_zero : rnd 0 = 0 := by simp [rnd, fl]

theorem rnd_odd (y : ℚ) : rnd (-y) = -rnd y := by
  rcases lt_trichotomy y 0 with h | h | h
  · rw [rnd_neg h, rnd_pos (by linarith), neg_neg]
  · subst h; simp [rnd_zero]
  · rw [rnd_neg (by linarith), rnd_pos h.le, neg_neg]

theorem rnd_abs (y : ℚ) : |rnd y| = fl |y| := by
  rcases le_or_gt 0 y with h | h
  · rw [rnd_pos h, abs_of_nonneg h, abs_of_nonneg (fl_nonneg y)]
  · rw [rnd_neg h, abs_of_neg h, abs_neg, abs_of_nonneg (fl_nonneg _)]

/-- A double number, apart from the limits of the exponent. -/
def IsDouble (x : ℚ) : Prop := rnd x = x

theorem fl_fl {y : ℚ} : fl (fl y) = fl y := by
  by_cases h : y ≤ 0
  · have : fl y = 0 := by rw [fl, if_pos h]
    rw [this]; simp [fl]
  · have h := not_le.1 h
    have h1 := (scaled h).2
    have hn : nearest (y / ulp y) ≤ 2 ^ 53 := by
      have := nearest_mono (x := y / ulp y) (y := ((2 ^ 53 : ℤ) : ℚ)) (by push_cast; exact h1.le)
      rwa [nearest_int] at this
    have hn0 : 0 ≤ nearest (y / ulp y) := nearest_nonneg (div_nonneg h.le (ulp_pos y).le)
    obtain ⟨m, hm⟩ := Int.eq_ofNat_of_zero_le hn0
    have : fl y = (m : ℚ) * 2 ^ (Int.log 2 y - 52) := by
      rw [fl, if_neg (not_le.2 h), hm, ulp]; push_cast; rfl
    rw [this]
    apply fl_exact
    rw [hm] at hn
    exact_mod_cast hn

theorem rnd_rnd (y : ℚ) : IsDouble (rnd y) := by
  unfold IsDouble
  rcases le_or_gt 0 y with h | h
  · rw [rnd_pos h, rnd_pos (fl_nonneg y), fl_fl]
  · rw [rnd_neg h, rnd_odd, rnd_pos (fl_nonneg _), fl_fl]

theorem fl_IsDouble {x : ℚ} (h : 0 ≤ x) (hx : IsDouble x) : fl x = x := by rw [← rnd_pos h]; exact hx

/-! ### Six decimals -/

theorem micro_odd (x : ℚ) : micro (-x) = -micro x := by
  unfold micro
  rw [abs_neg]
  rcases lt_trichotomy x 0 with h | h | h
  · rw [if_neg (by linarith), if_pos h]; ring
  · subst h
    have : nearest (|(0 : ℚ)| * 10 ^ 6) = 0 := by simpa using nearest_int 0
    rw [this]; simp
  · rw [if_pos (by linarith), if_neg (by linarith)]; ring

theorem micro_pos {x : ℚ} (h : 0 ≤ x) : micro x = (nearest (x * 10 ^ 6) : ℚ) / 10 ^ 6 := by
  unfold micro
  rw [if_neg (not_lt.2 h), abs_of_nonneg h, one_mul]

theorem micro_eq {x : ℚ} (hx : 0 ≤ x) {m : ℤ} (h : |x - m / 10 ^ 6| < 1 / 2000000) : micro x = m / 10 ^ 6 := by
  rw [micro_pos hx, nearest_eq (n := m)]
  rw [abs_lt] at h ⊢
  constructor <;> linarith [h.1, h.2]

theorem micro_int {x : ℚ} (hx : 0 ≤ x) (n : ℤ) (h : x = n) : micro x = x := by
  have := micro_eq hx (m := n * 10 ^ 6) (by rw [h]; push_cast; norm_num)
  rw [this, h]; push_cast; norm_num

/-- A positive number nearest to some multiple of a millionth is nearest to the one which is written. -/
theorem fl_micro (m : ℤ) (hy : 0 < (m : ℚ) / 10 ^ 6) : fl (micro (fl ((m : ℚ) / 10 ^ 6))) = fl ((m : ℚ) / 10 ^ 6) := by
  set y := (m : ℚ) / 10 ^ 6 with hdef
  set x := fl y with hx
  have hx0 : 0 < x := fl_pos hy
  have herr : |x - y| ≤ ulp y / 2 := fl_error hy
  by_cases hl : Int.log 2 y ≤ 32
  · have hu : ulp y ≤ 2 ^ (-20 : ℤ) := zpow_le_zpow_right₀ (by norm_num) (by omega)
    have : (2 : ℚ) ^ (-20 : ℤ) = 1 / 1048576 := by norm_num
    have h1 : |x - y| < 1 / 2000000 := by
      refine lt_of_le_of_lt herr ?_
      rw [this] at hu
      linarith
    rw [micro_eq hx0.le (m := m) h1]
  · have hl : 33 ≤ Int.log 2 y := by omega
    set e := Int.log 2 y with he
    have hu : (2 : ℚ) ^ (-19 : ℤ) ≤ ulp y := zpow_le_zpow_right₀ (by norm_num) (by omega)
    have hu' : (1 : ℚ) / 524288 ≤ ulp y := by
      have : (2 : ℚ) ^ (-19 : ℤ) = 1 / 524288 := by norm_num
      rwa [this] at hu
    have hup := ulp_pos y
    set n := nearest (y / ulp y) with hn
    have hxn : x = n * ulp y := by rw [hx, fl, if_neg (not_le.2 hy)]
    have hn1 : 2 ^ 52 ≤ n := by
      have := nearest_mono (x := ((2 ^ 52 : ℤ) : ℚ)) (y := y / ulp y) (by push_cast; exact (scaled hy).1)
      rwa [nearest_int] at this
    have hn2 : n ≤ 2 ^ 53 := by
      have := nearest_mono (x := y / ulp y) (y := ((2 ^ 53 : ℤ) : ℚ)) (by push_cast; exact (scaled hy).2.le)
      rwa [nearest_int] at this
    have e52 : (2 : ℚ) ^ e = 2 ^ 52 * ulp y := by
      unfold ulp
      rw [← zpow_natCast, ← zpow_add₀ (by norm_num)]
      congr 1; push_cast; ring
    have e53 : (2 : ℚ) ^ (e + 1) = 2 ^ 53 * ulp y := by
      rw [zpow_add₀ (by norm_num), e52]; norm_num; ring
    have hpow : ∀ j : ℤ, 0 ≤ j → ∃ i : ℤ, (2 : ℚ) ^ j = i := fun j hj => ⟨2 ^ j.toNat, by
      push_cast; rw [← zpow_natCast, Int.toNat_of_nonneg hj]⟩
    by_cases h52 : n = 2 ^ 52
    · obtain ⟨i, hi⟩ := hpow e (by omega)
      rw [micro_int hx0.le i (by rw [hxn, h52, ← hi, e52]; push_cast; ring)]
      rw [hx, fl_fl]
    · by_cases h53 : n = 2 ^ 53
      · obtain ⟨i, hi⟩ := hpow (e + 1) (by omega)
        rw [micro_int hx0.le i (by rw [hxn, h53, ← hi, e53]; push_cast; ring)]
        rw [hx, fl_fl]
      · have hz := micro_error x
        set z := micro x with hzdef
        rw [abs_le] at hz
        have n1 : (2 ^ 52 + 1 : ℚ) ≤ n := by exact_mod_cast (show (2 ^ 52 + 1 : ℤ) ≤ n by omega)
        have n2 : (n : ℚ) ≤ 2 ^ 53 - 1 := by
          have : (n : ℚ) ≤ ((2 ^ 53 - 1 : ℤ) : ℚ) := by exact_mod_cast (show n ≤ (2 ^ 53 - 1 : ℤ) by omega)
          refine le_trans this (by norm_num)
        have b1 : 2 ^ e ≤ z := by rw [e52]; nlinarith [hz.1, hxn]
        have b2 : z < 2 ^ (e + 1) := by rw [e53]; nlinarith [hz.2, hxn]
        have b3 : |z / 2 ^ (e - 52) - n| < 1 / 2 := by
          have eu : (2 : ℚ) ^ (e - 52) = ulp y := rfl
          rw [eu, show z / ulp y - n = (z - x) / ulp y by rw [hxn]; field_simp, abs_div, abs_of_pos hup, div_lt_iff₀ hup]
          have : |z - x| ≤ 1 / 2000000 := abs_le.2 hz
          linarith
        rw [fl_eq z e n b1 b2 b3, hxn]
        rfl

/-- The numbers which are unchanged by writing six decimals and reading: those nearest to a decimal number with six decimals. -/
theorem scalar_exact_iff (x : ℚ) : rnd (micro x) = x ↔ ∃ m : ℤ, x = rnd ((m : ℚ) / 10 ^ 6) := by
  constructor
  · intro h
    refine ⟨(if x < 0 then -1 else 1) * nearest (|x| * 10 ^ 6), ?_⟩
    rw [← h]
    conv_lhs => rw [micro]
    rw [h]
    congr 1
    split <;> push_cast <;> ring
  · rintro ⟨m, rfl⟩
    rcases lt_trichotomy m 0 with h | h | h
    · have hm : 0 < ((-m : ℤ) : ℚ) / 10 ^ 6 := by
        have : (0 : ℚ) < ((-m : ℤ) : ℚ) := by exact_mod_cast (show 0 < -m by omega)
        positivity
      have e : (m : ℚ) / 10 ^ 6 = -(((-m : ℤ) : ℚ) / 10 ^ 6) := by push_cast; ring
      rw [e, rnd_odd, micro_odd, rnd_odd, rnd_pos hm.le]
      congr 1
      have h0 : 0 ≤ micro (fl (((-m : ℤ) : ℚ) / 10 ^ 6)) := by
        rw [micro_pos (fl_nonneg _)]
        have : (0 : ℚ) ≤ (nearest (fl (((-m : ℤ) : ℚ) / 10 ^ 6) * 10 ^ 6) : ℚ) := by
          exact_mod_cast nearest_nonneg (mul_nonneg (fl_nonneg _) (by norm_num))
        positivity
      rw [rnd_pos h0, fl_micro (-m) hm]
    · subst h
      simp only [Int.cast_zero, zero_div, rnd_zero]
      rw [micro_int le_rfl 0 (by simp), rnd_zero]
    · have hm : 0 < (m : ℚ) / 10 ^ 6 := by
        have : (0 : ℚ) < (m : ℚ) := by exact_mod_cast h
        positivity
      have h0 : 0 ≤ micro (fl ((m : ℚ) / 10 ^ 6)) := by
        rw [micro_pos (fl_nonneg _)]
        have : (0 : ℚ) ≤ (nearest (fl ((m : ℚ) / 10 ^ 6) * 10 ^ 6) : ℚ) := by
          exact_mod_cast nearest_nonneg (mul_nonneg (fl_nonneg _) (by norm_num))
        positivity
      rw [rnd_pos hm.le, rnd_pos h0, fl_micro m hm]

/-! ### Six significant digits -/

theorem six_val {x : ℚ} (hx : 0 < x) : six x = (nearest (x / 10 ^ (Int.log 10 x - 5)) : ℚ) * 10 ^ (Int.log 10 x - 5) := by
  have h0 : 0 ≤ nearest (x / 10 ^ (Int.log 10 x - 5)) := nearest_nonneg (by positivity)
  obtain ⟨m, hm⟩ := Int.eq_ofNat_of_zero_le h0
  unfold six
  rw [if_neg hx.ne', if_neg (by linarith), abs_of_pos hx, one_mul, sixDigits]
  simp only [hm, Int.toNat_natCast]
  split
  · rename_i h
    simp only [h]
    rw [show Int.log 10 x + 1 - 5 = (Int.log 10 x - 5) + 1 by ring, zpow_add₀ (by norm_num)]
    push_cast
    ring
  · push_cast; rfl

theorem six_odd (x : ℚ) : six (-x) = -six x := by
  unfold six
  rcases lt_trichotomy x 0 with h | h | h
  · rw [if_neg (by linarith), if_neg (by linarith), if_neg h.ne, if_pos h, abs_neg]; ring
  · subst h; simp
  · rw [if_neg (by linarith), if_pos (by linarith), if_neg h.ne', if_neg (by linarith), abs_neg]; ring

theorem log10_bounds {x : ℚ} (h : 0 < x) : (10 : ℚ) ^ Int.log 10 x ≤ x ∧ x < 10 ^ (Int.log 10 x + 1) :=
  ⟨by exact_mod_cast Int.zpow_log_le_self (R := ℚ) (b := 10) (by norm_num) h,
   by exact_mod_cast Int.lt_zpow_succ_log_self (R := ℚ) (b := 10) (by norm_num) x⟩

theorem log10_eq {x : ℚ} (e : ℤ) (h1 : 10 ^ e ≤ x) (h2 : x < 10 ^ (e + 1)) : Int.log 10 x = e := by
  obtain ⟨l1, l2⟩ := log10_bounds (lt_of_lt_of_le (by positivity) h1)
  have a := (zpow_lt_zpow_iff_right₀ (by norm_num : (1:ℚ) < 10)).1 (lt_of_le_of_lt l1 h2)
  have b := (zpow_lt_zpow_iff_right₀ (by norm_num : (1:ℚ) < 10)).1 (lt_of_le_of_lt h1 l2)
  omega

theorem six_error_pos {x : ℚ} (hx : 0 < x) : |six x - x| ≤ x / 200000 := by
  rw [six_val hx]
  set e := Int.log 10 x
  have hp : (0 : ℚ) < 10 ^ (e - 5) := by positivity
  have h1 := nearest_error (x / 10 ^ (e - 5))
  have h2 : (nearest (x / 10 ^ (e - 5)) : ℚ) * 10 ^ (e - 5) - x = ((nearest (x / 10 ^ (e - 5)) : ℚ) - x / 10 ^ (e - 5)) * 10 ^ (e - 5) := by field_simp
  rw [h2, abs_mul, abs_of_pos hp]
  have h3 := (log10_bounds hx).1
  have h4 : (10 : ℚ) ^ e = 10 ^ (e - 5) * 100000 := by
    rw [show (100000 : ℚ) = 10 ^ (5 : ℤ) by norm_num, ← zpow_add₀ (by norm_num)]; congr 1; ring
  rw [show Int.log 10 x = e from rfl, h4] at h3
  nlinarith [h1, hp, h3]

/-- The relative error of six significant digits. -/
theorem six_error (x : ℚ) : |six x - x| ≤ |x| / 200000 := by
  rcases lt_trichotomy x 0 with h | h | h
  · have := six_error_pos (x := -x) (by linarith)
    rw [six_odd, show -six x - -x = -(six x - x) by ring, abs_neg] at this
    rwa [abs_of_neg h]
  · subst h; simp [six]
  · have := six_error_pos h
    rwa [abs_of_pos h]

/-- The number nearest to one with six significant digits is written with these digits. -/
theorem six_fl (M : ℕ) (k : ℤ) (h1 : 10 ^ 5 ≤ M) (h2 : M < 10 ^ 6) : six (fl ((M : ℚ) * 10 ^ k)) = (M : ℚ) * 10 ^ k := by
  have hp : (0 : ℚ) < 10 ^ k := by positivity
  have M1 : (100000 : ℚ) ≤ M := by exact_mod_cast h1
  have M2 : (M : ℚ) ≤ 999999 := by exact_mod_cast (show M ≤ 999999 by omega)
  have hy : 0 < (M : ℚ) * 10 ^ k := by positivity
  have herr := fl_rel hy
  have hx := fl_pos hy
  set x := fl ((M : ℚ) * 10 ^ k)
  rw [abs_le] at herr
  have herr1 : -((M : ℚ) * 10 ^ k / 10 ^ 15) ≤ x - (M : ℚ) * 10 ^ k := by
    refine le_trans ?_ herr.1
    rw [neg_le_neg_iff]
    gcongr
    norm_num
  have herr2 : x - (M : ℚ) * 10 ^ k ≤ (M : ℚ) * 10 ^ k / 10 ^ 15 := by
    refine le_trans herr.2 ?_
    gcongr
    norm_num
  have p5 : (10 : ℚ) ^ (k + 5) = 100000 * 10 ^ k := by
    rw [zpow_add₀ (by norm_num)]; norm_num; ring
  have p6 : (10 : ℚ) ^ (k + 5 + 1) = 1000000 * 10 ^ k := by
    rw [zpow_add₀ (by norm_num), p5]; norm_num; ring
  have p4 : (10 : ℚ) ^ (k + 4) = 10000 * 10 ^ k := by
    rw [zpow_add₀ (by norm_num)]; norm_num; ring
  have pm : (10 : ℚ) ^ k = 10 * 10 ^ (k - 1) := by
    rw [show k = (k - 1) + 1 by ring, zpow_add₀ (by norm_num)]; norm_num; ring
  rw [six_val hx]
  by_cases hc : (10 : ℚ) ^ (k + 5) ≤ x
  · rw [log10_eq (k + 5) hc (by rw [p6]; nlinarith), show k + 5 - 5 = k by ring, nearest_eq (n := M)]
    · push_cast; rfl
    · rw [show x / 10 ^ k - ((M : ℤ) : ℚ) = (x - M * 10 ^ k) / 10 ^ k by push_cast; field_simp, abs_div, abs_of_pos hp, div_lt_iff₀ hp, abs_lt]
      constructor <;> nlinarith
  · have hc := not_le.1 hc
    have hM : M = 100000 := by
      by_contra hne
      have : (100001 : ℚ) ≤ M := by exact_mod_cast (show 100001 ≤ M by omega)
      rw [p5] at hc
      nlinarith
    have hq : (0 : ℚ) < 10 ^ (k - 1) := by positivity
    subst hM
    push_cast at herr1 herr2 ⊢
    rw [log10_eq (k + 4) (by rw [p4]; nlinarith) (by rw [show k + 4 + 1 = k + 5 by ring]; exact hc), show k + 4 - 5 = k - 1 by ring, nearest_eq (n := 1000000)]
    · rw [pm]; push_cast; ring
    · rw [show x / 10 ^ (k - 1) - ((1000000 : ℤ) : ℚ) = (x - 100000 * (10 * 10 ^ (k - 1))) / 10 ^ (k - 1) by push_cast; field_simp; ring, ← pm, abs_div, abs_of_pos hq,
        div_lt_iff₀ hq, abs_lt]
      rw [pm] at herr1 herr2 ⊢
      constructor <;> nlinarith

theorem normalise (m : ℕ) (h0 : 0 < m) (h : m < 10 ^ 6) : ∃ (M j : ℕ), 10 ^ 5 ≤ M ∧ M < 10 ^ 6 ∧ M = m * 10 ^ j := by
  have h1 := Nat.pow_log_le_self 10 h0.ne'
  have h2 := Nat.lt_pow_succ_log_self (b := 10) (by norm_num) m
  have h3 : Nat.log 10 m < 6 := Nat.log_lt_of_lt_pow h0.ne' h
  refine ⟨m * 10 ^ (5 - Nat.log 10 m), 5 - Nat.log 10 m, ?_, ?_, rfl⟩
  · calc 10 ^ 5 = 10 ^ Nat.log 10 m * 10 ^ (5 - Nat.log 10 m) := by rw [← pow_add]; congr 1; omega
      _ ≤ _ := Nat.mul_le_mul_right _ h1
  · calc m * 10 ^ (5 - Nat.log 10 m) < 10 ^ (Nat.log 10 m + 1) * 10 ^ (5 - Nat.log 10 m) := Nat.mul_lt_mul_of_pos_right h2 (by positivity)
      _ = 10 ^ 6 := by rw [← pow_add]; congr 1; omega

theorem six_rnd (m k : ℤ) (h : |m| < 10 ^ 6) : six (rnd ((m : ℚ) * 10 ^ k)) = (m : ℚ) * 10 ^ k := by
  have pos : ∀ n : ℕ, 0 < n → n < 10 ^ 6 → six (rnd ((n : ℚ) * 10 ^ k)) = (n : ℚ) * 10 ^ k := by
    intro n hn hlt
    obtain ⟨M, j, hM1, hM2, hM⟩ := normalise n hn hlt
    have e : (n : ℚ) * 10 ^ k = (M : ℚ) * 10 ^ (k - j) := by
      rw [hM]; push_cast
      rw [mul_assoc, ← zpow_natCast, ← zpow_add₀ (by norm_num)]
      congr 2; ring
    rw [e, rnd_pos (by positivity), six_fl M (k - j) hM1 hM2]
  rw [abs_lt] at h
  rcases lt_trichotomy m 0 with hm | hm | hm
  · have := pos m.natAbs (by omega) (by omega)
    have e : (m : ℚ) = -(((m.natAbs : ℕ) : ℤ) : ℚ) := by
      rw [← Int.cast_neg]; congr 1; omega
    rw [e, neg_mul, rnd_odd, six_odd, Int.cast_natCast, this]
  · subst hm; simp [rnd_zero, six]
  · obtain ⟨n, rfl⟩ := Int.eq_ofNat_of_zero_le hm.le
    have := pos n (by omega) (by omega)
    exact_mod_cast this

theorem sixDigits_lt {x : ℚ} (hx : 0 < x) : (sixDigits x).1 < 10 ^ 6 := by
  have hp : (0 : ℚ) < 10 ^ (Int.log 10 x - 5) := by positivity
  have h2 : x / 10 ^ (Int.log 10 x - 5) ≤ ((10 ^ 6 : ℤ) : ℚ) := by
    rw [div_le_iff₀ hp]
    refine le_trans (log10_bounds hx).2.le ?_
    push_cast
    rw [show (1000000 : ℚ) = 10 ^ (6 : ℤ) by norm_num, ← zpow_add₀ (by norm_num)]
    apply le_of_eq; congr 1; ring
  have h3 := nearest_mono h2
  rw [nearest_int] at h3
  unfold sixDigits
  simp only
  split
  · norm_num
  · rename_i h; simp only; omega

/-- The numbers which are unchanged by writing six significant digits and reading: those nearest to a decimal number with at most six significant digits. -/
theorem element_exact_iff (x : ℚ) : rnd (six x) = x ↔ ∃ m k : ℤ, |m| < 10 ^ 6 ∧ x = rnd ((m : ℚ) * 10 ^ k) := by
  constructor
  · intro h
    by_cases h0 : x = 0
    · exact ⟨0, 0, by norm_num, by rw [h0]; simp [rnd_zero]⟩
    · refine ⟨(if x < 0 then -1 else 1) * ((sixDigits |x|).1 : ℤ), (sixDigits |x|).2 - 5, ?_, ?_⟩
      · have := sixDigits_lt (abs_pos.2 h0)
        rw [abs_lt]
        split <;> constructor <;> push_cast <;> omega
      · conv_lhs => rw [← h, six, if_neg h0]
        congr 1
        split <;> push_cast <;> ring
  · rintro ⟨m, k, h, rfl⟩
    rw [six_rnd m k h]

/-! ### Range -/

set_option exponentiation.threshold 2000

/-- The largest double. -/
def maxDouble : ℚ := (2 ^ 53 - 1) * 2 ^ 971

theorem fl_maxDouble : fl maxDouble = maxDouble := by
  have := fl_exact (2 ^ 53 - 1) 971 (by norm_num)
  have e : (((2 ^ 53 - 1 : ℕ) : ℚ)) * 2 ^ (971 : ℤ) = maxDouble := by
    unfold maxDouble
    rw [show (2 : ℚ) ^ (971 : ℤ) = 2 ^ (971 : ℕ) by rw [show (971 : ℤ) = ((971 : ℕ) : ℤ) by norm_num, zpow_natCast]]
    norm_num
  rwa [e] at this

theorem in_range {v : ℚ} (h : |v| ≤ maxDouble) : |rnd v| < 2 ^ 1024 := by
  rw [rnd_abs]
  refine lt_of_le_of_lt (fl_mono h) ?_
  rw [fl_maxDouble, maxDouble]
  norm_num

theorem toDouble_ok {v : ℚ} (h : |rnd v| < 2 ^ 1024) (hv : v = 0 ∨ 1 / 2 ^ 1022 ≤ |v|) : toDouble v = .ok (.fin (rnd v)) := by
  unfold toDouble
  split
  · rename_i h0; rw [h0, rnd_zero]
  · rename_i h0
    rw [if_neg (not_le.2 h), if_neg (not_lt.2 (hv.resolve_left h0))]

theorem micro_range {x : ℚ} (h : |x| ≤ maxDouble) : |rnd (micro x)| < 2 ^ 1024 := by
  have h1 := micro_error x
  have h2 : |micro x| ≤ maxDouble + 1 := by
    have := abs_sub_abs_le_abs_sub (micro x) x
    linarith
  rw [rnd_abs]
  refine lt_of_le_of_lt (fl_mono h2) ?_
  have := fl_eq (maxDouble + 1) 1023 (2 ^ 53 - 1)
    (by rw [show (2 : ℚ) ^ (1023 : ℤ) = 2 ^ (1023 : ℕ) by rw [show (1023 : ℤ) = ((1023 : ℕ) : ℤ) by norm_num, zpow_natCast], maxDouble]; norm_num)
    (by rw [show (2 : ℚ) ^ ((1023 : ℤ) + 1) = 2 ^ (1024 : ℕ) by rw [show ((1023 : ℤ) + 1) = ((1024 : ℕ) : ℤ) by norm_num, zpow_natCast], maxDouble]; norm_num)
    (by rw [show (2 : ℚ) ^ ((1023 : ℤ) - 52) = 2 ^ (971 : ℕ) by rw [show ((1023 : ℤ) - 52) = ((971 : ℕ) : ℤ) by norm_num, zpow_natCast], maxDouble, abs_lt]; constructor <;> norm_num)
  rw [this, show (2 : ℚ) ^ ((1023 : ℤ) - 52) = 2 ^ (971 : ℕ) by rw [show ((1023 : ℤ) - 52) = ((971 : ℕ) : ℤ) by norm_num, zpow_natCast]]
  norm_num

theorem micro_normal (x : ℚ) : micro x = 0 ∨ 1 / 2 ^ 1022 ≤ |micro x| := by
  by_cases h : nearest (|x| * 10 ^ 6) = 0
  · left; unfold micro; rw [h]; simp
  · right
    have h0 : 0 ≤ nearest (|x| * 10 ^ 6) := nearest_nonneg (by positivity)
    have h1 : (1 : ℚ) ≤ (nearest (|x| * 10 ^ 6) : ℚ) := by exact_mod_cast (show 1 ≤ nearest (|x| * 10 ^ 6) by omega)
    have h2 : |micro x| = (nearest (|x| * 10 ^ 6) : ℚ) / 10 ^ 6 := by
      unfold micro
      rw [abs_div, abs_mul, abs_of_nonneg (a := ((nearest (|x| * 10 ^ 6) : ℤ) : ℚ)) (by linarith), abs_of_nonneg (a := (10 : ℚ) ^ 6) (by norm_num)]
      split <;> simp
    rw [h2]
    have : (1 : ℚ) / 10 ^ 6 ≤ (nearest (|x| * 10 ^ 6) : ℚ) / 10 ^ 6 := by gcongr
    refine le_trans ?_ this
    norm_num

theorem scalar_read {x : ℚ} (h : |x| ≤ maxDouble) : stod (' ' :: fixedText x) = .ok (.fin (rnd (micro x))) := by
  rw [fixed_read, toDouble_ok (micro_range h) (micro_normal x)]

theorem six_abs (x : ℚ) : |six x| = six |x| := by
  have pos : ∀ y : ℚ, 0 < y → |six y| = six y := by
    intro y hy
    rw [six_val hy]
    apply abs_of_nonneg
    have : (0 : ℚ) ≤ (nearest (y / 10 ^ (Int.log 10 y - 5)) : ℚ) := by exact_mod_cast nearest_nonneg (by positivity)
    positivity
  rcases lt_trichotomy x 0 with h | h | h
  · rw [abs_of_neg h, ← pos (-x) (by linarith), six_odd, abs_neg]
  · subst h; simp [six]
  · rw [abs_of_pos h, pos x h]

theorem six_range {x : ℚ} (h : |x| ≤ maxDouble) : |rnd (six x)| < 2 ^ 1024 := by
  apply in_range
  rw [six_abs]
  have h0 := abs_nonneg x
  generalize |x| = y at h h0
  rcases lt_or_ge y (10 ^ 308) with hy | hy
  · have := six_error y
    rw [abs_of_nonneg h0, abs_le] at this
    have h1 : six y ≤ 11 / 10 * 10 ^ 308 := by linarith [this.2]
    refine le_trans h1 ?_
    unfold maxDouble
    norm_num
  · have hp : 0 < y := lt_of_lt_of_le (by positivity) hy
    have hlog : Int.log 10 y = 308 := by
      refine log10_eq 308 (by rw [show (10 : ℚ) ^ (308 : ℤ) = 10 ^ (308 : ℕ) by rw [show (308 : ℤ) = ((308 : ℕ) : ℤ) by norm_num, zpow_natCast]]; exact hy) (lt_of_le_of_lt h ?_)
      rw [show (10 : ℚ) ^ ((308 : ℤ) + 1) = 10 ^ (309 : ℕ) by rw [show ((308 : ℤ) + 1) = ((309 : ℕ) : ℤ) by norm_num, zpow_natCast], maxDouble]
      norm_num
    rw [six_val hp, hlog, show (10 : ℚ) ^ ((308 : ℤ) - 5) = 10 ^ (303 : ℕ) by rw [show ((308 : ℤ) - 5) = ((303 : ℕ) : ℤ) by norm_num, zpow_natCast]]
    have h1 : nearest (y / 10 ^ 303) ≤ nearest (maxDouble / 10 ^ 303) := nearest_mono (by gcongr)
    have h2 : nearest (maxDouble / 10 ^ 303) = 179769 := by
      apply nearest_eq
      rw [abs_lt]
      unfold maxDouble
      constructor <;> norm_num
    rw [h2] at h1
    have h3 : (nearest (y / 10 ^ 303) : ℚ) ≤ 179769 := by exact_mod_cast h1
    have h4 : (nearest (y / 10 ^ 303) : ℚ) * 10 ^ 303 ≤ 179769 * 10 ^ 303 := by gcongr
    refine le_trans h4 ?_
    unfold maxDouble
    norm_num

theorem element_read {x : ℚ} (h : |x| ≤ maxDouble) (h' : x = 0 ∨ 1 / 2 ^ 1022 ≤ |six x|) : stod (' ' :: generalText x) = .ok (.fin (rnd (six x))) := by
  rw [general_read, toDouble_ok (six_range h)]
  rcases h' with rfl | h'
  · left; simp [six]
  · right; exact h'

/-- Numbers which are not normal can be written, but not read. -/
theorem element_small {x : ℚ} (h0 : x ≠ 0) (h : |x| ≤ 222 / 10 ^ 310) : stod (' ' :: generalText x) = .error .range := by
  have he := six_error x
  have hx := abs_pos.2 h0
  have h1 : 0 < |six x| := by
    have := abs_sub_abs_le_abs_sub x (six x)
    rw [abs_sub_comm] at this
    linarith
  have h2 : |six x| < 1 / 2 ^ 1022 := by
    have h3 := abs_sub_abs_le_abs_sub (six x) x
    have h4 : |six x| ≤ 222 / 10 ^ 310 * (1 + 1 / 200000) := by linarith
    refine lt_of_le_of_lt h4 ?_
    norm_num
  have h3 : |rnd (six x)| < 2 ^ 1024 := by
    apply in_range
    refine le_trans h2.le ?_
    unfold maxDouble
    norm_num
  rw [general_read, toDouble, if_neg (abs_pos.1 h1), if_neg (not_le.2 h3), if_pos h2]

end Verif.Config
