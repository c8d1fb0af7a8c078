import Verif.Common.Double
import Verif.Common.XArith
/-!
Doubles as IEEE 754 defines them, with subnormal numbers, overflow, infinities and NaN: 53 binary digits, exponents from -1074 to 971.
Every operation rounds the exact result to the nearest double, ties to even; results which would need a larger exponent become infinite.  `round_nearest` and
`round_pinf` compare this with the definition of the standard.  Zeros have no sign: division by zero is division by +0.
-/
namespace Verif.Common.Ieee
open Verif.Common.Round

/-- The finite doubles. -/
def F64 (x : ℚ) : Prop := ∃ m k : ℤ, |m| < 2 ^ 53 ∧ -1074 ≤ k ∧ k ≤ 971 ∧ x = m * 2 ^ k

/-- The largest double. -/
def maxD : ℚ := (2 ^ 53 - 1) * 2 ^ (971 : ℤ)

/-- Exponent of the distance of two doubles near `x`. -/
def lsb (x : ℚ) : ℤ := max (Int.log 2 x) (-1022) - 52

/-- The nearest double, without a largest exponent. -/
def flS (x : ℚ) : ℚ := if x ≤ 0 then 0 else nearest (x / 2 ^ lsb x) * 2 ^ lsb x

def rndS (x : ℚ) : ℚ := if x < 0 then - flS (-x) else flS x

/-- The first number which would need a larger exponent. -/
def lim : ℚ := 2 ^ (1024 : ℤ)

/-- The result of an operation whose exact result is `x`. -/
def round (x : ℚ) : XVal ℚ := if lim ≤ rndS x then .pinf else if rndS x ≤ -lim then .ninf else .fin (rndS x)

/-- Rounding of an exact result which may be special. -/
def fix : XVal ℚ → XVal ℚ
  | .fin q => round q
  | v => v

def add (a b : XVal ℚ) : XVal ℚ := fix (XVal.add a b)
def sub (a b : XVal ℚ) : XVal ℚ := fix (XVal.sub a b)
def mul (a b : XVal ℚ) : XVal ℚ := fix (XVal.mul a b)
def div (a b : XVal ℚ) : XVal ℚ := fix (XVal.div a b)

/-- A value a variable of type double can have. -/
def Dbl : XVal ℚ → Prop
  | .fin q => F64 q
  | _ => True

/-! ### Numbers without a largest exponent -/

def Rep (x : ℚ) : Prop := ∃ m k : ℤ, |m| < 2 ^ 53 ∧ -1074 ≤ k ∧ x = m * 2 ^ k

theorem two_pos (k : ℤ) : (0:ℚ) < 2 ^ k := by positivity

theorem zpow_lt_iff {a b : ℤ} : (2:ℚ) ^ a < 2 ^ b ↔ a < b := zpow_lt_zpow_iff_right₀ (by norm_num)
theorem zpow_le_iff {a b : ℤ} : (2:ℚ) ^ a ≤ 2 ^ b ↔ a ≤ b := zpow_le_zpow_iff_right₀ (by norm_num)

theorem split (a b : ℤ) : (2:ℚ) ^ a = 2 ^ (a - b) * 2 ^ b := by
  rw [← zpow_add₀ (by norm_num)]; congr 1; ring

theorem Rep.neg {x : ℚ} (h : Rep x) : Rep (-x) := by
  obtain ⟨m, k, h1, h2, h3⟩ := h
  exact ⟨-m, k, by rwa [abs_neg], h2, by rw [h3]; push_cast; ring⟩

theorem rep_zero : Rep 0 := ⟨0, 0, by norm_num, by norm_num, by norm_num⟩

/-- At most `2^53` digits suffice. -/
theorem rep_of_le {m k : ℤ} (h1 : |m| ≤ 2 ^ 53) (h2 : -1074 ≤ k) : Rep (m * 2 ^ k) := by
  rcases lt_or_eq_of_le h1 with h | h
  · exact ⟨m, k, h, h2, rfl⟩
  · have e : (2:ℚ) ^ (k + 1) = 2 * 2 ^ k := by rw [zpow_add₀ (by norm_num)]; ring
    rcases abs_choice m with h' | h' <;> rw [h'] at h
    · refine ⟨2 ^ 52, k + 1, by norm_num, by omega, ?_⟩
      rw [h, e]; push_cast; ring
    · refine ⟨- 2 ^ 52, k + 1, by norm_num, by omega, ?_⟩
      have : m = - 2 ^ 53 := by omega
      rw [this, e]; push_cast; ring

theorem lim_pos : 0 < lim := two_pos _

theorem f64_of_rep {x : ℚ} (h : Rep x) (hx : |x| < lim) : F64 x := by
  obtain ⟨m, k, h1, h2, h3⟩ := h
  by_cases hk : k ≤ 971
  · exact ⟨m, k, h1, h2, hk, h3⟩
  · refine ⟨m * 2 ^ (k - 971).toNat, 971, ?_, by norm_num, le_refl _, ?_⟩
    · have e : x = ((m * 2 ^ (k - 971).toNat : ℤ) : ℚ) * 2 ^ (971 : ℤ) := by
        push_cast
        rw [h3, ← zpow_natCast, Int.toNat_of_nonneg (by omega), mul_assoc, ← split]
      rw [e, abs_mul, abs_of_pos (two_pos 971), lim, split 1024 971, mul_lt_mul_iff_of_pos_right (two_pos 971)] at hx
      have : (2:ℚ) ^ (1024 - 971 : ℤ) = ((2 ^ 53 : ℤ) : ℚ) := by norm_num
      rw [this] at hx
      exact_mod_cast hx
    · push_cast
      rw [h3, ← zpow_natCast, Int.toNat_of_nonneg (by omega), mul_assoc, ← split]

theorem F64.rep {x : ℚ} (h : F64 x) : Rep x := by
  obtain ⟨m, k, h1, h2, _, h3⟩ := h
  exact ⟨m, k, h1, h2, h3⟩

theorem F64.le {x : ℚ} (h : F64 x) : |x| ≤ maxD := by
  obtain ⟨m, k, h1, h2, h3, h4⟩ := h
  rw [h4, abs_mul, abs_of_pos (two_pos k), maxD]
  have h5 : (2:ℚ) ^ k ≤ 2 ^ (971 : ℤ) := zpow_le_iff.2 h3
  have h6 : |(m:ℚ)| ≤ 2 ^ 53 - 1 := by
    have : |m| ≤ 2 ^ 53 - 1 := by omega
    exact_mod_cast this
  exact mul_le_mul h6 h5 (two_pos k).le (by norm_num)

theorem maxD_lt : maxD < lim := by
  rw [maxD, lim, split 1024 971]
  have : (2:ℚ) ^ (1024 - 971 : ℤ) = 2 ^ 53 := by norm_num
  rw [this]
  exact mul_lt_mul_of_pos_right (by norm_num) (two_pos 971)

theorem f64_iff {x : ℚ} : F64 x ↔ Rep x ∧ |x| ≤ maxD :=
  ⟨fun h => ⟨h.rep, h.le⟩, fun h => f64_of_rep h.1 (lt_of_le_of_lt h.2 maxD_lt)⟩

theorem F64.neg {x : ℚ} (h : F64 x) : F64 (-x) := by
  rw [f64_iff] at *
  exact ⟨h.1.neg, by rw [abs_neg]; exact h.2⟩

theorem f64_zero : F64 0 := ⟨0, 0, by norm_num, by norm_num, by norm_num, by norm_num⟩

theorem f64_maxD : F64 maxD := ⟨2 ^ 53 - 1, 971, by norm_num, by norm_num, by norm_num, by rw [maxD]; norm_num⟩

theorem lsb_ge (x : ℚ) : -1074 ≤ lsb x := by unfold lsb; omega

/-- The scaled number is below `2^53`. -/
theorem scaled_lt {x : ℚ} (h : 0 < x) : x / 2 ^ lsb x < 2 ^ (53:ℕ) := by
  obtain ⟨-, h2⟩ := log_bounds h
  rw [div_lt_iff₀ (two_pos _), ← zpow_natCast, ← zpow_add₀ (by norm_num)]
  refine lt_of_lt_of_le h2 (zpow_le_iff.2 ?_)
  unfold lsb
  push_cast
  omega

theorem nearest_nonneg {y : ℚ} (h : 0 ≤ y) : 0 ≤ nearest y := by
  have := nearest_mono (x := ((0:ℤ):ℚ)) (y := y) (by push_cast; exact h)
  rwa [nearest_int] at this

theorem flS_digits {x : ℚ} (h : 0 < x) : ∃ n : ℤ, 0 ≤ n ∧ n ≤ 2 ^ 53 ∧ flS x = n * 2 ^ lsb x ∧ n = nearest (x / 2 ^ lsb x) := by
  refine ⟨nearest (x / 2 ^ lsb x), nearest_nonneg (div_nonneg h.le (two_pos _).le), ?_, by rw [flS, if_neg (not_le.2 h)], rfl⟩
  have := nearest_mono (x := x / 2 ^ lsb x) (y := ((2 ^ 53 : ℤ) : ℚ)) (by push_cast; exact (scaled_lt h).le)
  rwa [nearest_int] at this

theorem flS_nonneg (x : ℚ) : 0 ≤ flS x := by
  rcases le_or_gt x 0 with h | h
  · rw [flS, if_pos h]
  · obtain ⟨n, h1, -, h3, -⟩ := flS_digits h
    rw [h3]
    have : (0:ℚ) ≤ n := by exact_mod_cast h1
    exact mul_nonneg this (two_pos _).le

theorem flS_rep (x : ℚ) : Rep (flS x) := by
  rcases le_or_gt x 0 with h | h
  · rw [flS, if_pos h]; exact rep_zero
  · obtain ⟨n, h1, h2, h3, -⟩ := flS_digits h
    rw [h3]
    exact rep_of_le (by rw [abs_of_nonneg h1]; exact h2) (lsb_ge x)

theorem rndS_rep (x : ℚ) : Rep (rndS x) := by
  unfold rndS
  split_ifs
  · exact (flS_rep _).neg
  · exact flS_rep _

/-- A representable number which is not below the binade of `x` is a multiple of the distance of doubles there. -/
theorem rep_multiple {x d : ℚ} (hd : Rep d) (h : Int.log 2 x ≤ -1022 ∨ 2 ^ Int.log 2 x ≤ d) : ∃ n : ℤ, d = n * 2 ^ lsb x := by
  obtain ⟨m, k, h1, h2, h3⟩ := hd
  by_cases hk : lsb x ≤ k
  · refine ⟨m * 2 ^ (k - lsb x).toNat, ?_⟩
    push_cast
    rw [h3, ← zpow_natCast, Int.toNat_of_nonneg (by omega), mul_assoc, ← split]
  · exfalso
    have hl : -1022 < Int.log 2 x := by
      unfold lsb at hk
      omega
    have h4 : 2 ^ Int.log 2 x ≤ d := by
      rcases h with h | h
      · omega
      · exact h
    have h5 : (m:ℚ) < 2 ^ (53 : ℤ) := by
      have : m < 2 ^ 53 := lt_of_le_of_lt (le_abs_self m) h1
      have : (m:ℚ) < ((2 ^ 53 : ℤ) : ℚ) := by exact_mod_cast this
      calc (m:ℚ) < ((2 ^ 53 : ℤ) : ℚ) := this
        _ = 2 ^ (53 : ℤ) := by norm_num
    have h6 : d < 2 ^ (53 + k) := by
      rw [h3, zpow_add₀ (by norm_num)]
      exact mul_lt_mul_of_pos_right h5 (two_pos k)
    have h7 := zpow_lt_iff.1 (lt_of_le_of_lt h4 h6)
    unfold lsb at hk
    omega

theorem flS_exact {x : ℚ} (h : Rep x) (h0 : 0 ≤ x) : flS x = x := by
  rcases eq_or_lt_of_le h0 with h1 | h1
  · rw [← h1]; simp [flS]
  · obtain ⟨n, hn⟩ := rep_multiple (x := x) h (Or.inr (log_bounds h1).1)
    have e : x / 2 ^ lsb x = n := by rw [div_eq_iff (two_pos _).ne']; exact hn
    rw [flS, if_neg (not_le.2 h1), e, nearest_int, ← hn]

theorem rndS_neg_eq (x : ℚ) : rndS (-x) = - rndS x := by
  have z : flS 0 = 0 := by simp [flS]
  rcases lt_trichotomy x 0 with h | h | h
  · rw [rndS, rndS, if_pos h, if_neg (by linarith), neg_neg]
  · simp [h, rndS, z]
  · rw [rndS, rndS, if_neg (by linarith : ¬ x < 0), if_pos (by linarith), neg_neg]

theorem rndS_pos {x : ℚ} (h : 0 ≤ x) : rndS x = flS x := by rw [rndS, if_neg (not_lt.2 h)]

theorem rndS_exact {x : ℚ} (h : Rep x) : rndS x = x := by
  rcases le_total 0 x with h0 | h0
  · rw [rndS_pos h0, flS_exact h h0]
  · have := flS_exact h.neg (by linarith)
    have e := rndS_neg_eq (-x)
    rw [neg_neg] at e
    rw [e, rndS_pos (by linarith), this, neg_neg]

/-! ### The nearest double -/

/-- The two multiples around `x`. -/
theorem floor_bounds (x : ℚ) : (⌊x / 2 ^ lsb x⌋ : ℚ) * 2 ^ lsb x ≤ x ∧ x < (⌊x / 2 ^ lsb x⌋ + 1 : ℚ) * 2 ^ lsb x := by
  constructor
  · rw [← le_div_iff₀ (two_pos _)]; exact Int.floor_le _
  · rw [← div_lt_iff₀ (two_pos _)]; exact Int.lt_floor_add_one _

/-- Doubles below `x` are at most the multiple below, doubles above at least the one above. -/
theorem rep_le_floor {x d : ℚ} (h : 0 < x) (hd : Rep d) (hdx : d ≤ x) : d ≤ ⌊x / 2 ^ lsb x⌋ * 2 ^ lsb x := by
  have hf : (0:ℤ) ≤ ⌊x / 2 ^ lsb x⌋ := Int.floor_nonneg.2 (div_nonneg h.le (two_pos _).le)
  have hf' : (0:ℚ) ≤ (⌊x / 2 ^ lsb x⌋ : ℚ) * 2 ^ lsb x := mul_nonneg (by exact_mod_cast hf) (two_pos _).le
  rcases lt_or_ge d 0 with h0 | h0
  · linarith
  by_cases hb : Int.log 2 x ≤ -1022 ∨ 2 ^ Int.log 2 x ≤ d
  · obtain ⟨n, hn⟩ := rep_multiple hd hb
    have : n ≤ ⌊x / 2 ^ lsb x⌋ := by
      apply Int.le_floor.2
      rw [le_div_iff₀ (two_pos _), ← hn]
      exact hdx
    rw [hn]
    exact mul_le_mul_of_nonneg_right (by exact_mod_cast this) (two_pos _).le
  · push Not at hb
    have e : (2:ℚ) ^ Int.log 2 x = ((2 ^ 52 : ℤ) : ℚ) * 2 ^ lsb x := by
      have : lsb x = Int.log 2 x - 52 := by unfold lsb; omega
      rw [this, split (Int.log 2 x) (Int.log 2 x - 52)]
      congr 1
      norm_num
    refine le_trans hb.2.le ?_
    rw [e]
    have : (2 ^ 52 : ℤ) ≤ ⌊x / 2 ^ lsb x⌋ := by
      apply Int.le_floor.2
      rw [le_div_iff₀ (two_pos _), ← e]
      exact (log_bounds h).1
    exact mul_le_mul_of_nonneg_right (by exact_mod_cast this) (two_pos _).le

theorem ceil_le_rep {x d : ℚ} (h : 0 < x) (hd : Rep d) (hdx : x < d) : (⌊x / 2 ^ lsb x⌋ + 1 : ℚ) * 2 ^ lsb x ≤ d := by
  obtain ⟨n, hn⟩ := rep_multiple (x := x) hd (Or.inr (le_trans (log_bounds h).1 hdx.le))
  have : ⌊x / 2 ^ lsb x⌋ < n := by
    apply Int.floor_lt.2
    rw [div_lt_iff₀ (two_pos _), ← hn]
    exact hdx
  rw [hn]
  refine mul_le_mul_of_nonneg_right ?_ (two_pos _).le
  exact_mod_cast this

/-- No double is nearer. -/
theorem flS_nearest {x d : ℚ} (h : 0 < x) (hd : Rep d) : |x - flS x| ≤ |x - d| := by
  obtain ⟨b1, b2⟩ := floor_bounds x
  have e : flS x = nearest (x / 2 ^ lsb x) * 2 ^ lsb x := by rw [flS, if_neg (not_le.2 h)]
  have hq := two_pos (lsb x)
  set q := (2:ℚ) ^ lsb x
  set f := ⌊x / q⌋
  have ex : x = x / q * q := by field_simp
  rcases lt_or_ge x d with hdx | hdx
  · have hc := ceil_le_rep h hd hdx
    rw [abs_of_nonpos (a := x - d) (by linarith)]
    rcases nearest_floor_or (x / q) with hn | hn
    · -- rounded down
      rw [e, hn, abs_of_nonneg (by linarith)]
      have hle : x / q - f ≤ 1 / 2 := by
        have hfl : nearest (x / q) = f := hn
        unfold nearest at hfl
        split_ifs at hfl with c1 c2 c3
        · exact c1.le
        · omega
        · exact not_lt.1 c2
        · omega
      have : x - f * q ≤ (f + 1) * q - x := by
        have k1 : x - f * q = (x / q - f) * q := by rw [sub_mul, ← ex]
        have k2 : (f + 1) * q - x = (1 - (x / q - f)) * q := by
          rw [sub_mul, sub_mul, ← ex]; ring
        rw [k1, k2]
        exact mul_le_mul_of_nonneg_right (by linarith) hq.le
      linarith
    · rw [e, hn, abs_of_nonpos (by push_cast; linarith)]
      push_cast
      linarith
  · have hc := rep_le_floor h hd hdx
    rw [abs_of_nonneg (a := x - d) (by linarith)]
    rcases nearest_floor_or (x / q) with hn | hn
    · rw [e, hn, abs_of_nonneg (by linarith)]
      linarith
    · rw [e, hn, abs_of_nonpos (by push_cast; linarith)]
      have hle : 1 / 2 ≤ x / q - f := by
        have hfl : nearest (x / q) = f + 1 := hn
        unfold nearest at hfl
        split_ifs at hfl with c1 c2 c3
        · omega
        · exact c2.le
        · omega
        · exact not_lt.1 c1
      have : (f + 1) * q - x ≤ x - f * q := by
        have k1 : x - f * q = (x / q - f) * q := by rw [sub_mul, ← ex]
        have k2 : (f + 1) * q - x = (1 - (x / q - f)) * q := by
          rw [sub_mul, sub_mul, ← ex]; ring
        rw [k1, k2]
        exact mul_le_mul_of_nonneg_right (by linarith) hq.le
      push_cast
      linarith

theorem rndS_nearest (x : ℚ) {d : ℚ} (hd : Rep d) : |x - rndS x| ≤ |x - d| := by
  rcases lt_trichotomy x 0 with h | h | h
  · have := flS_nearest (x := -x) (d := -d) (by linarith) hd.neg
    rw [rndS, if_pos h]
    have e1 : x - -flS (-x) = -(-x - flS (-x)) := by ring
    have e2 : x - d = -(-x - -d) := by ring
    rw [e1, e2, abs_neg, abs_neg]
    exact this
  · rw [h, rndS_exact rep_zero]; simp
  · rw [rndS_pos h.le]; exact flS_nearest h hd

theorem flS_mono {x y : ℚ} (h : x ≤ y) : flS x ≤ flS y := by
  rcases le_or_gt x 0 with hx | hx
  · rw [flS, if_pos hx]; exact flS_nonneg y
  have hy := lt_of_lt_of_le hx h
  by_contra hc
  push Not at hc
  have n1 := flS_nearest hx (flS_rep y)
  have n2 := flS_nearest hy (flS_rep x)
  have k1 : flS x + flS y ≤ 2 * x := by
    rcases abs_cases (x - flS x) with ⟨a1, a2⟩ | ⟨a1, a2⟩ <;> rcases abs_cases (x - flS y) with ⟨b1, b2⟩ | ⟨b1, b2⟩ <;> linarith
  have k2 : 2 * y ≤ flS x + flS y := by
    rcases abs_cases (y - flS x) with ⟨a1, a2⟩ | ⟨a1, a2⟩ <;> rcases abs_cases (y - flS y) with ⟨b1, b2⟩ | ⟨b1, b2⟩ <;> linarith
  have : x = y := by linarith
  rw [this] at hc
  exact absurd hc (lt_irrefl _)

theorem rndS_mono {x y : ℚ} (h : x ≤ y) : rndS x ≤ rndS y := by
  rcases lt_or_ge x 0 with hx | hx
  · rcases lt_or_ge y 0 with hy | hy
    · rw [rndS, rndS, if_pos hx, if_pos hy]
      exact neg_le_neg (flS_mono (by linarith))
    · rw [rndS, if_pos hx, rndS_pos hy]
      have := flS_nonneg (-x)
      have := flS_nonneg y
      linarith
  · rw [rndS_pos hx, rndS_pos (le_trans hx h)]
    exact flS_mono h

/-! ### Comparison with the standard -/

/-- The result of an operation is a double. -/
theorem round_dbl (x : ℚ) : Dbl (round x) := by
  by_cases h1 : lim ≤ rndS x
  · rw [round, if_pos h1]; trivial
  · by_cases h2 : rndS x ≤ -lim
    · rw [round, if_neg h1, if_pos h2]; trivial
    · rw [round, if_neg h1, if_neg h2]
      exact f64_of_rep (rndS_rep x) (abs_lt.2 ⟨not_le.1 h2, not_le.1 h1⟩)

/-- **A finite result is the nearest double.** -/
theorem round_nearest {x y : ℚ} (h : round x = .fin y) : F64 y ∧ ∀ d, F64 d → |x - y| ≤ |x - d| := by
  have hd := round_dbl x
  rw [h] at hd
  refine ⟨hd, fun d hd => ?_⟩
  have : y = rndS x := by
    unfold round at h
    split_ifs at h
    exact (XVal.fin.inj h).symm
  rw [this]
  exact rndS_nearest x hd.rep

/-- Doubles are exact. -/
theorem round_exact {x : ℚ} (h : F64 x) : round x = .fin x := by
  have h1 := abs_lt.1 (lt_of_le_of_lt h.le maxD_lt)
  rw [round, rndS_exact h.rep, if_neg (not_le.2 h1.2), if_neg (not_le.2 h1.1)]

theorem rep_pow {k : ℤ} (h : -1074 ≤ k) : Rep (2 ^ k) := ⟨1, k, by norm_num, h, by norm_num⟩

/-- Halfway between the largest double and the next power of two. -/
def over : ℚ := (2 ^ 53 - 1 / 2) * 2 ^ (971 : ℤ)

theorem lsb_top {x : ℚ} (h1 : 2 ^ (1023 : ℤ) ≤ x) (h2 : x < lim) : lsb x = 971 := by
  have hx : 0 < x := lt_of_lt_of_le (two_pos _) h1
  obtain ⟨l1, l2⟩ := log_bounds hx
  rw [lim] at h2
  have a := zpow_lt_iff.1 (lt_of_le_of_lt l1 h2)
  have b := zpow_lt_iff.1 (lt_of_le_of_lt h1 l2)
  unfold lsb
  omega

/-- **The result is infinite exactly from this number on.** -/
theorem round_pinf {x : ℚ} : round x = .pinf ↔ over ≤ x := by
  have e : lim = 2 ^ 53 * 2 ^ (971 : ℤ) := by
    rw [lim, split 1024 971]; norm_num
  have e' : (2:ℚ) ^ (1023 : ℤ) = 2 ^ 52 * 2 ^ (971 : ℤ) := by
    rw [split 1023 971]; norm_num
  have hq := two_pos 971
  have iff : round x = .pinf ↔ lim ≤ rndS x := by
    unfold round
    split_ifs with h1 h2
    · simp only [true_iff]; exact h1
    · simp only [false_iff]; exact h1
    · simp only [false_iff]; exact h1
  rw [iff]
  have key : ∀ y, 2 ^ (1023 : ℤ) ≤ y → y < lim → rndS y = nearest (y / 2 ^ (971 : ℤ)) * 2 ^ (971 : ℤ) := by
    intro y h1 h2
    have hy : 0 < y := lt_of_lt_of_le (two_pos _) h1
    rw [rndS_pos hy.le, flS, if_neg (not_le.2 hy), lsb_top h1 h2]
  have ho1 : 2 ^ (1023 : ℤ) ≤ over := by
    rw [e', over]
    exact mul_le_mul_of_nonneg_right (by norm_num) hq.le
  have ho2 : over < lim := by
    rw [e, over]
    exact mul_lt_mul_of_pos_right (by norm_num) hq
  constructor
  · intro h
    by_contra hc
    push Not at hc
    rcases lt_or_ge x (2 ^ (1023 : ℤ)) with h1 | h1
    · have := rndS_mono h1.le
      rw [rndS_exact (rep_pow (by norm_num))] at this
      have := le_trans h this
      rw [lim] at this
      exact absurd (zpow_le_iff.1 this) (by norm_num)
    · rw [key x h1 (lt_trans hc ho2), e] at h
      have h3 := le_of_mul_le_mul_right h hq
      have h4 : x / 2 ^ (971 : ℤ) < 2 ^ 53 - 1 / 2 := by rw [div_lt_iff₀ hq]; exact hc
      have h5 : ((2 ^ 53 - 1 : ℤ) : ℚ) + 1 / 2 = 2 ^ 53 - 1 / 2 := by norm_num
      have h6 : (2 ^ 53 : ℤ) ≤ nearest (x / 2 ^ (971 : ℤ)) := by exact_mod_cast h3
      have h7 := nearest_error (x / 2 ^ (971 : ℤ))
      rw [abs_le] at h7
      have h8 : ((2 ^ 53 : ℤ) : ℚ) ≤ (nearest (x / 2 ^ (971 : ℤ)) : ℚ) := by exact_mod_cast h6
      generalize x / 2 ^ (971 : ℤ) = y at *
      have h9 : ((2 ^ 53 : ℤ) : ℚ) = 2 ^ 53 := by norm_num
      rw [h9] at h8
      clear iff key ho1 ho2 hc h1 e e' hq h h3 h5 h6 h9
      linarith [h7.2]
  · intro h
    refine le_trans ?_ (rndS_mono h)
    rw [key over ho1 ho2, e]
    refine mul_le_mul_of_nonneg_right ?_ hq.le
    have h4 : over / 2 ^ (971 : ℤ) = ((2 ^ 53 - 1 : ℤ) : ℚ) + 1 / 2 := by
      rw [over, mul_div_assoc, div_self hq.ne']; norm_num
    have h5 : nearest (((2 ^ 53 - 1 : ℤ) : ℚ) + 1 / 2) = 2 ^ 53 := by
      have hf : ⌊((2 ^ 53 - 1 : ℤ) : ℚ) + 1 / 2⌋ = 2 ^ 53 - 1 := by
        rw [Int.floor_eq_iff]
        constructor <;> linarith
      unfold nearest
      rw [hf]
      have hs : ((2 ^ 53 - 1 : ℤ) : ℚ) + 1 / 2 - ((2 ^ 53 - 1 : ℤ) : ℚ) = 1 / 2 := by ring
      rw [hs, if_neg (lt_irrefl _), if_neg (lt_irrefl _), if_neg (by decide)]
      norm_num
    rw [h4, h5]
    norm_num

theorem round_neg (x : ℚ) : round (-x) = XVal.neg (round x) := by
  have hp := lim_pos
  unfold round
  rw [rndS_neg_eq]
  split_ifs <;> first | rfl | (exfalso; linarith)

theorem round_ninf {x : ℚ} : round x = .ninf ↔ x ≤ -over := by
  have h := round_pinf (x := -x)
  rw [round_neg] at h
  constructor
  · intro k
    rw [k] at h
    have := h.1 rfl
    linarith
  · intro k
    have := h.2 (by linarith)
    cases hr : round x <;> rw [hr] at this <;> simp_all [XVal.neg]

/-- Between these numbers the result is finite. -/
theorem round_fin {x : ℚ} (h : |x| < over) : round x = .fin (rndS x) := by
  rw [abs_lt] at h
  have h1 : round x ≠ .pinf := fun k => absurd (round_pinf.1 k) (not_le.2 h.2)
  have h2 : round x ≠ .ninf := fun k => absurd (round_ninf.1 k) (not_le.2 h.1)
  unfold round at *
  split_ifs at * with c1 c2
  · exact absurd rfl h1
  · exact absurd rfl h2
  · rfl

theorem maxD_lt_over : maxD < over := by
  rw [maxD, over]
  exact mul_lt_mul_of_pos_right (by norm_num) (two_pos _)

theorem round_fin_iff {x : ℚ} : (∃ y, round x = .fin y) ↔ |x| < over := by
  constructor
  · rintro ⟨y, h⟩
    rw [abs_lt]
    constructor
    · by_contra hc
      rw [round_ninf.2 (not_lt.1 hc)] at h
      cases h
    · by_contra hc
      rw [round_pinf.2 (not_lt.1 hc)] at h
      cases h
  · intro h
    exact ⟨_, round_fin h⟩

/-! ### The rounding without a smallest and a largest exponent -/

/-- Apart from subnormal numbers it is the same. -/
theorem rndS_eq {x : ℚ} (h : 2 ^ (-1022 : ℤ) ≤ |x|) : rndS x = rnd x := by
  have key : ∀ y : ℚ, 2 ^ (-1022 : ℤ) ≤ y → flS y = fl y := by
    intro y hy
    have hp : 0 < y := lt_of_lt_of_le (two_pos _) hy
    have hl : -1022 ≤ Int.log 2 y := by
      have := zpow_lt_iff.1 (lt_of_le_of_lt hy (log_bounds hp).2)
      omega
    have : lsb y = Int.log 2 y - 52 := by unfold lsb; omega
    rw [flS, fl, this, ulp]
  unfold rndS rnd
  rcases lt_or_ge x 0 with hx | hx
  · rw [if_pos hx, if_pos hx, key (-x) (by rwa [abs_of_neg hx] at h)]
  · rw [if_neg (not_lt.2 hx), if_neg (not_lt.2 hx), key x (by rwa [abs_of_nonneg hx] at h)]

/-- Sums and differences of doubles are never rounded among the subnormal numbers. -/
theorem rndS_add {a b : ℚ} (ha : Rep a) (hb : Rep b) : rndS (a + b) = rnd (a + b) := by
  rcases le_or_gt (2 ^ (-1022 : ℤ)) |a + b| with h | h
  · exact rndS_eq h
  · have mult : ∀ {x}, Rep x → ∃ n : ℤ, x = n * 2 ^ (-1074 : ℤ) := by
      rintro x ⟨m, k, h1, h2, h3⟩
      refine ⟨m * 2 ^ (k + 1074).toNat, ?_⟩
      push_cast
      rw [h3, ← zpow_natCast, Int.toNat_of_nonneg (by omega), mul_assoc, ← zpow_add₀ (by norm_num)]
      congr 2
      ring
    obtain ⟨n, hn⟩ := mult ha
    obtain ⟨k, hk⟩ := mult hb
    have e : a + b = ((n + k : ℤ) : ℚ) * 2 ^ (-1074 : ℤ) := by rw [hn, hk]; push_cast; ring
    have hs : |n + k| < 2 ^ 52 := by
      rw [e, abs_mul, abs_of_pos (two_pos _), split (-1022) (-1074), mul_lt_mul_iff_of_pos_right (two_pos _)] at h
      have : (2:ℚ) ^ (-1022 - -1074 : ℤ) = ((2 ^ 52 : ℤ) : ℚ) := by norm_num
      rw [this] at h
      exact_mod_cast h
    have h1 : Rep (a + b) := ⟨n + k, -1074, by omega, le_refl _, e⟩
    rw [rndS_exact h1, e, rnd_exact _ _ (by omega)]

/-! ### Cases -/

/-- One third, a number halfway between the two smallest doubles, half the smallest one, the largest double and what lies behind it. -/
example : round (1 / 3) = .fin (6004799503160661 / 2 ^ 54) ∧ round (3 / 2 / 2 ^ 1074) = .fin (2 / 2 ^ 1074) ∧ round (1 / 2 ^ 1075) = .fin 0 ∧
    round maxD = .fin maxD ∧ round (maxD + 2 ^ 969) = .fin maxD ∧ round (maxD + 2 ^ 970) = .pinf ∧ round (-maxD - 2 ^ 970) = .ninf := by decide +kernel

/-- 0.1 + 0.2, the largest double doubled, and a quotient of two subnormal numbers. -/
example : add (round (1 / 10)) (round (2 / 10)) = .fin (5404319552844596 / 2 ^ 54) ∧ add (.fin maxD) (.fin maxD) = .pinf ∧
    div (.fin (3 / 2 ^ 1074)) (.fin (1 / 2 ^ 1074)) = .fin 3 ∧ sub .pinf .pinf = .nan ∧ mul (.fin (1 / 2 ^ 600)) (.fin (1 / 2 ^ 600)) = .fin 0 := by decide +kernel

end Verif.Common.Ieee
