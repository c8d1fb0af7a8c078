import Verif.Logger.Pretty
import Mathlib.Algebra.Order.Field.Power
import Mathlib.Tactic.Linarith
import Mathlib.Tactic.NormNum
import Mathlib.Tactic.Positivity
import Mathlib.Tactic.FieldSimp
import Mathlib.Tactic.SplitIfs
import Mathlib.Tactic.Ring
/-!
Theorems about `pretty`.
-/
namespace Verif.Logger.Pretty

/-- Specification: the unit. -/
def unitValue (p : Parts) : ℚ := if p.positive then 10 ^ p.r else 1 / 10 ^ p.r

/-- Specification: the number which the text stands for, without sign. -/
def value (p : Parts) : ℚ := (p.left + p.right / 1000) * unitValue p

theorem log_bounds (x : ℚ) (h : 1 ≤ x) : (10 : ℚ) ^ (Int.log 10 x).toNat ≤ x ∧ x < 10 ^ ((Int.log 10 x).toNat + 1) := by
  have hx : (0 : ℚ) < x := by linarith
  have h0 : 0 ≤ Int.log 10 x := by
    have := Int.log_mono_right (b := 10) (show (0 : ℚ) < 1 by norm_num) h
    simpa using this
  have a := Int.zpow_log_le_self (b := 10) (r := x) (by norm_num) hx
  have b := Int.lt_zpow_succ_log_self (b := 10) (by norm_num) x
  have e : ((Int.log 10 x).toNat : Int) = Int.log 10 x := Int.toNat_of_nonneg h0
  constructor
  · rw [← zpow_natCast, e]; exact_mod_cast a
  · rw [← zpow_natCast, Nat.cast_add, e]; exact_mod_cast b

theorem clog_bounds (x : ℚ) (h0 : 0 < x) (h : x < 1) :
    1 < x * 10 ^ ((-Int.clog 10 x).toNat + 1) ∧ x * 10 ^ (-Int.clog 10 x).toNat ≤ 1 := by
  have hc : Int.clog 10 x ≤ 0 := by
    have := Int.clog_mono_right (b := 10) h0 h.le
    simpa using this
  have a := Int.zpow_pred_clog_lt_self (b := 10) (r := x) (by norm_num) h0
  have b := Int.self_le_zpow_clog (b := 10) (by norm_num) x
  have e : ((-Int.clog 10 x).toNat : Int) = -Int.clog 10 x := Int.toNat_of_nonneg (by omega)
  have p1 : ((10 : ℕ) : ℚ) = 10 := by norm_num
  rw [p1] at a b
  constructor
  · have : (10 : ℚ) ^ ((-Int.clog 10 x).toNat + 1) = (10 ^ (Int.clog 10 x - 1))⁻¹ := by
      rw [← zpow_natCast, Nat.cast_add, e, ← zpow_neg]; congr 1; push_cast; ring
    rw [this, ← div_eq_mul_inv, lt_div_iff₀ (by positivity), one_mul]
    exact a
  · have : (10 : ℚ) ^ (-Int.clog 10 x).toNat = (10 ^ (Int.clog 10 x))⁻¹ := by
      rw [← zpow_natCast, e, ← zpow_neg]
    rw [this, ← div_eq_mul_inv, div_le_one (by positivity)]
    exact b

/-- The number before the digits are cut off, in the chosen unit. -/
def scaled (neg : Bool) (x : ℚ) : ℚ := x / unitValue (split neg x)

theorem scaled_eq (neg : Bool) (x : ℚ) :
    scaled neg x = (if decide (1 ≤ x) = true then x / 10 ^ (split neg x).r else x * 10 ^ (split neg x).r) := by
  unfold scaled unitValue
  by_cases h : 1 ≤ x
  · simp [split, h]
  · simp [split, h]

theorem scaled_range (neg : Bool) (x : ℚ) (h : 1 / 10 ^ 12 ≤ x) : 1 ≤ scaled neg x ∧ scaled neg x ≤ 1000 ∧ (1 ≤ x → scaled neg x < 1000) := by
  rw [scaled_eq]
  have hx : (0 : ℚ) < x := lt_of_lt_of_le (by norm_num) h
  by_cases h1 : 1 ≤ x
  · obtain ⟨a, b⟩ := log_bounds x h1
    have hr : (split neg x).r = (Int.log 10 x).toNat / 3 * 3 := by simp [split, h1]
    simp only [h1, decide_true, if_true, true_implies]
    rw [hr]
    generalize (Int.log 10 x).toNat = n at *
    have c1 : (10 : ℚ) ^ (n / 3 * 3) ≤ 10 ^ n := pow_le_pow_right₀ (by norm_num) (by omega)
    have c2 : (10 : ℚ) ^ (n + 1) ≤ 10 ^ (n / 3 * 3 + 3) := pow_le_pow_right₀ (by norm_num) (by omega)
    have c3 : (10 : ℚ) ^ (n / 3 * 3 + 3) = 1000 * 10 ^ (n / 3 * 3) := by rw [pow_add]; ring
    have hp : (0 : ℚ) < 10 ^ (n / 3 * 3) := by positivity
    have lt : x / 10 ^ (n / 3 * 3) < 1000 := by rw [div_lt_iff₀ hp]; linarith
    refine ⟨?_, lt.le, lt⟩
    rw [le_div_iff₀ hp]; linarith
  · push_neg at h1
    obtain ⟨a, b⟩ := clog_bounds x hx h1
    have hr : (split neg x).r = (-Int.clog 10 x).toNat / 3 * 3 + 3 := by simp [split, not_le.2 h1]
    simp only [not_le.2 h1, decide_false, Bool.false_eq_true, if_false, false_implies, and_true]
    rw [hr]
    generalize (-Int.clog 10 x).toNat = n at *
    have c1 : (10 : ℚ) ^ (n + 1) ≤ 10 ^ (n / 3 * 3 + 3) := pow_le_pow_right₀ (by norm_num) (by omega)
    have c2 : (10 : ℚ) ^ (n / 3 * 3 + 3) ≤ 10 ^ (n + 3) := pow_le_pow_right₀ (by norm_num) (by omega)
    have c3 : (10 : ℚ) ^ (n + 3) = 1000 * 10 ^ n := by rw [pow_add]; ring
    constructor
    · have := mul_le_mul_of_nonneg_left c1 hx.le; linarith
    · have := mul_le_mul_of_nonneg_left c2 hx.le
      rw [c3] at this
      nlinarith

theorem unitValue_pos (p : Parts) : 0 < unitValue p := by unfold unitValue; split_ifs <;> positivity

theorem split_left (neg : Bool) (x : ℚ) : (split neg x).left = ⌊scaled neg x⌋₊ ∧
    (split neg x).right = ⌊(scaled neg x - ⌊scaled neg x⌋₊) * 1000⌋₊ := by
  rw [scaled_eq]; exact ⟨rfl, rfl⟩

/-- The number which is written is not above the absolute value and less than one unit of the last digit below it; the digits behind the point are three,
there are one to four digits before the point and the first is not zero. -/
theorem value_right (neg : Bool) (x : ℚ) (h : 1 / 10 ^ 12 ≤ x) :
    let p := split neg x
    value p ≤ x ∧ x - value p < unitValue p / 1000 ∧ p.right < 1000 ∧ 1 ≤ p.left ∧ p.left ≤ 1000 := by
  intro p
  obtain ⟨h1, h2, -⟩ := scaled_range neg x h
  obtain ⟨hl, hr⟩ := split_left neg x
  have hu := unitValue_pos p
  have hx : x = scaled neg x * unitValue p := by unfold scaled; rw [div_mul_cancel₀ _ hu.ne']
  set y := scaled neg x with hy
  have hy0 : 0 ≤ y := by linarith
  have f1 : (⌊y⌋₊ : ℚ) ≤ y := Nat.floor_le hy0
  have f2 : y < ⌊y⌋₊ + 1 := Nat.lt_floor_add_one y
  have hz0 : 0 ≤ (y - ⌊y⌋₊) * 1000 := by linarith
  have g1 : (⌊(y - ⌊y⌋₊) * 1000⌋₊ : ℚ) ≤ (y - ⌊y⌋₊) * 1000 := Nat.floor_le hz0
  have g2 : (y - ⌊y⌋₊) * 1000 < ⌊(y - ⌊y⌋₊) * 1000⌋₊ + 1 := Nat.lt_floor_add_one _
  have hv : value p = (⌊y⌋₊ + ⌊(y - ⌊y⌋₊) * 1000⌋₊ / 1000) * unitValue p := by
    unfold value; rw [show p.left = _ from hl, show p.right = _ from hr]
  refine ⟨?_, ?_, ?_, ?_, ?_⟩
  · rw [hv]; conv_rhs => rw [hx]
    apply mul_le_mul_of_nonneg_right _ hu.le
    linarith
  · rw [hv]
    have : x - (⌊y⌋₊ + ⌊(y - ⌊y⌋₊) * 1000⌋₊ / 1000) * unitValue p = (y - (⌊y⌋₊ + ⌊(y - ⌊y⌋₊) * 1000⌋₊ / 1000)) * unitValue p := by
      conv_lhs => rw [hx]
      ring
    rw [this, show unitValue p / 1000 = 1 / 1000 * unitValue p by ring]
    apply mul_lt_mul_of_pos_right _ hu
    linarith
  · rw [show p.right = _ from hr]
    rw [Nat.floor_lt hz0]
    push_cast; linarith
  · rw [show p.left = _ from hl]; exact Nat.le_floor (by exact_mod_cast h1)
  · rw [show p.left = _ from hl]; exact Nat.floor_le_of_le (by exact_mod_cast h2)

/-- 0.0123456 is written as 12.345 m. -/
example : value ⟨false, 12, 345, false, 3⟩ ≤ 123456 / 10000000 ∧ (1 : ℚ) / 10 ^ 12 ≤ 123456 / 10000000 := by
  norm_num [value, unitValue]

/-- The sign is that of the number. -/
theorem sign_right (neg : Bool) (x : ℚ) : (split neg x).neg = neg := rfl

/-- Specification: the prefixes. -/
theorem unit_right : unit true 0 = [' '] ∧ unit true 3 = ['k'] ∧ unit true 6 = ['M'] ∧ unit true 9 = ['G'] ∧ unit true 12 = ['T'] ∧
    unit false 3 = ['m'] ∧ unit false 6 = ['u'] ∧ unit false 9 = ['n'] ∧ unit false 12 = ['p'] := by decide

theorem digits_length : ∀ n : Fin 1000, (Nat.toDigits 10 n.val).length = if n.val < 10 then 1 else if n.val < 100 then 2 else 3 := by decide +kernel

theorem text_length (p : Parts) (hl : p.left < 1000) (hr : p.right < 1000) : (text p).length = 8 + (unit p.positive p.r).length := by
  have a := digits_length ⟨p.left, hl⟩
  have b := digits_length ⟨p.right, hr⟩
  simp only [] at a b
  simp only [text, List.length_append, a, b]
  split_ifs <;> simp <;> omega

theorem multiple_of_three (neg : Bool) (x : ℚ) : (split neg x).r % 3 = 0 := by
  simp only [split]; split_ifs <;> omega

theorem unit_length (positive : Bool) (r : Nat) (h3 : r % 3 = 0) (hr : r ≤ 12) : (unit positive r).length = 1 := by
  have : r = 0 ∨ r = 3 ∨ r = 6 ∨ r = 9 ∨ r = 12 := by omega
  rcases this with rfl | rfl | rfl | rfl | rfl <;> cases positive <;> rfl

theorem r_le (neg : Bool) (x : ℚ) (h1 : 1 / 10 ^ 12 ≤ x) (h2 : x < 10 ^ 15) : (split neg x).r ≤ 12 ∨ x = 1 / 10 ^ 12 := by
  obtain ⟨a, b, -⟩ := scaled_range neg x h1
  rw [scaled_eq] at a b
  have h3 := multiple_of_three neg x
  by_cases hx : 1 ≤ x
  · left
    simp only [hx, decide_true, if_true] at a
    by_contra hc
    have : (10 : ℚ) ^ 15 ≤ 10 ^ (split neg x).r := pow_le_pow_right₀ (by norm_num) (by omega)
    rw [le_div_iff₀ (by positivity)] at a
    linarith
  · simp only [hx, decide_false, Bool.false_eq_true, if_false] at b
    by_cases hr : (split neg x).r ≤ 12
    · exact Or.inl hr
    · right
      have : (10 : ℚ) ^ 15 ≤ 10 ^ (split neg x).r := pow_le_pow_right₀ (by norm_num) (by omega)
      have hx0 : (0 : ℚ) < x := lt_of_lt_of_le (by norm_num) h1
      have := mul_le_mul_of_nonneg_left this hx0.le
      have h : x * 10 ^ 15 ≤ 1000 := le_trans this b
      apply le_antisymm _ h1
      rw [le_div_iff₀ (by norm_num)]
      have e : x * 10 ^ 15 = x * 10 ^ 12 * 1000 := by ring
      linarith

theorem left_lt_iff (neg : Bool) (x : ℚ) (h : 1 / 10 ^ 12 ≤ x) : (split neg x).left < 1000 ↔ ¬ (x < 1 ∧ x * 10 ^ (split neg x).r = 1000) := by
  obtain ⟨a, b, c⟩ := scaled_range neg x h
  rw [(split_left neg x).1, Nat.floor_lt (by linarith)]
  by_cases hx : 1 ≤ x
  · have := c hx
    simp [not_lt.2 hx]; exact_mod_cast this
  · push_neg at hx
    rw [scaled_eq] at b ⊢
    simp only [not_le.2 hx, decide_false, Bool.false_eq_true, if_false] at b ⊢
    simp only [hx, true_and]
    push_cast
    exact ⟨fun h e => absurd e h.ne, fun h => lt_of_le_of_ne b h⟩

/-- The text has nine characters for zero and for every number from 1e-12 to 1e15 (without the upper end) which is not a negative power of 1000. -/
theorem width_partial (x : ℚ) (h2 : |x| < 10 ^ 15) (hp : ∀ k : Nat, 0 < k → |x| * 1000 ^ k ≠ 1) : ∃ t, pretty (.fin x) = some t ∧ t.length = 9 := by
  refine ⟨_, rfl, ?_⟩
  have e : (if decide (x < 0) = true then -x else x) = |x| := by
    by_cases h : x < 0
    · simp [h, abs_of_neg h]
    · simp [h, abs_of_nonneg (not_lt.1 h)]
  simp only [e]
  split_ifs with h
  · rfl
  · push_neg at h
    have h12 : |x| ≠ 1 / 10 ^ 12 := by
      intro e; apply hp 4 (by norm_num); rw [e]; norm_num
    have hl : (split (decide (x < 0)) |x|).left < 1000 := by
      rw [left_lt_iff _ _ h]
      rintro ⟨hx1, hx⟩
      have h3 := multiple_of_three (decide (x < 0)) |x|
      set r := (split (decide (x < 0)) |x|).r
      have hr3 : 3 < r := by
        by_contra hc
        have : (10 : ℚ) ^ r ≤ 10 ^ 3 := pow_le_pow_right₀ (by norm_num) (by omega)
        have h0 : (0 : ℚ) < 10 ^ r := by positivity
        nlinarith
      obtain ⟨k, hk⟩ : ∃ k, r = 3 * (k + 1) := ⟨r / 3 - 1, by omega⟩
      apply hp k (by omega)
      rw [hk, pow_mul, pow_succ] at hx
      have : (10 : ℚ) ^ 3 = 1000 := by norm_num
      rw [this] at hx
      linarith
    rw [text_length _ hl (value_right _ _ h).2.2.1, unit_length _ _ (multiple_of_three _ _)]
    rcases r_le (decide (x < 0)) |x| h h2 with h | h
    · exact h
    · exact absurd h h12

example : |(-25 : ℚ) / 2| < 10 ^ 15 ∧ ∀ k : Nat, 0 < k → |(-25 : ℚ) / 2| * 1000 ^ k ≠ 1 := by
  have e : |(-25 : ℚ) / 2| = 25 / 2 := by norm_num [abs_div]
  rw [e]
  refine ⟨by norm_num, fun k _ h => ?_⟩
  have : (1 : ℚ) ≤ 1000 ^ k := one_le_pow₀ (by norm_num)
  linarith

/-- Violation: every negative power of 1000 is written as 1000 of the next smaller unit: 1e-3 as "1000.000u", which is longer. -/
theorem power_violated (neg : Bool) (k : Nat) (hk : 0 < k) : (split neg (1 / 1000 ^ k)).left = 1000 ∧ (split neg (1 / 1000 ^ k)).r = 3 * k + 3 := by
  have hlt : ((1 : ℚ) / 1000 ^ k) < 1 := by
    rw [div_lt_one (by positivity)]; exact one_lt_pow₀ (by norm_num) hk.ne'
  have hc : Int.clog 10 ((1 : ℚ) / 1000 ^ k) = -(3 * k : Nat) := by
    have : ((1 : ℚ) / 1000 ^ k) = ((10 : ℕ) : ℚ) ^ (-(3 * k : Nat) : Int) := by
      rw [zpow_neg, zpow_natCast, pow_mul]; norm_num
    rw [this, Int.clog_zpow (by norm_num)]
  have hr : (split neg ((1 : ℚ) / 1000 ^ k)).r = 3 * k + 3 := by
    simp only [split, not_le.2 hlt, decide_false, Bool.false_eq_true, if_false, hc, neg_neg, Int.toNat_natCast]
    omega
  refine ⟨?_, hr⟩
  rw [(split_left _ _).1, scaled_eq, hr]
  simp only [not_le.2 hlt, decide_false, Bool.false_eq_true, if_false]
  have : (1 : ℚ) / 1000 ^ k * 10 ^ (3 * k + 3) = ((1000 : ℕ) : ℚ) := by
    rw [pow_add, pow_mul]; norm_num
  rw [this, Nat.floor_natCast]

/-- Violation: the conversion of infinity and NaN is undefined. -/
theorem not_finite_violated (v : XVal ℚ) (h : v.isFinite = false) : pretty v = none := by
  cases v <;> simp_all [pretty, XVal.isFinite]

example : (XVal.nan : XVal ℚ).isFinite = false := rfl

end Verif.Logger.Pretty
