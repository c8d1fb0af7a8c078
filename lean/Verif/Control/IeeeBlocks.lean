import Verif.Common.Ieee
/-!
Blocks on doubles as IEEE 754 defines them (`Verif.Common.Ieee`): rounding, subnormal numbers, overflow, infinities and NaN together.  Can a finite input produce
an output which is not finite?  The blocks are those of `Verif/Control/Special.lean`, with rounded operations.
-/
namespace Verif.Control.IeeeBlocks
open Verif.Common Verif.Common.Round Verif.Common.Ieee

/-- `I::run` (I.hpp:65-71), enabled: the new output. -/
def integrate (lower upper dt prev x : XVal ℚ) : XVal ℚ :=
  let val := add prev (mul x dt)
  if XVal.lt val upper && XVal.lt lower val then val else prev

/-- The output after runs with these inputs and time differences. -/
def integrates (lower upper prev : XVal ℚ) (ins : List (XVal ℚ × XVal ℚ)) : XVal ℚ :=
  ins.foldl (fun q i => integrate lower upper i.2 q i.1) prev

/-- `LowPassFilter::run` (LowPassFilter.hpp:58-72) behind the first run. -/
def lowPass (alpha prev x : XVal ℚ) : XVal ℚ := add (mul x alpha) (mul prev (sub (.fin 1) alpha))

/-- All outputs, the first run (62-65) takes its input for the previous output. -/
def lowPasses (alpha : XVal ℚ) : List (XVal ℚ) → XVal ℚ
  | [] => .fin 0
  | x :: xs => xs.foldl (lowPass alpha) (lowPass alpha x x)

/-- `RateLimiter::calculateResult` (RateLimiter.hpp:142-150). -/
def rateLimit (falling rising dt prev x : XVal ℚ) : XVal ℚ :=
  let rate := div (sub x prev) dt
  if XVal.lt rising rate then add (mul dt rising) prev
  else if XVal.lt rate falling then add (mul dt falling) prev
  else x

/-- The output after runs with these inputs and time differences. -/
def rateLimits (falling rising prev : XVal ℚ) (ins : List (XVal ℚ × XVal ℚ)) : XVal ℚ :=
  ins.foldl (fun q i => rateLimit falling rising i.2 q i.1) prev

/-! ### Specification -/

/-- A finite double. -/
def Finite (v : XVal ℚ) : Prop := ∃ q, v = .fin q ∧ F64 q

/-- A finite double of at most this size. -/
def Within (b : ℚ) (v : XVal ℚ) : Prop := ∃ q, v = .fin q ∧ F64 q ∧ |q| ≤ b

/-! ### Operations -/

theorem add_dbl (a b : XVal ℚ) : Dbl (add a b) := by
  unfold add
  cases h : XVal.add a b with
  | fin q => exact round_dbl q
  | _ => trivial

theorem add_fin (a b : ℚ) : add (.fin a) (.fin b) = Ieee.round (a + b) := rfl
theorem mul_fin (a b : ℚ) : mul (.fin a) (.fin b) = Ieee.round (a * b) := rfl
theorem sub_fin (a b : ℚ) : sub (.fin a) (.fin b) = Ieee.round (a - b) := by simp [sub, fix]
theorem div_fin {a b : ℚ} (h : b ≠ 0) : div (.fin a) (.fin b) = Ieee.round (a / b) := by simp [div, XVal.div, h, fix]

/-- A result no larger than a double is rounded to one no larger. -/
theorem rndS_le {x d : ℚ} (hd : Rep d) (h : x ≤ d) : rndS x ≤ d := by
  have := rndS_mono h
  rwa [rndS_exact hd] at this

theorem le_rndS {x d : ℚ} (hd : Rep d) (h : d ≤ x) : d ≤ rndS x := by
  have := rndS_mono h
  rwa [rndS_exact hd] at this

theorem rndS_abs_le {x d : ℚ} (hd : Rep d) (h : |x| ≤ d) : |rndS x| ≤ d := by
  rw [abs_le] at *
  exact ⟨le_rndS hd.neg h.1, rndS_le hd h.2⟩

theorem rndS_nonneg {x : ℚ} (h : 0 ≤ x) : 0 ≤ rndS x := le_rndS rep_zero h

theorem round_within {x d : ℚ} (hd : F64 d) (h : |x| ≤ d) : Ieee.round x = .fin (rndS x) ∧ F64 (rndS x) ∧ |rndS x| ≤ d := by
  have h1 : |x| < over := lt_of_le_of_lt (le_trans h (le_trans (le_abs_self d) hd.le)) maxD_lt_over
  have h2 := round_fin h1
  refine ⟨h2, ?_, rndS_abs_le hd.rep h⟩
  have := round_dbl x
  rw [h2] at this
  exact this

theorem round_val {x y : ℚ} (h : Ieee.round x = .fin y) : y = rndS x := by
  have h3 := round_fin (round_fin_iff.1 ⟨y, h⟩)
  rw [h] at h3
  exact XVal.fin.inj h3

/-! ### The integrator -/

/-- One run. -/
theorem integrate_step (l u p : ℚ) (hp : F64 p) (dt x : XVal ℚ) :
    ∃ q, integrate (.fin l) (.fin u) dt (.fin p) x = .fin q ∧ F64 q ∧ (q = p ∨ l < q ∧ q < u) := by
  have hd := add_dbl (.fin p) (mul x dt)
  unfold integrate
  cases hv : add (.fin p) (mul x dt) with
  | fin q =>
    rw [hv] at hd
    simp only
    split
    · rename_i hc
      simp only [XVal.lt_fin, Bool.and_eq_true, decide_eq_true_eq] at hc
      exact ⟨q, rfl, hd, Or.inr ⟨hc.2, hc.1⟩⟩
    · exact ⟨p, rfl, hp, Or.inl rfl⟩
  | pinf => exact ⟨p, by simp [XVal.lt], hp, Or.inl rfl⟩
  | ninf => exact ⟨p, by simp [XVal.lt], hp, Or.inl rfl⟩
  | nan => exact ⟨p, by simp, hp, Or.inl rfl⟩

/-- **The output of the integrator is always a finite double between its limits**, whatever the inputs (NaN, infinite, huge, of alternating sign) and the time
differences, however many runs: it is the initial value or strictly between the limits. -/
theorem integrator_within (l u p : ℚ) (hp : F64 p) (ins : List (XVal ℚ × XVal ℚ)) :
    ∃ q, integrates (.fin l) (.fin u) (.fin p) ins = .fin q ∧ F64 q ∧ (q = p ∨ l < q ∧ q < u) := by
  induction ins generalizing p with
  | nil => exact ⟨p, rfl, hp, Or.inl rfl⟩
  | cons i ins ih =>
    obtain ⟨q, h1, h2, h3⟩ := integrate_step l u p hp i.2 i.1
    obtain ⟨r, h4, h5, h6⟩ := ih q h2
    refine ⟨r, ?_, h5, ?_⟩
    · simp only [integrates, List.foldl_cons, h1]
      exact h4
    · rcases h6 with rfl | h6
      · exact h3
      · exact Or.inr h6

/-! ### The low pass filter -/

theorem top_rep {n : ℤ} (h0 : 0 ≤ n) (h1 : n ≤ 2 ^ 53) : Rep (n * 2 ^ (971 : ℤ)) := rep_of_le (by rwa [abs_of_nonneg h0]) (by norm_num)

/-- Rounding up is by less than one part of `2^53`, from the smallest normal number on. -/
theorem rndS_lt {w z : ℚ} (h0 : 0 ≤ w) (hz : 2 ^ (-1022 : ℤ) < z) (h : w ≤ z * (1 - 1 / 2 ^ 53)) : rndS w < z := by
  rcases le_or_gt (2 ^ (-1022 : ℤ)) w with hw | hw
  · have hz0 : 0 < z := lt_trans (two_pos _) hz
    rw [rndS_eq (by rwa [abs_of_nonneg h0])]
    have h1 := rnd_rel w
    rw [abs_of_nonneg h0, abs_le] at h1
    have h2 : rnd w ≤ w * (1 + 1 / 2 ^ 53) := by linarith [h1.2]
    have h3 : w * (1 + 1 / 2 ^ 53) ≤ z * (1 - 1 / 2 ^ 53) * (1 + 1 / 2 ^ 53) := mul_le_mul_of_nonneg_right h (by norm_num)
    have h4 : z * (1 - 1 / 2 ^ 53) * (1 + 1 / 2 ^ 53) = z - z / 2 ^ 106 := by ring
    have h5 : 0 < z / 2 ^ 106 := by positivity
    linarith
  · exact lt_of_le_of_lt (rndS_le (rep_pow (by norm_num)) hw.le) hz

/-- A weight of more than a half: the product with the largest double is rounded down. -/
theorem top_product {j : ℤ} (h1 : 2 ^ 52 < j) (h2 : j ≤ 2 ^ 53) : rndS (j / 2 ^ 53 * maxD) ≤ (j - 1) * 2 ^ (971 : ℤ) := by
  have hq := two_pos 971
  have hj0 : (0:ℚ) < j := by
    have : (0:ℤ) < j := by omega
    exact_mod_cast this
  have hlt : rndS (j / 2 ^ 53 * maxD) < j * 2 ^ (971 : ℤ) := by
    apply rndS_lt
    · have : (0:ℚ) ≤ maxD := le_trans (abs_nonneg _) f64_maxD.le
      positivity
    · have : (1:ℚ) ≤ j := by
        have : (1:ℤ) ≤ j := by omega
        exact_mod_cast this
      have h3 : (2:ℚ) ^ (-1022 : ℤ) < 2 ^ (971 : ℤ) := zpow_lt_iff.2 (by norm_num)
      have h4 : (1:ℚ) * 2 ^ (971 : ℤ) ≤ j * 2 ^ (971 : ℤ) := mul_le_mul_of_nonneg_right this hq.le
      rw [one_mul] at h4
      exact lt_of_lt_of_le h3 h4
    · apply le_of_eq
      rw [maxD]
      ring
  rcases le_or_gt (2 ^ (1023 : ℤ)) (rndS (j / 2 ^ 53 * maxD)) with hb | hb
  · have hl : Int.log 2 ((2:ℚ) ^ (1023 : ℤ)) = 1023 := by exact_mod_cast Int.log_zpow (R := ℚ) (b := 2) (by norm_num) 1023
    have hs : lsb (2 ^ (1023 : ℤ)) = 971 := by
      unfold lsb
      rw [hl]
      norm_num
    obtain ⟨n, hn⟩ := rep_multiple (x := 2 ^ (1023 : ℤ)) (rndS_rep (j / 2 ^ 53 * maxD)) (Or.inr (by rw [hl]; exact hb))
    rw [hs] at hn
    rw [hn] at hlt ⊢
    have h3 : n < j := by
      have := (mul_lt_mul_iff_of_pos_right hq).1 hlt
      exact_mod_cast this
    have h4 : (n:ℚ) ≤ j - 1 := by
      have : n ≤ j - 1 := by omega
      exact_mod_cast this
    exact mul_le_mul_of_nonneg_right h4 hq.le
  · refine le_trans hb.le ?_
    rw [split 1023 971]
    refine mul_le_mul_of_nonneg_right ?_ hq.le
    have h3 : (2 ^ 52 : ℤ) ≤ j - 1 := by omega
    have h4 : ((2 ^ 52 : ℤ) : ℚ) ≤ j - 1 := by exact_mod_cast h3
    refine le_trans (le_of_eq ?_) h4
    norm_num

theorem lsb_half : lsb (1 / 2) = -53 := by
  have hl : Int.log 2 ((2:ℚ) ^ (-1 : ℤ)) = -1 := by exact_mod_cast Int.log_zpow (R := ℚ) (b := 2) (by norm_num) (-1)
  have e : (1 / 2 : ℚ) = 2 ^ (-1 : ℤ) := by norm_num
  unfold lsb
  rw [e, hl]
  norm_num

/-- A double of at least a half is a multiple of `2^-53`. -/
theorem digits_half {b : ℚ} (hb : Rep b) (h : 1 / 2 ≤ b) : ∃ j : ℤ, b = j / 2 ^ 53 := by
  have hl : Int.log 2 ((2:ℚ) ^ (-1 : ℤ)) = -1 := by exact_mod_cast Int.log_zpow (R := ℚ) (b := 2) (by norm_num) (-1)
  have e : (1 / 2 : ℚ) = 2 ^ (-1 : ℤ) := by norm_num
  obtain ⟨j, hj⟩ := rep_multiple (x := 1 / 2) hb (Or.inr (by rw [e, hl, ← e]; exact h))
  refine ⟨j, ?_⟩
  rw [hj, lsb_half, div_eq_mul_inv]
  congr 1

/-- The weight `1 - alpha` as computed. -/
theorem weight_error {a : ℚ} (h0 : 0 ≤ a) (h1 : a ≤ 1 / 2) : |1 - a - rndS (1 - a)| ≤ 1 / 2 ^ 54 := by
  rcases eq_or_lt_of_le h0 with h | h
  · rw [← h]
    have : rndS (1 - 0) = 1 := by
      rw [sub_zero]
      exact rndS_exact ⟨1, 0, by norm_num, by norm_num, by norm_num⟩
    rw [this]
    norm_num
  · -- one of the two multiples of 2^-53 around it is near enough
    have hx : (0:ℚ) < 1 - a := by linarith
    set n := nearest ((1 - a) * 2 ^ 53) with hn
    have he := nearest_error ((1 - a) * 2 ^ 53)
    rw [← hn] at he
    have hr : Rep (n * 2 ^ (-53 : ℤ)) := by
      apply rep_of_le _ (by norm_num)
      have h3 : n ≤ 2 ^ 53 := by
        have := nearest_mono (x := (1 - a) * 2 ^ 53) (y := ((2 ^ 53 : ℤ) : ℚ)) (by push_cast; linarith)
        rwa [nearest_int] at this
      rw [abs_of_nonneg (nearest_nonneg (by positivity))]
      exact h3
    refine le_trans (rndS_nearest (1 - a) hr) ?_
    have e : 1 - a - n * 2 ^ (-53 : ℤ) = ((1 - a) * 2 ^ 53 - n) / 2 ^ 53 := by
      rw [zpow_neg]
      norm_num
      ring
    rw [e, abs_div, abs_sub_comm, abs_of_pos (a := (2:ℚ) ^ 53) (by norm_num)]
    rw [div_le_div_iff₀ (by norm_num) (by norm_num)]
    have h5 := mul_le_mul_of_nonneg_right he (show (0:ℚ) ≤ 2 ^ 54 by norm_num)
    refine le_trans h5 (le_of_eq ?_)
    norm_num

theorem half_max : F64 (1 / 2 * maxD) := ⟨2 ^ 53 - 1, 970, by norm_num, by norm_num, by norm_num, by
  rw [maxD, show (971 : ℤ) = 970 + 1 by norm_num, zpow_add₀ (by norm_num)]
  push_cast
  ring⟩

/-- The weighted sum of two doubles is below the first number which is rounded to infinity. -/
theorem weighted {a : ℚ} (ha : F64 a) (h0 : 0 ≤ a) (h1 : a ≤ 1) : rndS (a * maxD) + rndS (rndS (1 - a) * maxD) < over := by
  have hq := two_pos 971
  have hm : 0 ≤ maxD := le_trans (abs_nonneg _) f64_maxD.le
  have hov : maxD < over := maxD_lt_over
  have hone : ((2 ^ 53 : ℤ) : ℚ) = 2 ^ 53 := by norm_num
  rcases lt_or_ge (1 / 2) a with hh | hh
  · -- the weight is more than a half: the other one is exact
    obtain ⟨j, hj⟩ := digits_half ha.rep hh.le
    have hj1 : 2 ^ 52 < j := by
      have : ((2 ^ 52 : ℤ) : ℚ) < j := by
        rw [hj, lt_div_iff₀ (by norm_num)] at hh
        refine lt_of_le_of_lt (le_of_eq ?_) hh
        norm_num
      exact_mod_cast this
    have hj2 : j ≤ 2 ^ 53 := by
      have : (j:ℚ) ≤ ((2 ^ 53 : ℤ) : ℚ) := by
        rw [hj, div_le_iff₀ (by norm_num)] at h1
        rw [hone]
        linarith
      exact_mod_cast this
    have hb : rndS (1 - a) = 1 - a := by
      apply rndS_exact
      have e : 1 - a = ((2 ^ 53 - j : ℤ) : ℚ) * 2 ^ (-53 : ℤ) := by
        rw [hj, zpow_neg]
        push_cast
        norm_num
        ring
      rw [e]
      exact rep_of_le (by rw [abs_le]; constructor <;> omega) (by norm_num)
    rw [hb]
    have k1 := top_product hj1 hj2
    rw [← hj] at k1
    have k2 : rndS ((1 - a) * maxD) ≤ ((2 ^ 53 - j : ℤ) : ℚ) * 2 ^ (971 : ℤ) := by
      apply rndS_le (top_rep (by omega) (by omega))
      have e : ((2 ^ 53 - j : ℤ) : ℚ) = (1 - a) * 2 ^ 53 := by
        rw [hj]
        push_cast
        ring
      rw [e, maxD, mul_assoc]
      refine mul_le_mul_of_nonneg_left ?_ (by linarith)
      exact mul_le_mul_of_nonneg_right (by norm_num) hq.le
    have e : (j - 1) * 2 ^ (971 : ℤ) + ((2 ^ 53 - j : ℤ) : ℚ) * 2 ^ (971 : ℤ) = maxD := by
      rw [maxD]
      push_cast
      ring
    linarith
  · have he := weight_error h0 hh
    have hbr := rndS_rep (1 - a)
    have hb1 : 1 / 2 ≤ rndS (1 - a) := le_rndS ⟨1, -1, by norm_num, by norm_num, by norm_num⟩ (by linarith)
    have hb2 : rndS (1 - a) ≤ 1 := rndS_le ⟨1, 0, by norm_num, by norm_num, by norm_num⟩ (by linarith)
    set b := rndS (1 - a) with hb
    rcases eq_or_lt_of_le hb1 with hb3 | hb3
    · -- both are about a half
      rw [← hb3, rndS_exact half_max.rep]
      have : rndS (a * maxD) ≤ 1 / 2 * maxD := rndS_le half_max.rep (mul_le_mul_of_nonneg_right hh hm)
      linarith
    · obtain ⟨j, hj⟩ := digits_half hbr hb1
      have hj1 : 2 ^ 52 < j := by
        have : ((2 ^ 52 : ℤ) : ℚ) < j := by
          rw [hj, lt_div_iff₀ (by norm_num)] at hb3
          refine lt_of_le_of_lt (le_of_eq ?_) hb3
          norm_num
        exact_mod_cast this
      have hj2 : j ≤ 2 ^ 53 := by
        have : (j:ℚ) ≤ ((2 ^ 53 : ℤ) : ℚ) := by
          rw [hj, div_le_iff₀ (by norm_num)] at hb2
          rw [hone]
          linarith
        exact_mod_cast this
      have k1 := top_product hj1 hj2
      rw [← hj] at k1
      have hT : (0:ℚ) ≤ 2 ^ 53 - j := by
        have : (j:ℚ) ≤ ((2 ^ 53 : ℤ) : ℚ) := by exact_mod_cast hj2
        rw [hone] at this
        linarith
      have k2 : rndS (a * maxD) < (2 ^ 53 - j + 1 / 2) * 2 ^ (971 : ℤ) := by
        apply rndS_lt (mul_nonneg h0 hm)
        · have h3 : (2:ℚ) ^ (-1022 : ℤ) < 2 ^ (970 : ℤ) := zpow_lt_iff.2 (by norm_num)
          have h4 : (2:ℚ) ^ (970 : ℤ) = 1 / 2 * 2 ^ (971 : ℤ) := by
            rw [split 970 971]
            norm_num
          refine lt_of_lt_of_le h3 ?_
          rw [h4]
          exact mul_le_mul_of_nonneg_right (by linarith) hq.le
        · have h3 : a ≤ (2 ^ 53 - j + 1 / 2) / 2 ^ 53 := by
            rw [abs_le] at he
            have h5 : a ≤ 1 - b + 1 / 2 ^ 54 := by linarith [he.1]
            refine le_trans h5 (le_of_eq ?_)
            rw [hj]
            ring
          have h4 : a * maxD ≤ (2 ^ 53 - j + 1 / 2) / 2 ^ 53 * maxD := mul_le_mul_of_nonneg_right h3 hm
          refine le_trans h4 (le_of_eq ?_)
          rw [maxD]
          ring
      have e : (2 ^ 53 - j + 1 / 2) * 2 ^ (971 : ℤ) + (j - 1) * 2 ^ (971 : ℤ) = over := by
        rw [over]
        ring
      linarith

/-- One run. -/
theorem lowPass_step {a p x : ℚ} (ha : F64 a) (h0 : 0 ≤ a) (h1 : a ≤ 1) (hp : F64 p) (hx : F64 x) :
    Finite (lowPass (.fin a) (.fin p) (.fin x)) := by
  have hm : 0 ≤ maxD := le_trans (abs_nonneg _) f64_maxD.le
  have hb0 : 0 ≤ rndS (1 - a) := rndS_nonneg (by linarith)
  have hone : F64 1 := ⟨1, 0, by norm_num, by norm_num, by norm_num, by norm_num⟩
  have hb1 : rndS (1 - a) ≤ 1 := rndS_le hone.rep (by linarith)
  have e1 : sub (.fin 1) (.fin a) = .fin (rndS (1 - a)) := by
    rw [sub_fin]
    exact (round_within hone (by rw [abs_of_nonneg (by linarith)]; linarith)).1
  have key : ∀ {c v : ℚ}, 0 ≤ c → c ≤ 1 → F64 v → Ieee.round (v * c) = .fin (rndS (v * c)) ∧ |rndS (v * c)| ≤ rndS (c * maxD) := by
    intro c v hc0 hc1 hv
    have h2 : |v * c| ≤ c * maxD := by
      rw [abs_mul, abs_of_nonneg hc0, mul_comm]
      exact mul_le_mul_of_nonneg_left hv.le hc0
    have h3 : c * maxD ≤ maxD := by
      have := mul_le_mul_of_nonneg_right hc1 hm
      linarith
    refine ⟨(round_within f64_maxD (le_trans h2 h3)).1, ?_⟩
    rw [abs_le] at h2 ⊢
    constructor
    · rw [← rndS_neg_eq]
      exact rndS_mono h2.1
    · exact rndS_mono h2.2
  obtain ⟨k1, k2⟩ := key h0 h1 hx
  obtain ⟨k3, k4⟩ := key hb0 hb1 hp
  have hw := weighted ha h0 h1
  have hs : |rndS (x * a) + rndS (p * rndS (1 - a))| < over :=
    lt_of_le_of_lt (abs_add_le _ _) (lt_of_le_of_lt (add_le_add k2 k4) hw)
  unfold lowPass
  rw [e1, mul_fin, mul_fin, k1, k3, add_fin]
  refine ⟨_, round_fin hs, ?_⟩
  have := round_dbl (rndS (x * a) + rndS (p * rndS (1 - a)))
  rw [round_fin hs] at this
  exact this

/-- **The low pass filter never overflows**: with any weight from 0 to 1 and any finite inputs, up to the largest double and however many, all outputs are
finite. -/
theorem lowPass_finite {a : ℚ} (ha : F64 a) (h0 : 0 ≤ a) (h1 : a ≤ 1) (xs : List (XVal ℚ)) (hx : ∀ v ∈ xs, Finite v) :
    Finite (lowPasses (.fin a) xs) := by
  have key : ∀ (xs : List (XVal ℚ)) (p : XVal ℚ), Finite p → (∀ v ∈ xs, Finite v) → Finite (xs.foldl (lowPass (.fin a)) p) := by
    intro xs
    induction xs with
    | nil => exact fun p hp _ => hp
    | cons x xs ih =>
      rintro p ⟨q, rfl, hq⟩ hx
      obtain ⟨y, rfl, hy⟩ := hx _ List.mem_cons_self
      exact ih _ (lowPass_step ha h0 h1 hq hy) (fun v hv => hx v (List.mem_cons_of_mem _ hv))
  cases xs with
  | nil => exact ⟨0, rfl, f64_zero⟩
  | cons x xs =>
    obtain ⟨y, rfl, hy⟩ := hx _ List.mem_cons_self
    exact key xs _ (lowPass_step ha h0 h1 hy hy) (fun v hv => hx v (List.mem_cons_of_mem _ hv))

/-! ### The rate limiter -/

/-- The step to the limit in the direction of the input does not pass the computed difference. -/
theorem limited {r dt d p x B : ℚ} (hr : F64 r) (hr0 : 0 ≤ r) (hdt : 0 ≤ dt) (hd : d = rndS (x - p)) (hx : F64 x) (hp : F64 p) (hB : F64 B)
    (hxB : |x| ≤ B * (1 - 1 / 2 ^ 52)) (hpB : |p| ≤ B) (hdB : F64 d) (h : dt * r ≤ d) :
    ∃ q, add (mul (.fin dt) (.fin r)) (.fin p) = .fin q ∧ F64 q ∧ |q| ≤ B := by
  have h0 : 0 ≤ dt * r := mul_nonneg hdt hr0
  have hd0 : 0 ≤ d := le_trans h0 h
  obtain ⟨h1, h2, -⟩ := round_within hdB (by rwa [abs_of_nonneg h0] : |dt * r| ≤ d)
  have h3 : 0 ≤ rndS (dt * r) := rndS_nonneg h0
  have h4 : rndS (dt * r) ≤ d := rndS_le hdB.rep h
  have h5 := rnd_rel (x - p)
  have h6 : rndS (x - p) = rnd (x - p) := by
    rw [sub_eq_add_neg]
    exact rndS_add hx.rep hp.neg.rep
  rw [← h6, ← hd] at h5
  have hB0 : 0 ≤ B := le_trans (abs_nonneg _) hpB
  have h7 : |x - p| ≤ 2 * B := by
    have := abs_sub x p
    linarith
  have k5 := abs_le.1 h5
  have kx := abs_le.1 hxB
  have kp := abs_le.1 hpB
  have h8 : |rndS (dt * r) + p| ≤ B := by
    rw [abs_le]
    constructor
    · linarith [kp.1]
    · linarith [k5.2, kx.2]
  obtain ⟨h9, h10, h11⟩ := round_within hB h8
  refine ⟨_, ?_, h10, h11⟩
  rw [mul_fin, h1, add_fin, h9]

/-- One run. -/
theorem rateLimit_step {f r dt p x B : ℚ} (hf : F64 f) (hr : F64 r) (hf0 : f ≤ 0) (hr0 : 0 ≤ r) (hdt : 0 ≤ dt) (hp : F64 p) (hx : F64 x)
    (hB : F64 B) (hBm : 2 * B ≤ maxD) (hxB : |x| ≤ B * (1 - 1 / 2 ^ 52)) (hpB : |p| ≤ B) :
    Within B (rateLimit (.fin f) (.fin r) (.fin dt) (.fin p) (.fin x)) := by
  have hB0 : 0 ≤ B := le_trans (abs_nonneg _) hpB
  have hxB' : |x| ≤ B := by linarith
  have hxp : |x - p| ≤ maxD := by
    have := abs_sub x p
    linarith
  obtain ⟨h1, h2, -⟩ := round_within f64_maxD hxp
  have e1 : sub (.fin x) (.fin p) = .fin (rndS (x - p)) := by rw [sub_fin, h1]
  unfold rateLimit
  simp only [e1]
  set d := rndS (x - p) with hd
  have hpass : Within B (XVal.fin x) := ⟨x, rfl, hx, hxB'⟩
  have up : dt * r ≤ d → Within B (add (mul (.fin dt) (.fin r)) (.fin p)) := limited hr hr0 hdt hd hx hp hB hxB hpB h2
  have down : d ≤ dt * f → Within B (add (mul (.fin dt) (.fin f)) (.fin p)) := by
    intro h
    obtain ⟨q, k1, k2, k3⟩ := limited (d := -d) (x := -x) (p := -p) hf.neg (by linarith) hdt
      (by rw [hd, ← rndS_neg_eq]; congr 1; ring) hx.neg hp.neg hB (by rwa [abs_neg]) (by rwa [abs_neg]) h2.neg (by linarith)
    have hm : |dt * f| ≤ |d| := by
      have : dt * f ≤ 0 := mul_nonpos_of_nonneg_of_nonpos hdt hf0
      rw [abs_of_nonpos this, abs_of_nonpos (by linarith)]
      linarith
    obtain ⟨k4, k5, -⟩ := round_within (show F64 |d| by rcases abs_choice d with h | h <;> rw [h]; exacts [h2, h2.neg]) hm
    have k6 : Ieee.round (dt * -f) = .fin (- rndS (dt * f)) := by
      rw [mul_neg, round_neg, k4]
      rfl
    rw [mul_fin, k6, add_fin, show - rndS (dt * f) + -p = -(rndS (dt * f) + p) by ring, round_neg] at k1
    refine ⟨-q, ?_, k2.neg, by rwa [abs_neg]⟩
    rw [mul_fin, k4, add_fin]
    cases hc : Ieee.round (rndS (dt * f) + p) with
    | fin y =>
      rw [hc] at k1
      simp only [XVal.neg, XVal.fin.injEq] at k1
      rw [← k1, neg_neg]
    | _ => rw [hc] at k1; cases k1
  rcases eq_or_lt_of_le hdt with h0 | h0
  · -- no time passed
    subst h0
    have z1 : ∀ c : ℚ, 0 * c = 0 := zero_mul
    rcases lt_trichotomy d 0 with hs | hs | hs
    · have : div (.fin d) (.fin 0) = .ninf := by simp [div, XVal.div, fix, XVal.infOf, hs, not_lt.2 hs.le]
      rw [this]
      simp only [XVal.lt, Bool.false_eq_true, if_false, if_true]
      exact down (by rw [z1]; exact hs.le)
    · have : div (.fin d) (.fin 0) = .nan := by simp [div, XVal.div, fix, XVal.infOf, hs]
      rw [this]
      simpa [XVal.lt] using hpass
    · have : div (.fin d) (.fin 0) = .pinf := by simp [div, XVal.div, fix, XVal.infOf, hs]
      rw [this]
      simp only [XVal.lt, if_true]
      exact up (by rw [z1]; exact hs.le)
  · rw [div_fin h0.ne']
    have hup : r ≤ d / dt → dt * r ≤ d := fun h => by rwa [le_div_iff₀ h0, mul_comm] at h
    have hdn : d / dt ≤ f → d ≤ dt * f := fun h => by rwa [div_le_iff₀ h0, mul_comm] at h
    by_cases c1 : XVal.lt (.fin r) (Ieee.round (d / dt)) = true
    · rw [if_pos c1]
      apply up
      apply hup
      by_contra hc
      push Not at hc
      have hl : rndS (d / dt) ≤ r := rndS_le hr.rep hc.le
      cases hv : Ieee.round (d / dt) with
      | fin y =>
        rw [hv] at c1
        have : y = rndS (d / dt) := round_val hv
        simp only [XVal.lt_fin, decide_eq_true_eq] at c1
        linarith
      | pinf =>
        have h3 := round_pinf.1 hv
        have h4 := le_trans (le_abs_self r) hr.le
        have h5 : maxD < over := maxD_lt_over
        linarith
      | _ => rw [hv] at c1; simp [XVal.lt] at c1
    · rw [if_neg c1]
      by_cases c2 : XVal.lt (Ieee.round (d / dt)) (.fin f) = true
      · rw [if_pos c2]
        apply down
        apply hdn
        by_contra hc
        push Not at hc
        have hl : f ≤ rndS (d / dt) := le_rndS hf.rep hc.le
        cases hv : Ieee.round (d / dt) with
        | fin y =>
          rw [hv] at c2
          have : y = rndS (d / dt) := round_val hv
          simp only [XVal.lt_fin, decide_eq_true_eq] at c2
          linarith
        | ninf =>
          have h3 := round_ninf.1 hv
          have h4 := le_trans (neg_le_abs f) hf.le
          have h5 : maxD < over := maxD_lt_over
          linarith
        | _ => rw [hv] at c2; simp [XVal.lt] at c2
      · rw [if_neg c2]
        exact hpass

/-- **The rate limiter stays finite**: with a falling rate of at most and a rising rate of at least zero, inputs up to a bound (at most half the largest double)
less two units in the last place, and an initial value up to the bound, all outputs are finite and within the bound, for any time differences, zero included. -/
theorem rateLimiter_within {f r p B : ℚ} (hf : F64 f) (hr : F64 r) (hf0 : f ≤ 0) (hr0 : 0 ≤ r) (hp : F64 p) (hB : F64 B) (hBm : 2 * B ≤ maxD)
    (hpB : |p| ≤ B) (ins : List (XVal ℚ × XVal ℚ)) (hins : ∀ i ∈ ins, Within (B * (1 - 1 / 2 ^ 52)) i.1 ∧ ∃ dt : ℚ, 0 ≤ dt ∧ i.2 = .fin dt) :
    Within B (rateLimits (.fin f) (.fin r) (.fin p) ins) := by
  induction ins generalizing p with
  | nil => exact ⟨p, rfl, hp, hpB⟩
  | cons i ins ih =>
    obtain ⟨⟨x, h1, h2, h3⟩, dt, h4, h5⟩ := hins i List.mem_cons_self
    obtain ⟨q, h6, h7, h8⟩ := rateLimit_step hf hr hf0 hr0 h4 hp h2 hB hBm h3 hpB
    simp only [rateLimits, List.foldl_cons, h1, h5, h6]
    exact ih h7 h8 (fun j hj => hins j (List.mem_cons_of_mem _ hj))

/-- **At the extremes the rate limiter overflows**: a change which is too large for a double, and a rate whose product with the time difference is. -/
theorem rateLimiter_overflow_violated {f r dt p x : ℚ} (hdt : 0 < dt) (h1 : over ≤ x - p) (h2 : over ≤ dt * r) :
    rateLimit (.fin f) (.fin r) (.fin dt) (.fin p) (.fin x) = .pinf := by
  have e1 : sub (.fin x) (.fin p) = .pinf := by rw [sub_fin, round_pinf.2 h1]
  have e2 : div .pinf (.fin dt) = .pinf := by simp [div, XVal.div, fix, XVal.infOf, hdt]
  unfold rateLimit
  simp only [e1, e2, XVal.lt, if_true]
  rw [mul_fin, round_pinf.2 h2]
  rfl

/-! ### Cases -/

theorem f64_half : F64 (1 / 2) := ⟨1, -1, by norm_num, by norm_num, by norm_num, by norm_num⟩

/-- The integrator with its default limits, the largest double (I.hpp:164-167), and an infinite input, an input of NaN, the largest double twice. -/
example : ∃ q, integrates (.fin (-maxD)) (.fin maxD) (.fin 0) [(.pinf, .fin 1), (.nan, .fin 1), (.fin maxD, .fin (1 / 2)), (.fin maxD, .fin 1)] = .fin q ∧ F64 q ∧
    (q = 0 ∨ -maxD < q ∧ q < maxD) := integrator_within _ _ _ f64_zero _

/-- The low pass filter at the largest double. -/
example : Finite (lowPasses (.fin (1 / 2)) [.fin maxD, .fin maxD, .fin (-maxD)]) := by
  apply lowPass_finite f64_half (by norm_num) (by norm_num)
  intro v hv
  simp only [List.mem_cons, List.not_mem_nil, or_false] at hv
  rcases hv with rfl | rfl | rfl
  · exact ⟨_, rfl, f64_maxD⟩
  · exact ⟨_, rfl, f64_maxD⟩
  · exact ⟨_, rfl, f64_maxD.neg⟩

/-- The rate limiter with a bound of 1. -/
example : Within 1 (rateLimits (.fin (-1)) (.fin 1) (.fin 1) [(.fin (1 / 2), .fin 0), (.fin (1 / 2), .fin (1 / 1000))]) := by
  have h1 : F64 1 := ⟨1, 0, by norm_num, by norm_num, by norm_num, by norm_num⟩
  apply rateLimiter_within h1.neg h1 (by norm_num) (by norm_num) h1 h1 _ (by norm_num)
  · intro i hi
    have hh : Within ((1:ℚ) * (1 - 1 / 2 ^ 52)) (.fin (1 / 2)) := ⟨_, rfl, f64_half, by norm_num [abs_of_pos]⟩
    simp only [List.mem_cons, List.not_mem_nil, or_false] at hi
    rcases hi with rfl | rfl
    · exact ⟨hh, 0, by norm_num, rfl⟩
    · exact ⟨hh, 1 / 1000, by norm_num, rfl⟩
  · have : F64 2 := ⟨1, 1, by norm_num, by norm_num, by norm_num, by norm_num⟩
    have := le_trans (le_abs_self _) this.le
    linarith

/-- From minus the largest double to the largest one in 100 s, with the largest rate. -/
example : rateLimit (.fin (-maxD)) (.fin maxD) (.fin 100) (.fin (-maxD)) (.fin maxD) = .pinf := by
  have h1 : 0 ≤ maxD := le_trans (abs_nonneg _) f64_maxD.le
  have h2 : over ≤ 2 * maxD := by
    rw [over, maxD, ← mul_assoc]
    exact mul_le_mul_of_nonneg_right (by norm_num) (two_pos 971).le
  apply rateLimiter_overflow_violated <;> linarith

end Verif.Control.IeeeBlocks
