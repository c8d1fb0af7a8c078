import Verif.Control.RosTimeProps
/-!
Model of the time stamp of a log message, `StreamLogWriter::begin` (src/logger/StreamLogWriter.cpp:41-46).  The time of the system clock is a number `c` of
nanoseconds since 1970.  `localtime_r` splits the whole seconds into date and time of day and is left out: what is shown is the pair of whole seconds and milliseconds.
Doubles are rounded to nearest, see `Verif.Common.Round`; `std::chrono` converts nanoseconds to `duration<double>` with one division, as `RosTime.seconds`.
-/
namespace Verif.Logger.Stamp
open Verif.Common.Round Verif.Control

/-- The whole seconds shown, StreamLogWriter.cpp:43: `to_time_t` cuts off. -/
def sec (c : ℕ) : ℕ := c / 1000000000

/-- `duration_cast<milliseconds>(tse).count()`, StreamLogWriter.cpp:45-46: the product is rounded, then cut off. -/
def millis (c : ℕ) : ℕ := ⌊fl (RosTime.seconds c * 1000)⌋.toNat

/-- The milliseconds shown, StreamLogWriter.cpp:46. -/
def ms (c : ℕ) : ℕ := millis c % 1000

/-- Specification: the time a reader takes from the message, in milliseconds. -/
def shown (c : ℕ) : ℕ := sec c * 1000 + ms c

/-! ### C339 -/

/-- Whole seconds are converted without an error. -/
theorem seconds_whole (k : ℕ) (h : k ≤ 2 ^ 31) : RosTime.seconds (k * 1000000000) = k := by
  have h1 : ((k * 1000000000 : ℕ) : ℚ) = ((k * 1953125 : ℕ) : ℚ) * 2 ^ (9 : ℤ) := by push_cast; norm_num; ring
  rw [RosTime.seconds, h1, fl_exact _ _ (by omega), ← h1]
  have : ((k * 1000000000 : ℕ) : ℚ) / 1000000000 = k := by push_cast; ring
  rw [this]
  exact fl_nat k (by omega)

theorem millis_whole (k : ℕ) (h : k ≤ 2 ^ 31) : fl (RosTime.seconds (k * 1000000000) * 1000) = (k * 1000 : ℕ) := by
  rw [seconds_whole k h]
  have : (k : ℚ) * 1000 = ((k * 1000 : ℕ) : ℚ) := by push_cast; ring
  rw [this, fl_nat _ (by omega)]

theorem product_mono {a b : ℕ} (h : a ≤ b) : fl (RosTime.seconds a * 1000) ≤ fl (RosTime.seconds b * 1000) :=
  fl_mono (mul_le_mul_of_nonneg_right (RosTime.getTime_mono a b h) (by norm_num))

/-- The milliseconds before the remainder is taken never decrease. -/
theorem millis_mono {a b : ℕ} (h : a ≤ b) : millis a ≤ millis b :=
  Int.toNat_le_toNat (Int.floor_mono (product_mono h))

theorem millis_of_whole (k : ℕ) (h : k ≤ 2 ^ 31) : millis (k * 1000000000) = k * 1000 := by
  rw [millis, millis_whole k h, Int.floor_natCast, Int.toNat_natCast]

/-- The error of the product is below 2 µs. -/
theorem product_error (c : ℕ) (h : c < 2 ^ 31 * 1000000000) : |fl (RosTime.seconds c * 1000) - (c : ℚ) / 1000000| < 1 / 500 := by
  have hc : (c : ℚ) < 2 ^ 31 * 1000000000 := by exact_mod_cast h
  have e1 := RosTime.getTime_error c
  have hc0 : (0 : ℚ) ≤ c := by positivity
  have hs0 : 0 ≤ RosTime.seconds c := fl_nonneg _
  have hb : (c : ℚ) / 1000000000 / 2 ^ 51 ≤ 1 / 2 ^ 20 := by
    rw [div_div, div_le_div_iff₀ (by positivity) (by positivity)]
    linarith
  have hd : (c : ℚ) / 1000000000 < 2 ^ 31 := by rw [div_lt_iff₀ (by norm_num)]; exact hc
  have e2 : |fl (RosTime.seconds c * 1000) - RosTime.seconds c * 1000| ≤ RosTime.seconds c * 1000 / 2 ^ 53 := by
    rcases hs0.lt_or_eq with h0 | h0
    · exact RosTime.fl_rel (by positivity)
    · rw [← h0]; simp [fl]
  have hdiv : (c : ℚ) / 1000000 = (c : ℚ) / 1000000000 * 1000 := by ring
  rw [hdiv]
  obtain ⟨a1, a2⟩ := abs_le.1 (e1.trans hb)
  obtain ⟨b1, b2⟩ := abs_le.1 e2
  have hs : RosTime.seconds c * 1000 / 2 ^ 53 ≤ 1 / 2000 := by
    rw [div_le_div_iff₀ (by positivity) (by positivity)]
    norm_num at a2 hd ⊢
    linarith
  rw [abs_lt]
  norm_num at a1 a2 hs b1 b2 ⊢
  constructor <;> linarith

/-- Between two whole seconds the milliseconds lie between those of the whole seconds, both included. -/
theorem millis_between (c : ℕ) (h : c < 2 ^ 31 * 1000000000) : sec c * 1000 ≤ millis c ∧ millis c ≤ (sec c + 1) * 1000 := by
  have hs : sec c + 1 ≤ 2 ^ 31 := by unfold sec; omega
  constructor
  · have := millis_mono (a := sec c * 1000000000) (b := c) (by unfold sec; omega)
    rwa [millis_of_whole _ (by omega)] at this
  · have := millis_mono (a := c) (b := (sec c + 1) * 1000000000) (by unfold sec; omega)
    rwa [millis_of_whole _ hs] at this

theorem millis_error (c : ℕ) (h : c < 2 ^ 31 * 1000000000) :
    c ≤ millis c * 1000000 + 1002000 ∧ millis c * 1000000 ≤ c + 2000 := by
  obtain ⟨e1, e2⟩ := abs_lt.1 (product_error c h)
  have h0 : 0 ≤ ⌊fl (RosTime.seconds c * 1000)⌋ := Int.floor_nonneg.2 (fl_nonneg _)
  have hm : ((millis c : ℕ) : ℚ) = ((⌊fl (RosTime.seconds c * 1000)⌋ : ℤ) : ℚ) := by
    have : ((millis c : ℕ) : ℤ) = ⌊fl (RosTime.seconds c * 1000)⌋ := Int.toNat_of_nonneg h0
    exact_mod_cast this
  have f1 := Int.floor_le (fl (RosTime.seconds c * 1000))
  have f2 := Int.lt_floor_add_one (fl (RosTime.seconds c * 1000))
  rw [← hm] at f1 f2
  constructor
  · have : (c : ℚ) ≤ ((millis c * 1000000 + 1002000 : ℕ) : ℚ) := by push_cast; linarith
    exact_mod_cast this
  · have : ((millis c * 1000000 : ℕ) : ℚ) ≤ ((c + 2000 : ℕ) : ℚ) := by push_cast; linarith
    exact_mod_cast this

/-- Unless the double has been rounded up to the next whole second, the reader takes the milliseconds; then nearly a second is missing. -/
theorem shown_eq (c : ℕ) (h : c < 2 ^ 31 * 1000000000) :
    shown c = if millis c = (sec c + 1) * 1000 then sec c * 1000 else millis c := by
  obtain ⟨h1, h2⟩ := millis_between c h
  unfold shown ms
  split_ifs with hc
  · rw [hc]; omega
  · omega

/-- **C339 (partial).** Until 2038 a message which is written more than 2 µs away from a change of the milliseconds shows its time, cut off to milliseconds.
Missing: the times next to a change, see `stamp_near` and `stamp_violated`. -/
theorem stamp_partial (c : ℕ) (h : c < 2 ^ 31 * 1000000000) (h1 : 2000 < c % 1000000) (h2 : c % 1000000 + 2000 < 1000000) :
    shown c = c / 1000000 := by
  obtain ⟨e1, e2⟩ := millis_error c h
  have : millis c = c / 1000000 := by omega
  rw [shown_eq c h, this, if_neg]
  unfold sec; omega

example : shown 1763000000123456789 = 1763000000123 := stamp_partial _ (by norm_num) (by norm_num) (by norm_num)

/-- **C339.** Until 2038 every message shows its time with an error of one millisecond at most, or it is one of the last 2 µs of a second and shows the beginning of this
second. -/
theorem stamp_near (c : ℕ) (h : c < 2 ^ 31 * 1000000000) :
    (shown c ≤ c / 1000000 + 1 ∧ c / 1000000 ≤ shown c + 1) ∨ (1000000000 ≤ c % 1000000000 + 2000 ∧ shown c = sec c * 1000) := by
  obtain ⟨e1, e2⟩ := millis_error c h
  rw [shown_eq c h]
  split_ifs with hc
  · right
    refine ⟨?_, rfl⟩
    rw [hc] at e2
    unfold sec at e2
    omega
  · left; omega

example : (1763000000999999999 : ℕ) < 2 ^ 31 * 1000000000 ∧ 1000000000 ≤ 1763000000999999999 % 1000000000 + 2000 := by decide

/-- The double of a time less than 128 ns before a whole second is that of the whole second. -/
theorem fl_up (m d : ℕ) (hd : d < 128) (h1 : 2 ^ 60 + d ≤ m * 256) (h2 : m * 256 < 2 ^ 61 + d) : fl ((m : ℚ) * 256 - d) = (m : ℚ) * 256 := by
  have hq : (d : ℚ) < 128 := by exact_mod_cast hd
  have hd0 : (0 : ℚ) ≤ d := by positivity
  have a1 : (2 : ℚ) ^ 60 + d ≤ m * 256 := by exact_mod_cast h1
  have a2 : (m : ℚ) * 256 < 2 ^ 61 + d := by exact_mod_cast h2
  have := fl_eq ((m : ℚ) * 256 - d) 60 m (by norm_num at a1 ⊢; linarith) (by norm_num at a2 ⊢; linarith) (by
    rw [abs_lt]; norm_num; constructor <;> linarith)
  rw [this]; norm_num

/-- **C339, violated.** With the clocks of today (`2^60` ns is in the year 2006) a message of the last 127 ns of a second shows the beginning of this second: `S - 1` s and
0 ms instead of 999 ms. -/
theorem stamp_violated (S d : ℕ) (h1 : 2 ^ 60 < S * 1000000000 - 127) (h2 : S < 2 ^ 31) (hd0 : 0 < d) (hd : d ≤ 127) :
    sec (S * 1000000000 - d) = S - 1 ∧ ms (S * 1000000000 - d) = 0 ∧ (S * 1000000000 - d) / 1000000 = shown (S * 1000000000 - d) + 999 := by
  have hsec : sec (S * 1000000000 - d) = S - 1 := by unfold sec; omega
  have hx : ((S * 1000000000 - d : ℕ) : ℚ) = ((S * 3906250 : ℕ) : ℚ) * 256 - d := by
    rw [Nat.cast_sub (by omega)]; push_cast; ring
  have hs : RosTime.seconds (S * 1000000000 - d) = S := by
    rw [RosTime.seconds, hx, fl_up _ _ (by omega) (by omega) (by omega)]
    have : ((S * 3906250 : ℕ) : ℚ) * 256 / 1000000000 = S := by push_cast; ring
    rw [this]
    exact fl_nat S (by omega)
  have hm : ms (S * 1000000000 - d) = 0 := by
    have e : (S : ℚ) * 1000 = ((S * 1000 : ℕ) : ℚ) := by push_cast; ring
    rw [ms, millis, hs, e, fl_nat _ (by omega), Int.floor_natCast, Int.toNat_natCast]
    omega
  refine ⟨hsec, hm, ?_⟩
  rw [shown, hsec, hm]
  omega

example : sec (1763000001 * 1000000000 - 127) = 1763000000 ∧ ms (1763000001 * 1000000000 - 127) = 0 :=
  ⟨(stamp_violated 1763000001 127 (by norm_num) (by norm_num) (by norm_num) (by norm_num)).1,
   (stamp_violated 1763000001 127 (by norm_num) (by norm_num) (by norm_num) (by norm_num)).2.1⟩

/-- **C339, violated.** The shown times go back by 999 ms, although the clock does not: a message 5 µs before the end of a second shows a later time than one at the end. -/
theorem stamp_order_violated (S d : ℕ) (h1 : 2 ^ 60 < S * 1000000000 - 127) (h2 : S < 2 ^ 31) (hd0 : 0 < d) (hd : d ≤ 127) :
    S * 1000000000 - 5000 < S * 1000000000 - d ∧ shown (S * 1000000000 - 5000) = shown (S * 1000000000 - d) + 999 := by
  obtain ⟨_, _, h3⟩ := stamp_violated S d h1 h2 hd0 hd
  refine ⟨by omega, ?_⟩
  rw [stamp_partial (S * 1000000000 - 5000) (by omega) (by omega) (by omega)]
  omega

example : shown (1763000001 * 1000000000 - 5000) = shown (1763000001 * 1000000000 - 1) + 999 :=
  (stamp_order_violated 1763000001 1 (by norm_num) (by norm_num) (by norm_num) (by norm_num)).2

/-- **C339 (partial).** Otherwise the order is kept: of two messages of the same or of different seconds the later one shows no earlier time, if the double of the later one
has not been rounded up to the next second. -/
theorem stamp_order_partial (a b : ℕ) (h : a ≤ b) (hb : b < 2 ^ 31 * 1000000000) (hl : b % 1000000000 + 2000 < 1000000000) : shown a ≤ shown b := by
  have e := (millis_error b hb).2
  have hm := millis_mono h
  obtain ⟨a1, a2⟩ := millis_between a (by omega)
  obtain ⟨b1, b2⟩ := millis_between b hb
  rw [shown_eq a (by omega), shown_eq b hb]
  have hs : sec a ≤ sec b := Nat.div_le_div_right h
  have hne : millis b ≠ (sec b + 1) * 1000 := by unfold sec; omega
  rw [if_neg hne]
  split_ifs
  · exact (Nat.mul_le_mul_right 1000 hs).trans b1
  · exact hm

example : shown 1763000000999999999 ≤ shown 1763000001000000000 := stamp_order_partial _ _ (by norm_num) (by norm_num) (by norm_num)

end Verif.Logger.Stamp
