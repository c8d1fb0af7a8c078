import Verif.Common.Double
import Mathlib.Tactic.NormNum
import Mathlib.Tactic.Linarith
/-!
How long the measuring program runs (examples/rtTest/rtTest.cpp:36, 59, 73-77). The monitor of the main task is called once in each cycle of the executor; it
counts in a static `int` and stops the executor when the counter is larger than `seconds / dt`, computed in doubles.

Simplifications: the number of seconds is given as `int` (the result of `atoi`, rtTest.cpp:43, 10 without the option); the messages are left out.
-/
namespace Verif.Examples.RtTest
open Verif.Common.Round

/-- The double nearest to 0.001 (rtTest.cpp:59). -/
def dt : ℚ := 1152921504606847 / 2 ^ 60

/-- `seconds / dt` (rtTest.cpp:76). -/
def limit (seconds : ℤ) : ℚ := rnd ((seconds : ℚ) / dt)

/-- Largest `int`. -/
def intMax : ℤ := 2147483647

structure St where
  ticks : ℤ := 0
  stopped : Bool := false

/-- The monitor (rtTest.cpp:73-77). `none`: signed overflow of `++ticks`. -/
def monitor (seconds : ℤ) (s : St) : Option St :=
  if s.ticks = intMax then none
  else some { ticks := s.ticks + 1, stopped := s.stopped || decide (limit seconds < ((s.ticks + 1 : ℤ) : ℚ)) }

/-- The first `n` cycles. -/
def cycles (seconds : ℤ) : ℕ → Option St
  | 0 => some {}
  | n + 1 => (cycles seconds n).bind (monitor seconds)

/-! ### The limit in doubles -/

theorem dt_nearest : rnd (1 / 1000) = dt := by
  rw [rnd_pos (by norm_num)]
  have := fl_eq (1 / 1000) (-10) 4611686018427388 (by norm_num) (by norm_num) (by norm_num [abs_lt])
  rw [this]; norm_num [dt]

theorem limit_pos (s : ℕ) (h1 : 1 ≤ s) (h2 : s < 2 ^ 31) : limit s = 1000 * s := by
  have hs : (1 : ℚ) ≤ s := by exact_mod_cast h1
  have hs2 : (s : ℚ) < 2147483648 := by
    have : s < 2147483648 := by omega
    exact_mod_cast this
  unfold limit
  rw [Int.cast_natCast]
  set y : ℚ := (s : ℚ) / dt with hy
  have hy1 : y = s * (2 ^ 60 / 1152921504606847) := by rw [hy, dt]; field_simp
  have hy0 : 0 < y := by rw [hy1]; positivity
  rw [rnd_pos hy0.le]
  have he := fl_error hy0
  have hlog := log_bounds hy0
  -- 1000 s is a multiple of the distance of doubles at `y`
  have hL : Int.log 2 y ≤ 52 := by
    by_contra hn
    have h3 : (2 : ℚ) ^ (53 : ℤ) ≤ 2 ^ Int.log 2 y := zpow_le_zpow_right₀ (by norm_num) (by omega)
    have h4 : y < 2 ^ (53 : ℤ) := by rw [hy1]; norm_num; linarith
    linarith [hlog.1]
  obtain ⟨k, hk⟩ : ∃ k : ℕ, Int.log 2 y - 52 = -(k : ℤ) := ⟨(52 - Int.log 2 y).toNat, by omega⟩
  have hu : ulp y = 1 / 2 ^ k := by unfold ulp; rw [hk, zpow_neg, zpow_natCast, one_div]
  have hup := ulp_pos y
  obtain ⟨n, hn⟩ : ∃ n : ℤ, fl y = n * ulp y := ⟨nearest (y / ulp y), by unfold fl; rw [if_neg (not_le.2 hy0)]⟩
  have hm : (1000 * s : ℚ) = ((1000 * s * 2 ^ k : ℕ) : ℤ) * ulp y := by rw [hu]; push_cast; field_simp
  have hyu : y < 2 ^ 53 * ulp y := by
    have := hlog.2
    have e : (2 : ℚ) ^ (Int.log 2 y + 1) = 2 ^ 53 * ulp y := by
      unfold ulp
      rw [← zpow_natCast (2 : ℚ) 53, ← zpow_add₀ (by norm_num)]
      congr 1; push_cast; ring
    rwa [e] at this
  have hd : 0 ≤ 1000 * (s : ℚ) - y ∧ 1000 * (s : ℚ) - y < ulp y / 2 := by
    have h5 : 1000 * (s : ℚ) - y = s * (24 / 1152921504606847) := by rw [hy1]; ring
    constructor
    · rw [h5]; positivity
    · have h6 : (s : ℚ) * (24 / 1152921504606847) < y / 2 ^ 54 := by rw [hy1]; norm_num; linarith
      have h7 : y / 2 ^ 54 ≤ ulp y / 2 := by
        rw [div_le_iff₀ (by positivity)]
        have : ulp y / 2 * 2 ^ 54 = 2 ^ 53 * ulp y := by ring
        rw [this]; exact hyu.le
      linarith
  have habs := abs_le.1 he
  rw [hn, hm]
  rw [hn] at habs
  rw [hm] at hd
  generalize ((1000 * s * 2 ^ k : ℕ) : ℤ) = m at *
  have h8 : n = m := by
    have a1 : ((n : ℚ) - m) * ulp y < 1 * ulp y := by nlinarith [habs.2, hd.1, hd.2]
    have a2 : (-1 : ℚ) * ulp y < ((n : ℚ) - m) * ulp y := by nlinarith [habs.1, hd.1, hd.2]
    have b1 := lt_of_mul_lt_mul_right a1 hup.le
    have b2 := lt_of_mul_lt_mul_right a2 hup.le
    have c1 : n - m < 1 := by exact_mod_cast b1
    have c2 : -1 < n - m := by exact_mod_cast b2
    omega
  rw [h8]

theorem limit_nonpos (s : ℤ) (h : s ≤ 0) : limit s ≤ 0 := by
  unfold limit
  have : (s : ℚ) / dt ≤ 0 := div_nonpos_of_nonpos_of_nonneg (by exact_mod_cast h) (by norm_num [dt])
  have := rnd_mono this
  rwa [rnd_zero] at this

/-! ### The cycles -/

theorem cycles_succ (s : ℤ) (n : ℕ) (h : (n : ℤ) ≤ intMax) :
    cycles s n = some ⟨n, decide (0 < n ∧ limit s < (n : ℚ))⟩ := by
  induction n with
  | zero => simp [cycles]
  | succ n ih =>
    rw [cycles, ih (by push_cast at h; omega), Option.bind_some, monitor, if_neg (by push_cast at h; simp only; omega)]
    simp only [Option.some.injEq, St.mk.injEq]
    refine ⟨by push_cast; rfl, ?_⟩
    rw [Bool.eq_iff_iff]
    simp only [Bool.or_eq_true, decide_eq_true_eq]
    constructor
    · rintro (⟨-, h1⟩ | h1)
      · exact ⟨by omega, by push_cast; linarith⟩
      · exact ⟨by omega, by exact_mod_cast h1⟩
    · rintro ⟨-, h1⟩; exact Or.inr (by exact_mod_cast h1)

/-- **C353, the part which holds.** With a number of seconds from 1 to 2147483 the executor is stopped in cycle 1000 times this number plus one, not before. -/
theorem stops_partial (s : ℕ) (h1 : 1 ≤ s) (h2 : s ≤ 2147483) (n : ℕ) (hn : n ≤ 1000 * s + 1) : ∃ st, cycles s n = some st ∧ (st.stopped = true ↔ n = 1000 * s + 1) := by
  refine ⟨_, cycles_succ s n (by simp only [intMax]; omega), ?_⟩
  rw [limit_pos s h1 (by omega)]
  simp only [decide_eq_true_eq]
  have : (1000 * (s : ℚ) < n) ↔ 1000 * s < n := by exact_mod_cast Iff.rfl
  rw [this]; omega

/-- Zero or fewer seconds, and a text which is no number: one cycle. -/
theorem stops_at_once (s : ℤ) (h : s ≤ 0) : cycles s 1 = some ⟨1, true⟩ := by
  rw [cycles_succ s 1 (by decide)]
  have := limit_nonpos s h
  have h1 : limit s < 1 := by linarith
  simp [h1]

/-- **C353 is violated**: with 2147484 seconds or more the executor is never stopped, and the counter overflows in cycle 2^31. -/
theorem overflow_violated (s : ℕ) (h1 : 2147484 ≤ s) (h2 : s < 2 ^ 31) :
    (∀ n : ℕ, n < 2 ^ 31 → ∃ st, cycles s n = some st ∧ st.stopped = false) ∧ cycles s (2 ^ 31) = none := by
  have key : ∀ n : ℕ, n < 2 ^ 31 → cycles s n = some ⟨n, false⟩ := by
    intro n hn
    rw [cycles_succ s n (by simp only [intMax]; omega), limit_pos s (by omega) h2]
    have : ¬ (1000 * (s : ℚ) < n) := by
      have : ¬ 1000 * s < n := by omega
      exact_mod_cast this
    simp [this]
  refine ⟨fun n hn => ⟨_, key n hn, rfl⟩, ?_⟩
  have h := key (2 ^ 31 - 1) (by norm_num)
  rw [show (2 : ℕ) ^ 31 = (2 ^ 31 - 1) + 1 by norm_num, cycles, h, Option.bind_some, monitor, if_pos (by norm_num [intMax])]

/-- **C353, exactly.** Of the positive numbers of seconds, those up to 2147483 are the ones with which the executor is ever stopped. -/
theorem stops_iff (s : ℕ) (h1 : 1 ≤ s) (h2 : s < 2 ^ 31) : (∃ n st, cycles s n = some st ∧ st.stopped = true) ↔ s ≤ 2147483 := by
  constructor
  · rintro ⟨n, st, h3, h4⟩
    by_contra hn
    obtain ⟨a, b⟩ := overflow_violated s (by omega) h2
    have none_after : ∀ m, cycles s (2 ^ 31 + m) = none := by
      intro m
      induction m with
      | zero => exact b
      | succ m ih => rw [← Nat.add_assoc, cycles, ih]; rfl
    rcases Nat.lt_or_ge n (2 ^ 31) with h | h
    · obtain ⟨st', h5, h6⟩ := a n h
      rw [h3] at h5
      rw [Option.some.inj h5] at h4
      rw [h6] at h4; cases h4
    · rw [show n = 2 ^ 31 + (n - 2 ^ 31) by omega, none_after] at h3; cases h3
  · intro h
    obtain ⟨st, h3, h4⟩ := stops_partial s h1 h (1000 * s + 1) (le_refl _)
    exact ⟨_, st, h3, h4.2 rfl⟩

/-- Cases: the 10 seconds without the option; 0 seconds; a month. -/
example : ∃ st, cycles 10 10001 = some st ∧ (st.stopped = true ↔ 10001 = 1000 * 10 + 1) := stops_partial 10 (by decide) (by decide) 10001 (by decide)
example : ∃ st, cycles 10 10000 = some st ∧ (st.stopped = true ↔ 10000 = 1000 * 10 + 1) := stops_partial 10 (by decide) (by decide) 10000 (by decide)
example : cycles (-3) 1 = some ⟨1, true⟩ := stops_at_once (-3) (by decide)
example : cycles 2592000 (2 ^ 31) = none := (overflow_violated 2592000 (by decide) (by decide)).2

end Verif.Examples.RtTest
