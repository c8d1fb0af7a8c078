import Verif.Common.Double
/-!
The time difference computed by the integrator (includes/eeros/control/I.hpp:57-63), the differentiator (includes/eeros/control/D.hpp:39-40,51) and the rate
limiter (includes/eeros/control/RateLimiter.hpp:82-83,87) with the rounding of doubles, and the differentiator with it.  A time stamp is a `uint64_t` number of nanoseconds; its
conversion to double, the division by 1000000000.0 and the subtraction round.
-/
namespace Verif.Control.TimeDiff
open Verif.Common.Round

/-- `getTimestamp() / 1000000000.0`. -/
def secs (t : ℕ) : ℚ := fl (fl t / 1000000000)

/-- `tin - tprev`. -/
def dt (tprev tin : ℕ) : ℚ := rnd (secs tin - secs tprev)

structure Sample where
  val : ℚ
  ts : ℕ

/-- D.hpp:68-72, as in `Verif.Control.Differentiator`. -/
structure St where
  prev : Option Sample
  valOut : ℚ
  timeOut : ℕ

/-- `D::run`, D.hpp:37-59, every operation rounds. -/
def run (s : St) (sig : Sample) : St :=
  match s.prev with
  | none => { prev := some sig, valOut := 0, timeOut := sig.ts }
  | some p =>
    if secs sig.ts ≠ secs p.ts then
      { prev := some sig, valOut := rnd (rnd (sig.val - p.val) / dt p.ts sig.ts), timeOut := (sig.ts + p.ts) / 2 }
    else { s with prev := some sig }

/-! ### Properties: C143 -/

theorem secs_mono {a b : ℕ} (h : a ≤ b) : secs a ≤ secs b := by
  unfold secs
  apply fl_mono
  apply div_le_div_of_nonneg_right _ (by norm_num)
  exact fl_mono (by exact_mod_cast h)

/-- Time does not run backwards by rounding, and the difference has the right sign. -/
theorem dt_sign (a b : ℕ) : (a ≤ b → 0 ≤ dt a b) ∧ dt b a = - dt a b := by
  constructor
  · intro h
    exact rnd_nonneg (by linarith [secs_mono h])
  · unfold dt
    rw [← rnd_neg_eq]
    congr 1
    ring

theorem secs_error (t : ℕ) : |secs t - t / 1000000000| ≤ (t / 1000000000) * (3 / 2 ^ 53) := by
  have ht : (0:ℚ) ≤ t := by positivity
  have h1 := fl_rel ht
  have hf := fl_nonneg (t : ℚ)
  have h2 := fl_rel (x := fl t / 1000000000) (by positivity)
  unfold secs
  rw [abs_le] at *
  constructor <;> nlinarith

/-- The error of the time difference is at most 2^-50 of the time since the start of the clock. -/
theorem dt_error (a b : ℕ) (h : a ≤ b) : |dt a b - ((b : ℚ) - a) / 1000000000| ≤ (b / 1000000000) / 2 ^ 50 := by
  have hab : (a : ℚ) ≤ b := by exact_mod_cast h
  have ha0 : (0:ℚ) ≤ a := by positivity
  have ha := secs_error a
  have hb := secs_error b
  have hm := secs_mono h
  have hn : 0 ≤ secs a := fl_nonneg _
  have hr := rnd_rel (secs b - secs a)
  rw [abs_of_nonneg (by linarith : 0 ≤ secs b - secs a)] at hr
  unfold dt
  rw [abs_le] at *
  constructor <;> linarith

/-- One hour after the start, one millisecond. -/
example : |dt 3600000000000 3600001000000 - 1 / 1000| ≤ 3600001 / 1000 / 2 ^ 50 := by
  have := dt_error 3600000000000 3600001000000 (by norm_num)
  norm_num at this ⊢
  exact this

/-- With time stamps of at least 2^30 s (time since 1970, as with ROS) all time differences are multiples of 2^-22 s. -/
theorem dt_multiple (a b : ℕ) (ha : 2 ^ 30 * 1000000000 ≤ a) (hb : 2 ^ 30 * 1000000000 ≤ b) : ∃ n : ℤ, dt a b = n / 2 ^ 22 := by
  have key : ∀ t : ℕ, 2 ^ 30 * 1000000000 ≤ t → ∃ n : ℤ, secs t = n * 2 ^ (-22 : ℤ) := by
    intro t ht
    have h0 : fl ((2 ^ 30 * 1000000000 : ℕ) : ℚ) = ((2 ^ 30 * 1000000000 : ℕ) : ℚ) := by
      have := fl_exact 1953125 39 (by norm_num)
      rw [show ((2 ^ 30 * 1000000000 : ℕ) : ℚ) = ((1953125 : ℕ) : ℚ) * 2 ^ (39 : ℤ) by norm_num]
      exact this
    have h1 : ((2 ^ 30 * 1000000000 : ℕ) : ℚ) ≤ fl t := by
      rw [← h0]; exact fl_mono (by exact_mod_cast ht)
    have h2 : (2:ℚ) ^ (30 : ℤ) ≤ fl t / 1000000000 := by
      rw [le_div_iff₀ (by norm_num)]
      refine le_trans ?_ h1
      norm_num
    obtain ⟨n, hn⟩ := fl_multiple h2
    exact ⟨n, by unfold secs; rw [hn]; norm_num⟩
  obtain ⟨n, hn⟩ := key a ha
  obtain ⟨m, hm⟩ := key b hb
  obtain ⟨k, hk⟩ := rnd_multiple (m - n) (-22)
  refine ⟨k, ?_⟩
  unfold dt
  rw [hm, hn, show (m : ℚ) * 2 ^ (-22 : ℤ) - n * 2 ^ (-22 : ℤ) = ((m - n : ℤ) : ℚ) * 2 ^ (-22 : ℤ) by push_cast; ring, hk]
  norm_num
  ring

/-- C143 violated: with the time since 1970 a cycle of one millisecond is never measured better than to 70 ns, i.e. 7·10⁻⁵ of it. -/
theorem millisecond_violated (a b : ℕ) (ha : 2 ^ 30 * 1000000000 ≤ a) (hb : 2 ^ 30 * 1000000000 ≤ b) :
    7 / 100000000 < |dt a b - 1 / 1000| := by
  obtain ⟨n, hn⟩ := dt_multiple a b ha hb
  rw [hn, lt_abs]
  rcases le_or_gt n 4194 with h | h
  · right
    have : (n : ℚ) ≤ 4194 := by exact_mod_cast h
    linarith
  · left
    have : (4195 : ℚ) ≤ n := by exact_mod_cast h
    linarith

example : 7 / 100000000 < |dt 1721000000000000000 1721000000001000000 - 1 / 1000| := millisecond_violated _ _ (by norm_num) (by norm_num)

/-- C143: what the differentiator gives out fits to the time difference it computes, to 2^-51. -/
theorem quotient (s : St) (p sig : Sample) (hs : s.prev = some p) (hne : secs sig.ts ≠ secs p.ts) (hd : dt p.ts sig.ts ≠ 0) :
    |(run s sig).valOut * dt p.ts sig.ts - (sig.val - p.val)| ≤ |sig.val - p.val| / 2 ^ 51 := by
  have e : (run s sig).valOut = rnd (rnd (sig.val - p.val) / dt p.ts sig.ts) := by
    simp [run, hs, hne]
  rw [e]
  generalize sig.val - p.val = x
  generalize dt p.ts sig.ts = d at *
  have h1 := rnd_rel x
  have h2 := rnd_rel (rnd x / d)
  have h3 : |rnd (rnd x / d) * d - rnd x| ≤ |rnd x| / 2 ^ 53 := by
    have e1 : rnd (rnd x / d) * d - rnd x = (rnd (rnd x / d) - rnd x / d) * d := by field_simp
    rw [e1, abs_mul]
    calc |rnd (rnd x / d) - rnd x / d| * |d| ≤ |rnd x / d| / 2 ^ 53 * |d| := by gcongr
      _ = |rnd x| / 2 ^ 53 := by
        rw [abs_div]
        have : |d| ≠ 0 := abs_ne_zero.2 hd
        field_simp
  have h4 : |rnd x| ≤ |x| + |x| / 2 ^ 53 := by
    have := abs_sub_abs_le_abs_sub (rnd x) x
    linarith
  have h5 : |rnd (rnd x / d) * d - x| ≤ |rnd (rnd x / d) * d - rnd x| + |rnd x - x| := abs_sub_le _ _ _
  have h6 : 0 ≤ |x| := abs_nonneg x
  linarith

/-- C143: the slope given out is dated in the middle between the two inputs, rounded down to whole nanoseconds. -/
theorem stamp_middle (s : St) (p sig : Sample) (hs : s.prev = some p) (hne : secs sig.ts ≠ secs p.ts) :
    2 * (run s sig).timeOut ≤ p.ts + sig.ts ∧ p.ts + sig.ts ≤ 2 * (run s sig).timeOut + 1 := by
  have e : (run s sig).timeOut = (sig.ts + p.ts) / 2 := by simp [run, hs, hne]
  rw [e]
  omega

example : (run ⟨some ⟨1, 1000000⟩, 0, 0⟩ ⟨3, 2000001⟩).timeOut = 1500000 := by decide +kernel

/-- C143, the error of the differentiator: at most that of the time difference.  `q` is the exact difference quotient, `r` bounds the relative error of the time difference. -/
theorem slope_error_partial (s : St) (p sig : Sample) (hs : s.prev = some p) (hlt : p.ts < sig.ts) (r : ℚ)
    (hr : (sig.ts : ℚ) / 2 ^ 50 ≤ r * ((sig.ts : ℚ) - p.ts)) (hr2 : r ≤ 1 / 4) :
    |(run s sig).valOut - (sig.val - p.val) / (((sig.ts : ℚ) - p.ts) / 1000000000)| ≤
      |(sig.val - p.val) / (((sig.ts : ℚ) - p.ts) / 1000000000)| * (2 * r + 1 / 2 ^ 50) := by
  have hdt := dt_error p.ts sig.ts hlt.le
  have hpos : (0:ℚ) < (sig.ts : ℚ) - p.ts := by
    have : (p.ts : ℚ) < sig.ts := by exact_mod_cast hlt
    linarith
  set D : ℚ := ((sig.ts : ℚ) - p.ts) / 1000000000 with hD
  have hD0 : 0 < D := by positivity
  have hdD : |dt p.ts sig.ts - D| ≤ r * D := by
    refine le_trans hdt ?_
    rw [hD]
    linarith
  have hd1 : D * (3 / 4) ≤ dt p.ts sig.ts := by
    have := (abs_le.1 hdD).1
    nlinarith
  have hdpos : 0 < dt p.ts sig.ts := by nlinarith
  have hne : secs sig.ts ≠ secs p.ts := by
    intro h
    unfold dt at hdpos
    rw [h, sub_self, rnd_zero] at hdpos
    exact lt_irrefl _ hdpos
  have hq := quotient s p sig hs hne hdpos.ne'
  generalize sig.val - p.val = x at *
  generalize (run s sig).valOut = v at *
  generalize dt p.ts sig.ts = d at *
  have hr0 : 0 ≤ r := by
    by_contra hc
    have : r * D < 0 := mul_neg_of_neg_of_pos (not_le.1 hc) hD0
    have := abs_nonneg (d - D)
    linarith
  -- v * D - x = (v * d - x) + v * (D - d)
  have hv : |v| * d ≤ |x| * (1 + 1 / 2 ^ 51) := by
    have h1 : |v * d| ≤ |v * d - x| + |x| := by
      have := abs_add_le (v * d - x) x
      simpa using this
    rw [abs_mul, abs_of_pos hdpos] at h1
    linarith
  have h2 : |v * D - x| ≤ |x| / 2 ^ 51 + |v| * (r * D) := by
    have e : v * D - x = (v * d - x) + v * (D - d) := by ring
    have h3 : |v * (D - d)| ≤ |v| * (r * D) := by
      rw [abs_mul, abs_sub_comm]
      exact mul_le_mul_of_nonneg_left hdD (abs_nonneg v)
    rw [e]
    exact le_trans (abs_add_le _ _) (by linarith)
  have h4 : |v| * D ≤ |x| * (3 / 2) := by
    have h5 : |v| * (D * (3 / 4)) ≤ |v| * d := mul_le_mul_of_nonneg_left hd1 (abs_nonneg v)
    have h0 := abs_nonneg x
    linarith
  have h6 : |v * D - x| ≤ |x| * (2 * r + 1 / 2 ^ 50) := by
    have h7 : |v| * (r * D) ≤ |x| * (3 / 2) * r := by
      have := mul_le_mul_of_nonneg_right h4 hr0
      linarith
    have h0 := abs_nonneg x
    have h8 : 0 ≤ |x| * r := mul_nonneg h0 hr0
    linarith
  have e : v - x / D = (v * D - x) / D := by field_simp
  clear_value D
  rw [e, abs_div, abs_div, abs_of_pos hD0, div_mul_eq_mul_div]
  exact div_le_div_of_nonneg_right h6 hD0.le

/-- C143 violated: with the time since 1970 and time stamps one millisecond apart, the slope given out is wrong by more than 5·10⁻⁵, for all inputs. -/
theorem slope_violated (s : St) (p sig : Sample) (hs : s.prev = some p) (hp : 2 ^ 30 * 1000000000 ≤ p.ts) (hts : sig.ts = p.ts + 1000000) (hx : sig.val ≠ p.val)
    (hlim : p.ts ≤ 2 ^ 31 * 1000000000) :
    |(sig.val - p.val) * 1000| * (5 / 100000) < |(run s sig).valOut - (sig.val - p.val) * 1000| := by
  have hm := millisecond_violated p.ts sig.ts hp (by omega)
  have hdt := dt_error p.ts sig.ts (by omega)
  have hts' : (sig.ts : ℚ) = p.ts + 1000000 := by rw [hts]; push_cast; rfl
  have hlim' : (p.ts : ℚ) ≤ 2 ^ 31 * 1000000000 := by exact_mod_cast hlim
  have hdt' : |dt p.ts sig.ts - 1 / 1000| ≤ 1 / 100000 := by
    have e : ((sig.ts : ℚ) - p.ts) / 1000000000 = 1 / 1000 := by rw [hts']; ring
    rw [e] at hdt
    refine le_trans hdt ?_
    rw [hts']
    linarith
  have hdpos : 0 < dt p.ts sig.ts := by have := (abs_le.1 hdt').1; linarith
  have hne : secs sig.ts ≠ secs p.ts := by
    intro h
    unfold dt at hdpos
    rw [h, sub_self, rnd_zero] at hdpos
    exact lt_irrefl _ hdpos
  have hq := quotient s p sig hs hne hdpos.ne'
  have hx' : 0 < |sig.val - p.val| := abs_pos.2 (sub_ne_zero.2 hx)
  generalize sig.val - p.val = x at *
  generalize (run s sig).valOut = v at *
  generalize dt p.ts sig.ts = d at *
  -- |v d - x| small, |d - 1/1000| large
  have h1 : |x * 1000| * |d - 1 / 1000| ≤ |v * d - x| + |v - x * 1000| * |d| := by
    have e : x * 1000 * (d - 1 / 1000) = (v * d - x) - (v - x * 1000) * d := by ring
    rw [← abs_mul, ← abs_mul, e]
    exact abs_sub _ _
  rw [abs_of_pos hdpos] at h1
  have hd2 : d ≤ 1 / 1000 + 1 / 100000 := by have := (abs_le.1 hdt').2; linarith
  have e3 : |x * 1000| = |x| * 1000 := by rw [abs_mul]; norm_num
  rw [e3] at h1 ⊢
  by_contra hc
  have hc := not_lt.1 hc
  have h2 : |v - x * 1000| * d ≤ |x| * 1000 * (5 / 100000) * (1 / 1000 + 1 / 100000) := by
    have := abs_nonneg (v - x * 1000)
    nlinarith
  have h3 : |x| * 1000 * (7 / 100000000) < |x| * 1000 * |d - 1 / 1000| := by
    apply mul_lt_mul_of_pos_left hm; linarith
  linarith

/-- C143 violated: for time stamps from 2^60 ns there are up to 128 different ones which give the same time in seconds. -/
theorem same_seconds_violated (m j : ℕ) (hm : 2 ^ 52 ≤ m) (hm2 : m < 2 ^ 53) (hj : j < 128) : secs (256 * m + j) = secs (256 * m) := by
  have key : ∀ j : ℕ, j < 128 → fl ((256 * m + j : ℕ) : ℚ) = m * 2 ^ (8 : ℤ) := by
    intro j hj
    have h1 : (2:ℚ) ^ (52:ℕ) ≤ m := by exact_mod_cast hm
    have h2 : (m : ℚ) + 1 ≤ 2 ^ (53:ℕ) := by exact_mod_cast hm2
    have h3 : (j : ℚ) < 128 := by exact_mod_cast hj
    have h4 : (0 : ℚ) ≤ j := by positivity
    have := fl_eq ((256 * m + j : ℕ) : ℚ) 60 m (by push_cast; linarith)
      (by push_cast; linarith) (by
      push_cast
      have e : (256 * (m : ℚ) + j) / 256 - m = j / 256 := by ring
      rw [e, abs_of_nonneg (by positivity)]
      linarith)
    rw [this]
    norm_num
  unfold secs
  have h0 := key 0 (by norm_num)
  rw [add_zero] at h0
  rw [key j hj, h0]

/-- C143 violated: then the differentiator keeps its old output and forgets the change of the input, although the time stamps differ. -/
theorem change_lost_violated (s : St) (m j : ℕ) (hm : 2 ^ 52 ≤ m) (hm2 : m < 2 ^ 53) (hj : j < 128) (x y : ℚ) (hs : s.prev = some ⟨x, 256 * m⟩) :
    run s ⟨y, 256 * m + j⟩ = { s with prev := some ⟨y, 256 * m + j⟩ } := by
  simp [run, hs, same_seconds_violated m j hm hm2 hj]

/-- Case of `slope_violated` and of `dt_multiple`: 15 July 2024. -/
example : 2 ^ 30 * 1000000000 ≤ 1721000000000000000 ∧ 1721000000000000000 ≤ 2 ^ 31 * 1000000000 := by norm_num

/-- Case of `slope_error_partial`: one hour after the start, cycle of one millisecond, the time difference is right to 4·10⁻⁹. -/
example : ((3600000000000 + 1000000 : ℕ) : ℚ) / 2 ^ 50 ≤ 4 / 1000000000 * (((3600000000000 + 1000000 : ℕ) : ℚ) - (3600000000000 : ℕ)) := by norm_num

/-- Case of `same_seconds_violated`. -/
example : 2 ^ 52 ≤ 6722656250000000 ∧ 6722656250000000 < 2 ^ 53 ∧ 256 * 6722656250000000 = 1721000000000000000 := by norm_num

end Verif.Control.TimeDiff
