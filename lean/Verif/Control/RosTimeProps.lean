import Verif.Control.RosTime
namespace Verif.Control.RosTime
open Verif.Common.Round

/-! ### C92: time stamps -/

/-- The whole seconds are right if the time stamp is below `2^53` ns (about 104 days). -/
theorem floor_seconds (ns : ℕ) (h : ns < 2 ^ 53) : ⌊seconds ns⌋ = ns / 1000000000 := by
  have e : fl ns = ns := fl_nat ns h.le
  rw [seconds, e]
  have hq : (ns : ℚ) < 2 ^ 53 := by exact_mod_cast h
  set s := ns / 1000000000 with hs
  set r := ns % 1000000000 with hr
  have hd : ns = s * 1000000000 + r := by omega
  have hr9 : r < 1000000000 := by omega
  have hdq : (ns : ℚ) / 1000000000 = s + r / 1000000000 := by
    rw [hd]; push_cast; field_simp
  have hr9q : (r : ℚ) ≤ 999999999 := by exact_mod_cast (by omega : r ≤ 999999999)
  have hr0 : (0:ℚ) ≤ r := by positivity
  rw [Int.floor_eq_iff]
  constructor
  · have h1 : fl s ≤ fl ((ns : ℚ) / 1000000000) := by
      apply fl_mono; rw [hdq]
      have : (0:ℚ) ≤ r / 1000000000 := by positivity
      linarith
    rw [fl_nat s (by omega)] at h1
    exact_mod_cast h1
  · by_cases h0 : ns = 0
    · subst h0; simp [fl]
    have hp : (0:ℚ) < (ns : ℚ) / 1000000000 := by
      have : (0:ℚ) < ns := by exact_mod_cast Nat.pos_of_ne_zero h0
      positivity
    have herr := (abs_le.1 (fl_error hp)).2
    have hulp : ulp ((ns : ℚ) / 1000000000) ≤ 2 ^ (-29:ℤ) := by
      unfold ulp
      apply zpow_le_zpow_right₀ (by norm_num)
      have : (2:ℚ) ^ Int.log 2 ((ns : ℚ) / 1000000000) < 2 ^ (24:ℤ) := by
        refine lt_of_le_of_lt (log_bounds hp).1 ?_
        rw [div_lt_iff₀ (by norm_num)]
        norm_num at hq ⊢
        linarith
      have := (zpow_lt_zpow_iff_right₀ (by norm_num : (1:ℚ) < 2)).1 this
      omega
    norm_num at hulp
    have : (s:ℚ) + r / 1000000000 ≤ s + 1 - 1 / 1000000000 := by
      have : (r:ℚ) / 1000000000 ≤ 999999999 / 1000000000 := by
        apply div_le_div_of_nonneg_right hr9q (by norm_num)
      linarith
    rw [hdq] at herr hulp ⊢
    have : fl ((s:ℚ) + r / 1000000000) < s + 1 := by linarith
    exact_mod_cast this

/-- **C92 (partial).** Below `2^53` ns the conversion to ROS time is exact: whole seconds and the remaining nanoseconds.  Missing:
larger time stamps, see `toRos_violated`. -/
theorem toRos_partial (ns : ℕ) (h : ns < 2 ^ 53) :
    toRos2 ns = some (((ns / 1000000000 : ℕ) : ℤ), ns % 1000000000) ∧ toRos1 ns = some (((ns / 1000000000 : ℕ) : ℤ), ns % 1000000000) := by
  have := floor_seconds ns h
  have h31 : ((ns / 1000000000 : ℕ) : ℤ) < 2 ^ 31 := by
    have : ns / 1000000000 < 2 ^ 31 := by omega
    exact_mod_cast this
  have h32 : ((ns / 1000000000 : ℕ) : ℤ) < 2 ^ 32 := lt_trans h31 (by norm_num)
  have e : ⌊seconds ns⌋ = ((ns / 1000000000 : ℕ) : ℤ) := by rw [this]; push_cast; rfl
  exact ⟨by rw [toRos2, e, if_pos h31], by rw [toRos1, e, if_pos h32]⟩

example : (1234567890123 : ℕ) < 2 ^ 53 := by norm_num

/-- **C92 (partial).** Converting there and back gives the same time stamp. -/
theorem roundtrip_partial (ns : ℕ) (h : ns < 2 ^ 53) : (toRos2 ns).map toEeros = some ns := by
  rw [(toRos_partial ns h).1, Option.map_some, toEeros]
  congr 1
  have : ((ns / 1000000000 : ℕ) : ℤ) % 2 ^ 64 = ((ns / 1000000000 : ℕ) : ℤ) := Int.emod_eq_of_lt (by positivity) (by
    have : ns / 1000000000 < 2 ^ 64 := by omega
    exact_mod_cast this)
  simp only
  rw [this, Int.toNat_natCast]
  omega

/-- **C92.** Every ROS time with up to `2^31` seconds and normalised nanoseconds is converted exactly to a time stamp. -/
theorem toEeros_exact (sec nsec : ℕ) (h : sec < 2 ^ 31) (hn : nsec < 1000000000) :
    toEeros (sec, nsec) = sec * 1000000000 + nsec := by
  have : ((sec : ℕ) : ℤ) % 2 ^ 64 = sec := Int.emod_eq_of_lt (by positivity) (by
    have : sec < 2 ^ 64 := by omega
    exact_mod_cast this)
  simp only [toEeros, this, Int.toNat_natCast]
  omega


example : toEeros (1763000000, 123456789) = 1763000000123456789 := toEeros_exact 1763000000 123456789 (by norm_num) (by norm_num)

/-- For all seconds, also negative ones, the result is the time in nanoseconds modulo 2^64. -/
theorem toEeros_mod (sec : ℤ) (nsec : ℕ) : (toEeros (sec, nsec) : ℤ) = (sec * 1000000000 + nsec) % 2 ^ 64 := by
  simp only [toEeros]
  push_cast
  omega

example : toEeros (-1, 5) = 2 ^ 64 - 1000000000 + 5 := by decide +kernel

theorem fl_late (m : ℕ) (h1 : 2 ^ 60 < m * 256) (h2 : m ≤ 2 ^ 53) : fl ((m : ℚ) * 256 - 1) = (m : ℚ) * 256 := by
  have hx : ((m * 256 - 1 : ℕ) : ℚ) = (m : ℚ) * 256 - 1 := by
    rw [Nat.cast_sub (by omega)]; push_cast; ring
  have hpos : (0:ℚ) < (m : ℚ) * 256 - 1 := by
    have : 0 < m * 256 - 1 := by omega
    rw [← hx]; exact_mod_cast this
  have hlog : Int.log 2 ((m : ℚ) * 256 - 1) = 60 := by
    rw [← hx, Int.log_natCast]
    have : Nat.log 2 (m * 256 - 1) = 60 := by
      rw [Nat.log_eq_iff (by norm_num)]
      constructor <;> omega
    rw [this]; rfl
  have hu : ulp ((m : ℚ) * 256 - 1) = 256 := by rw [ulp, hlog]; norm_num
  rw [fl, if_neg (not_le.2 hpos), hu]
  have hf : ⌊((m:ℚ) * 256 - 1) / 256⌋ = (m:ℤ) - 1 := by
    rw [Int.floor_eq_iff]; push_cast; constructor <;> linarith
  have : nearest (((m:ℚ) * 256 - 1) / 256) = m := by
    unfold nearest
    rw [hf]
    push_cast
    rw [if_neg (by linarith), if_pos (by linarith)]
    ring
  rw [this]; push_cast; ring

/-- In the last nanosecond before each full second the double is rounded up to the full second. -/
theorem seconds_late (k : ℕ) (h1 : 2 ^ 60 < k * 1000000000) (h2 : k * 1000000000 ≤ 2 ^ 61) : seconds (k * 1000000000 - 1) = k := by
  have hx : ((k * 1000000000 - 1 : ℕ) : ℚ) = ((k * 3906250 : ℕ) : ℚ) * 256 - 1 := by
    rw [Nat.cast_sub (by omega)]; push_cast; ring
  obtain ⟨m, hm⟩ : ∃ m, m = k * 3906250 := ⟨_, rfl⟩
  have h256 : m * 256 = k * 1000000000 := by rw [hm]; ring
  have h3 : 2 ^ 60 < m * 256 := by rw [h256]; exact h1
  have h4 : m ≤ 2 ^ 53 := by omega
  rw [← hm] at hx
  rw [seconds, hx, fl_late m h3 h4, hm]
  have : ((k * 3906250 : ℕ) : ℚ) * 256 / 1000000000 = k := by push_cast; ring
  rw [this]
  exact fl_nat k (by omega)

/-- **C92, violated.** With time stamps of the present (clocks which count from 1970: `2^60` ns is in the year 2006, `2^61` in 2043)
the last nanosecond of every second is converted to a time which is one second late: `k` s and 999999999 ns instead of `k - 1` s and
999999999 ns.  One nanosecond later the converted time jumps back. -/
theorem toRos_violated (k : ℕ) (h1 : 2 ^ 60 < k * 1000000000) (h2 : k < 2 ^ 31) :
    toRos2 (k * 1000000000 - 1) = some ((k : ℤ), 999999999) ∧ toRos1 (k * 1000000000 - 1) = some ((k : ℤ), 999999999) ∧
      (toRos2 (k * 1000000000 - 1)).map toEeros = some (k * 1000000000 - 1 + 1000000000) := by
  have hs := seconds_late k h1 (by omega)
  have hf : ⌊seconds (k * 1000000000 - 1)⌋ = (k : ℤ) := by rw [hs]; exact Int.floor_natCast k
  have hm : (k * 1000000000 - 1) % 1000000000 = 999999999 := by omega
  have h31 : (k : ℤ) < 2 ^ 31 := by exact_mod_cast h2
  have e2 : toRos2 (k * 1000000000 - 1) = some ((k : ℤ), 999999999) := by rw [toRos2, hf, if_pos h31, hm]
  refine ⟨e2, by rw [toRos1, hf, if_pos (lt_trans h31 (by norm_num)), hm], ?_⟩
  rw [e2, Option.map_some, toEeros_exact k 999999999 h2 (by norm_num)]
  congr 1; omega

example : 2 ^ 60 < 1763000000 * 1000000000 ∧ 1763000000 < 2 ^ 31 := by norm_num

/-- The first time stamp which is converted wrongly is near `2^53` ns. -/
theorem first_wrong : toRos2 9007199999999999 = some (9007200, 999999999) := by
  decide +kernel

/-- **C92, violated.** From the year 2038 on the conversion is undefined. -/
theorem toRos_undefined (ns : ℕ) (h : 2 ^ 31 * 1000000000 ≤ ns) : toRos2 ns = none := by
  have h1 : ((2 ^ 31 : ℕ) : ℚ) ≤ seconds ns := by
    have e : fl (((2 ^ 31 * 1000000000 : ℕ)) : ℚ) = ((2 ^ 31 * 1000000000 : ℕ) : ℚ) := by
      have := fl_exact 1000000000 31 (by norm_num)
      push_cast at this ⊢
      convert this using 2 <;> norm_num
    have h2 : fl (((2 ^ 31 * 1000000000 : ℕ)) : ℚ) ≤ fl ns := fl_mono (by exact_mod_cast h)
    rw [e] at h2
    rw [seconds, ← fl_nat (2 ^ 31) (by norm_num)]
    apply fl_mono
    rw [le_div_iff₀ (by norm_num)]
    push_cast at h2 ⊢
    linarith
  rw [toRos2, if_neg]
  rw [not_lt, Int.le_floor]
  exact_mod_cast h1

example : 2 ^ 31 * 1000000000 ≤ 2147483648000000000 := by norm_num

/-! ### C93: `System::getTime` -/

/-- **C93.** The time in seconds never goes back when the time in nanoseconds does not. -/
theorem getTime_mono (a b : ℕ) (h : a ≤ b) : seconds a ≤ seconds b := by
  apply fl_mono
  apply div_le_div_of_nonneg_right _ (by norm_num)
  exact fl_mono (by exact_mod_cast h)

theorem fl_rel {x : ℚ} (h : 0 < x) : |fl x - x| ≤ x / 2 ^ 53 := by
  refine le_trans (fl_error h) ?_
  have hu : ulp x * 2 ^ (52:ℕ) ≤ x := by
    have := (scaled h).1
    rw [le_div_iff₀ (ulp_pos x)] at this
    linarith
  rw [le_div_iff₀ (by norm_num)]
  have : (2:ℚ) ^ 53 = 2 * 2 ^ (52:ℕ) := by norm_num
  rw [this]; linarith

/-- **C93.** Its relative error is below `2^-51`. -/
theorem getTime_error (ns : ℕ) : |seconds ns - (ns : ℚ) / 1000000000| ≤ (ns : ℚ) / 1000000000 / 2 ^ 51 := by
  by_cases h0 : ns = 0
  · subst h0; simp [seconds, fl]
  have hp : (0:ℚ) < ns := by exact_mod_cast Nat.pos_of_ne_zero h0
  have h1 := abs_le.1 (fl_rel hp)
  have hp1 : (0:ℚ) < fl ns := by
    have : (ns:ℚ) / 2 ^ 53 < ns := by rw [div_lt_iff₀ (by norm_num)]; nlinarith
    linarith [h1.1]
  have h2 := abs_le.1 (fl_rel (x := fl ns / 1000000000) (by positivity))
  rw [← seconds] at h2
  rw [abs_le]
  constructor
  · have := h2.1
    have := h1.1
    norm_num at *
    linarith
  · have := h2.2
    have := h1.2
    norm_num at *
    linarith

/-- **C93.** For time stamps below `2^53` ns times which differ by ten nanoseconds or more give different seconds. -/
theorem getTime_strict (a b : ℕ) (h : a + 10 ≤ b) (hb : b < 2 ^ 53) : seconds a < seconds b := by
  have ha := abs_le.1 (getTime_error a)
  have hb' := abs_le.1 (getTime_error b)
  have hq : (a:ℚ) + 10 ≤ b := by exact_mod_cast h
  have hbq : (b:ℚ) < 2 ^ 53 := by exact_mod_cast hb
  have h1 := ha.2
  have h2 := hb'.1
  clear ha hb' h hb
  have hbq' : (b:ℚ) < 9007199254740992 := by norm_num at hbq ⊢; linarith
  have e : (2:ℚ) ^ 51 = 2251799813685248 := by norm_num
  rw [e] at h1 h2
  linarith

example : (5000 : ℕ) + 10 ≤ 5010 ∧ 5010 < 2 ^ 53 := by norm_num

/-- `timespec2nsec` is exact for 584 years. -/
theorem timespec_exact (sec nsec : ℕ) (h : sec < 18446744073) (hn : nsec < 1000000000) :
    timespec2nsec sec nsec = sec * 1000000000 + nsec := by
  unfold timespec2nsec; omega

example : (1763000000 : ℕ) < 18446744073 := by norm_num

end Verif.Control.RosTime
