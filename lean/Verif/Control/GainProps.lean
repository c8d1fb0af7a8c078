import Verif.Control.Gain
import Mathlib.Tactic.Linarith
import Mathlib.Tactic.NormNum
import Mathlib.Tactic.Ring
import Mathlib.Tactic.Positivity
import Mathlib.Data.Rat.Floor
namespace Verif.Control.Gain
variable {K : Type} [Field K] [LinearOrder K] [IsStrictOrderedRing K]

theorem limit_id (g mn mx : K) (h1 : mn ≤ g) (h2 : g ≤ mx) : limit g mn mx = g := by
  simp [limit, not_lt.2 h1, not_lt.2 h2]

theorem limit_bounds (g mn mx : K) (h : mn ≤ mx) : mn ≤ limit g mn mx ∧ limit g mn mx ≤ mx := by
  unfold limit
  simp only [gt_iff_lt]
  split <;> split <;> constructor <;> linarith

/-- Exact effect of one smooth change: the distance to the target shrinks by `diff`, down to zero, on the same side. -/
theorem glide_spec (g t d : K) (hd : 0 ≤ d) :
    (g ≤ t → glide g t d = min (g + d) t) ∧ (t ≤ g → glide g t d = max (g - d) t) := by
  unfold glide
  simp only [gt_iff_lt]
  constructor
  · intro h
    by_cases h1 : g < t
    · rw [if_pos h1]
      by_cases h2 : t < g + d
      · simp [h2, min_eq_right (le_of_lt h2)]
      · simp [h2, min_eq_left (not_lt.1 h2)]
    · have : g = t := le_antisymm h (not_lt.1 h1)
      subst this
      simp [hd]
  · intro h
    rw [if_neg (not_lt.2 h)]
    by_cases h1 : t < g
    · rw [if_pos h1]
      by_cases h2 : g - d < t
      · rw [if_pos h2, max_eq_right (le_of_lt h2)]
      · rw [if_neg h2, max_eq_left (not_lt.1 h2)]
    · have : g = t := le_antisymm (not_lt.1 h1) h
      subst this
      simp [hd]

/-- **C37, one run.** With smooth change, a non-negative difference and gain and target within the limits, a run moves the gain by at most the
difference, towards the target and never past it, and the gain stays within the limits. -/
theorem smooth_step (s : St K) (x : K) (hs : s.smooth = true) (hd : 0 ≤ s.diff) (hg : s.min ≤ s.gain ∧ s.gain ≤ s.max)
    (ht : s.min ≤ s.target ∧ s.target ≤ s.max) :
    (s.gain ≤ s.target → s.gain ≤ (run s x).1.gain ∧ (run s x).1.gain ≤ s.target ∧ (run s x).1.gain ≤ s.gain + s.diff) ∧
    (s.target ≤ s.gain → s.target ≤ (run s x).1.gain ∧ (run s x).1.gain ≤ s.gain ∧ s.gain - s.diff ≤ (run s x).1.gain) ∧
    s.min ≤ (run s x).1.gain ∧ (run s x).1.gain ≤ s.max := by
  obtain ⟨h1, h2⟩ := glide_spec s.gain s.target s.diff hd
  simp only [run, hs, if_true]
  have lb : ∀ g, limit g s.min s.max = g ∨ ¬ (s.min ≤ g ∧ g ≤ s.max) := by
    intro g; by_cases h : s.min ≤ g ∧ g ≤ s.max
    · exact Or.inl (limit_id g _ _ h.1 h.2)
    · exact Or.inr h
  have hb := limit_bounds (glide s.gain s.target s.diff) s.min s.max (le_trans hg.1 hg.2)
  refine ⟨?_, ?_, hb.1, hb.2⟩
  · intro h
    have hgl := h1 h
    have b1 : s.gain ≤ glide s.gain s.target s.diff := by rw [hgl]; exact le_min (by linarith) h
    have b2 : glide s.gain s.target s.diff ≤ s.target := by rw [hgl]; exact min_le_right _ _
    have b3 : glide s.gain s.target s.diff ≤ s.gain + s.diff := by rw [hgl]; exact min_le_left _ _
    rw [limit_id _ _ _ (by linarith [hg.1]) (by linarith [ht.2])]
    exact ⟨b1, b2, b3⟩
  · intro h
    have hgl := h2 h
    have b1 : glide s.gain s.target s.diff ≤ s.gain := by rw [hgl]; exact max_le (by linarith) h
    have b2 : s.target ≤ glide s.gain s.target s.diff := by rw [hgl]; exact le_max_right _ _
    have b3 : s.gain - s.diff ≤ glide s.gain s.target s.diff := by rw [hgl]; exact le_max_left _ _
    rw [limit_id _ _ _ (by linarith [ht.1]) (by linarith [hg.2])]
    exact ⟨b2, b1, b3⟩


/-- The gain glides from 1 to 6 in steps of 2. -/
example : let s : St ℚ := exec (new (1 : ℚ) 10 0) [.setDiff 2, .smooth true, .setGain 6]
    s.smooth = true ∧ 0 ≤ s.diff ∧ (s.min ≤ s.gain ∧ s.gain ≤ s.max) ∧ (s.min ≤ s.target ∧ s.target ≤ s.max) ∧ s.gain = 1 ∧ (run s 1).1.gain = 3 := by
  norm_num [exec, step, run, new, glide, limit]

/-- **C37, arrival.** The distance to the target after `n` runs is exactly `max (distance - n * diff) 0`. -/
theorem smooth_distance (xs : List K) : ∀ (s : St K), s.smooth = true → 0 ≤ s.diff → s.min ≤ s.gain ∧ s.gain ≤ s.max →
    s.min ≤ s.target ∧ s.target ≤ s.max →
    |s.target - (runs s xs).gain| = max (|s.target - s.gain| - xs.length * s.diff) 0 := by
  induction xs with
  | nil => intro s _ _ _ _; simp [runs]
  | cons x xs ih =>
    intro s hs hd hg ht
    obtain ⟨up, down, hmin, hmax⟩ := smooth_step s x hs hd hg ht
    have := ih (run s x).1 hs hd ⟨hmin, hmax⟩ ht
    have e1 : (run s x).1.target = s.target := rfl
    have e2 : (run s x).1.diff = s.diff := rfl
    rw [e1, e2] at this
    simp only [runs, this, List.length_cons, Nat.cast_succ]
    have key : |s.target - (run s x).1.gain| = max (|s.target - s.gain| - s.diff) 0 := by
      obtain ⟨h1, h2⟩ := glide_spec s.gain s.target s.diff hd
      rcases le_total s.gain s.target with h | h
      · have hb := up h
        have hv : (run s x).1.gain = min (s.gain + s.diff) s.target := by
          simp only [run, hs, if_true]
          rw [h1 h]
          exact limit_id _ _ _ (le_min (by linarith [hg.1]) ht.1) (le_trans (min_le_right _ _) ht.2)
        rw [abs_of_nonneg (by linarith : 0 ≤ s.target - s.gain), abs_of_nonneg (by linarith [hb.2.1]), hv]
        rcases le_total (s.gain + s.diff) s.target with h3 | h3
        · rw [min_eq_left h3, max_eq_left (by linarith)]; ring
        · rw [min_eq_right h3, max_eq_right (by linarith)]; ring
      · have hb := down h
        have hv : (run s x).1.gain = max (s.gain - s.diff) s.target := by
          simp only [run, hs, if_true]
          rw [h2 h]
          exact limit_id _ _ _ (le_trans ht.1 (le_max_right _ _)) (max_le (by linarith [hg.2]) ht.2)
        rw [abs_of_nonpos (by linarith : s.target - s.gain ≤ 0), abs_of_nonpos (by linarith [hb.1]), hv]
        rcases le_total s.target (s.gain - s.diff) with h3 | h3
        · rw [max_eq_left h3, max_eq_left (by linarith)]; ring
        · rw [max_eq_right h3, max_eq_right (by linarith)]; ring
    rw [key]
    have hn : 0 ≤ (xs.length : K) * s.diff := mul_nonneg (Nat.cast_nonneg _) hd
    rcases le_total (|s.target - s.gain| - s.diff) 0 with h | h
    · rw [max_eq_right h, max_eq_right (by linarith), max_eq_right (by linarith)]
    · rw [max_eq_left h]; congr 1; ring

/-- **C37, number of runs.** Any `n` runs with `n * diff ≥ |target - gain|` reach the target, in particular `n = ⌈|target - gain| / diff⌉`. -/
theorem smooth_arrives [FloorRing K] (s : St K) (xs : List K) (hs : s.smooth = true) (hd : 0 < s.diff) (hg : s.min ≤ s.gain ∧ s.gain ≤ s.max)
    (ht : s.min ≤ s.target ∧ s.target ≤ s.max) (hn : ⌈|s.target - s.gain| / s.diff⌉₊ ≤ xs.length) :
    (runs s xs).gain = s.target := by
  have h := smooth_distance xs s hs (le_of_lt hd) hg ht
  have h2 : |s.target - s.gain| / s.diff ≤ xs.length := le_trans (Nat.le_ceil _) (by exact_mod_cast hn)
  rw [div_le_iff₀ hd] at h2
  rw [max_eq_right (by linarith)] at h
  have := abs_eq_zero.1 h
  linarith


/-- From 1 to 6 in steps of 2: three runs are enough, since `|6 - 1| / 2 ≤ 3`. -/
example : (runs (exec (new (1 : ℚ) 10 0) [.setDiff 2, .smooth true, .setGain 6]) [1, 1, 1]).gain = 6 := by
  refine smooth_arrives _ _ ?_ ?_ ?_ ?_ ?_ <;> norm_num [exec, step, run, new, glide, limit]

/-- **C37, limits.** After every run in every history the effective gain lies within the limits valid at that run, provided `min ≤ max`, and the
output is the effective gain times the input (enabled) or the input (disabled). -/
theorem run_in_limits (s0 : St K) (ops : List (Op K)) (x : K) (h : (exec s0 ops).min ≤ (exec s0 ops).max) :
    let s := exec s0 ops
    s.min ≤ (run s x).1.gain ∧ (run s x).1.gain ≤ s.max ∧ (run s x).2 = if s.enabled then (run s x).1.gain * x else x := by
  have := limit_bounds (if (exec s0 ops).smooth then glide (exec s0 ops).gain (exec s0 ops).target (exec s0 ops).diff else (exec s0 ops).gain) _ _ h
  exact ⟨this.1, this.2, rfl⟩


/-- The gain 6 with the limits 0 and 4. -/
example : (exec (new (1 : ℚ) 10 0) [.setGain 6, .setMax 4]).min ≤ (exec (new (1 : ℚ) 10 0) [.setGain 6, .setMax 4]).max ∧
    (run (exec (new (1 : ℚ) 10 0) [.setGain 6, .setMax 4]) 3).2 = 12 := by
  norm_num [exec, step, run, new, glide, limit]

/-- A gain outside of the limits is refused, one inside becomes the gain (without smooth change) or the target (with smooth change). -/
theorem setGain_spec (s : St K) (c : K) :
    (¬ (s.min ≤ c ∧ c ≤ s.max) → (step s (.setGain c)).1 = s) ∧
    (s.min ≤ c ∧ c ≤ s.max → s.smooth = true → (step s (.setGain c)).1 = { s with target := c }) ∧
    (s.min ≤ c ∧ c ≤ s.max → s.smooth = false → (step s (.setGain c)).1 = { s with gain := c }) := by
  refine ⟨?_, ?_, ?_⟩
  · intro h; simp only [step]; rw [if_neg (fun h' => h ⟨h'.2, h'.1⟩)]
  · intro h hs; simp only [step]; rw [if_pos ⟨h.2, h.1⟩, hs]; rfl
  · intro h hs; simp only [step]; rw [if_pos ⟨h.2, h.1⟩, hs]; rfl

/-- **C64 is violated.** A gain set without smooth change is not kept when smooth change is enabled afterwards: the gain glides back to the
target of the constructor. -/
theorem enabling_smooth_reverts :
    (exec (new (1 : ℚ) 10 0) [.setGain 5, .setDiff 1, .run 1]).gain = 5 ∧
    (exec (new (1 : ℚ) 10 0) [.setGain 5, .setDiff 1, .run 1, .smooth true, .run 1, .run 1, .run 1, .run 1]).gain = 1 := by
  constructor <;> norm_num [exec, step, run, new, glide, limit]

/-- **C64 is violated** for every gain which is not the target: enabling smooth change does not change the gain at once, but each of the following runs moves it
towards the stale target by `diff`, until it is there. -/
theorem enabling_smooth_reverts_violated (s : St K) (hd : 0 ≤ s.diff) (hg : s.min ≤ s.gain ∧ s.gain ≤ s.max) (ht : s.min ≤ s.target ∧ s.target ≤ s.max) (xs : List K) :
    (step s (.smooth true)).1.gain = s.gain ∧
    |s.target - (runs (step s (.smooth true)).1 xs).gain| = max (|s.target - s.gain| - xs.length * s.diff) 0 :=
  ⟨rfl, smooth_distance xs { s with smooth := true } rfl hd hg ht⟩

/-- After `setGain 5` the target is still 1: after three runs the gain is 2. -/
example : |1 - (runs (step (exec (new (1 : ℚ) 10 0) [.setGain 5, .setDiff 1, .run 1]) (.smooth true)).1 [7, 8, 9]).gain| = 1 := by
  have := (enabling_smooth_reverts_violated (exec (new (1 : ℚ) 10 0) [.setGain 5, .setDiff 1, .run 1]) (by norm_num [exec, step, run, new, glide, limit])
    (by norm_num [exec, step, run, new, glide, limit]) (by norm_num [exec, step, run, new, glide, limit]) [7, 8, 9]).2
  norm_num [exec, step, run, new, glide, limit] at this ⊢
  exact this

/-- **C64 (partial).** Enabling smooth change keeps the gain if the target equals the gain, in particular as long as no gain was set without smooth
change.  Missing: after such a call the target is stale, see `enabling_smooth_reverts`. -/
theorem enabling_smooth_keeps_partial (s : St K) (h : s.target = s.gain) (hd : 0 ≤ s.diff) (hg : s.min ≤ s.gain ∧ s.gain ≤ s.max) (xs : List K) :
    (runs (step s (.smooth true)).1 xs).gain = s.gain := by
  have := smooth_distance xs { s with smooth := true } rfl hd hg (by rw [h]; exact hg)
  simp only [h, sub_self, abs_zero, zero_sub] at this
  have hn : 0 ≤ (xs.length : K) * s.diff := mul_nonneg (Nat.cast_nonneg _) hd
  rw [max_eq_right (by linarith)] at this
  have := abs_eq_zero.1 this
  have e : (step s (.smooth true)).1 = { s with target := s.gain, smooth := true } := by simp only [step, h]
  rw [e]
  linarith


example : (runs (step (exec (new (1 : ℚ) 10 0) [.setDiff 2]) (.smooth true)).1 [7, 8]).gain = 1 := by
  have := enabling_smooth_keeps_partial (exec (new (1 : ℚ) 10 0) [.setDiff 2]) (by norm_num [exec, step, new]) (by norm_num [exec, step, new]) (by norm_num [exec, step, new]) [7, 8]
  rw [this]; norm_num [exec, step, new]

/-! ### Parabolic gain -/

/-- **C65.** The parabolic profile is odd in its input. -/
theorem parabolic_odd (g sp v : ℝ) (hsp : 0 ≤ sp) : parabolic g sp (-v) = - parabolic g sp v := by
  unfold parabolic
  rw [abs_neg]
  by_cases h : |v| > sp
  · rw [if_pos h, if_pos h]
    rcases lt_trichotomy v 0 with h1 | h1 | h1
    · rw [if_pos (by linarith), if_neg (by linarith)]
      rw [show 2 * -v - sp = -2 * v - sp by ring]; ring
    · subst h1; rw [abs_zero] at h; linarith
    · rw [if_neg (by linarith), if_pos (by linarith)]
      rw [show -2 * -v - sp = 2 * v - sp by ring]; ring
  · rw [if_neg h, if_neg h]; ring


example : parabolic 2 2 (-5) = - parabolic 2 2 5 := parabolic_odd 2 2 5 (by norm_num)

/-- For inputs that are not negative the parabolic profile is linear up to the switch point and a square root above. -/
theorem parabolic_pos (g sp v : ℝ) (hv : 0 ≤ v) :
    parabolic g sp v = if v ≤ sp then g * v else g * Real.sqrt (sp * (2 * v - sp)) := by
  unfold parabolic
  rw [abs_of_nonneg hv]
  by_cases h : v > sp
  · rw [if_pos h, if_neg (not_le.2 h), if_pos hv]
  · rw [if_neg h, if_pos (not_lt.1 h)]

/-- **C65.** With a non-negative gain the parabolic profile never amplifies more than the linear gain and is non-decreasing on all inputs. -/
theorem parabolic_le_linear (g sp v : ℝ) (hg : 0 ≤ g) (hv : 0 ≤ v) (hsp : 0 ≤ sp) : 0 ≤ parabolic g sp v ∧ parabolic g sp v ≤ g * v := by
  rw [parabolic_pos g sp v hv]
  split
  · exact ⟨mul_nonneg hg hv, le_refl _⟩
  · refine ⟨mul_nonneg hg (Real.sqrt_nonneg _), mul_le_mul_of_nonneg_left ?_ hg⟩
    rw [Real.sqrt_le_left hv]
    nlinarith [sq_nonneg (v - sp)]


example : parabolic 2 2 5 ≤ 2 * 5 := (parabolic_le_linear 2 2 5 (by norm_num) (by norm_num) (by norm_num)).2

theorem parabolic_mono_pos (g sp v w : ℝ) (hg : 0 ≤ g) (hsp : 0 ≤ sp) (hv : 0 ≤ v) (hvw : v ≤ w) : parabolic g sp v ≤ parabolic g sp w := by
  rw [parabolic_pos g sp v hv, parabolic_pos g sp w (le_trans hv hvw)]
  split
  · rename_i h1
    split
    · exact mul_le_mul_of_nonneg_left hvw hg
    · rename_i h2
      refine mul_le_mul_of_nonneg_left (le_trans h1 ?_) hg
      apply Real.le_sqrt_of_sq_le
      nlinarith
  · rename_i h1
    have h2 : ¬ w ≤ sp := fun h => h1 (le_trans hvw h)
    rw [if_neg h2]
    refine mul_le_mul_of_nonneg_left (Real.sqrt_le_sqrt ?_) hg
    nlinarith

/-- **C65.** Monotone on the whole line. -/
theorem parabolic_monotone (g sp : ℝ) (hg : 0 ≤ g) (hsp : 0 ≤ sp) : Monotone (parabolic g sp) := by
  intro v w hvw
  rcases le_total 0 v with hv | hv
  · exact parabolic_mono_pos g sp v w hg hsp hv hvw
  · have hneg : parabolic g sp v = - parabolic g sp (-v) := by rw [parabolic_odd g sp v hsp, neg_neg]
    rcases le_total 0 w with hw | hw
    · have h1 := (parabolic_le_linear g sp (-v) hg (by linarith) hsp).1
      have h2 := (parabolic_le_linear g sp w hg hw hsp).1
      linarith
    · have hneg' : parabolic g sp w = - parabolic g sp (-w) := by rw [parabolic_odd g sp w hsp, neg_neg]
      have := parabolic_mono_pos g sp (-w) (-v) hg hsp (by linarith) (by linarith)
      linarith

/-- **C65.** No jump at the switch point: just above it the profile is arbitrarily close to the linear value, because its square grows linearly.
Stated as a bound: for `v ≥ sp` the deviation from the value at the switch point is at most `g * (v - sp)`. -/
theorem parabolic_no_jump (g sp v : ℝ) (hg : 0 ≤ g) (hsp : 0 ≤ sp) (hv : sp ≤ v) :
    parabolic g sp sp = g * sp ∧ |parabolic g sp v - g * sp| ≤ g * (v - sp) := by
  have h0 : parabolic g sp sp = g * sp := by rw [parabolic_pos g sp sp hsp, if_pos (le_refl _)]
  have hm := parabolic_mono_pos g sp sp v hg hsp hsp hv
  have hl := (parabolic_le_linear g sp v hg (le_trans hsp hv) hsp).2
  refine ⟨h0, ?_⟩
  rw [h0] at hm
  rw [abs_of_nonneg (by linarith)]
  linarith

example : (exec (new (1 : ℚ) 10 0) [.setDiff 2, .smooth true, .setGain 6, .run 1, .run 1]).gain = 5 := by
  norm_num [exec, step, run, new, glide, limit]
example : parabolic 2 2 5 = 8 := by
  rw [parabolic_pos 2 2 5 (by norm_num), if_neg (by norm_num), show (2:ℝ) * (2 * 5 - 2) = 4 * 4 by norm_num, Real.sqrt_mul_self (by norm_num)]
  norm_num

end Verif.Control.Gain
