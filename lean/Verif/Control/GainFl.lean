import Verif.Control.Gain
import Verif.Common.Double
/-!
The smooth change of the block `Gain` with the rounding of doubles (includes/eeros/control/Gain.hpp:107-142) and what the rounding does to C37.  State and setters as in
`Verif.Control.Gain`; gain and value are scalars.
-/
namespace Verif.Control.GainFl
open Verif.Common.Round
open Verif.Control.Gain (St limit)

/-- Lines 110-124, additions round. -/
def glide (g target diff : ℚ) : ℚ :=
  let g1 := if g < target then (if rnd (g + diff) > target then target else rnd (g + diff)) else g
  if g1 > target then (if rnd (g1 - diff) < target then target else rnd (g1 - diff)) else g1

/-- `run`, 107-142, linear gain (`parabolic` off). -/
def run (s : St ℚ) (x : ℚ) : St ℚ × ℚ :=
  let g := if s.smooth then glide s.gain s.target s.diff else s.gain
  let g := limit g s.min s.max
  ({ s with gain := g }, if s.enabled then rnd (g * x) else x)

/-- Several runs without other calls. -/
def runs (s : St ℚ) : List ℚ → St ℚ
  | [] => s
  | x :: xs => runs (run s x).1 xs

/-! ### Properties: C144 -/

theorem glide_up {g t d : ℚ} (h : g < t) : glide g t d = min t (rnd (g + d)) := by
  unfold glide
  rw [if_pos h]
  by_cases hc : rnd (g + d) > t
  · rw [if_pos hc, if_neg (lt_irrefl t), min_eq_left hc.le]
  · rw [if_neg hc, if_neg hc, min_eq_right (not_lt.1 hc)]

theorem glide_down {g t d : ℚ} (h : t < g) : glide g t d = max t (rnd (g - d)) := by
  unfold glide
  rw [if_neg (not_lt.2 h.le), if_pos h]
  by_cases hc : rnd (g - d) < t
  · rw [if_pos hc, max_eq_left hc.le]
  · rw [if_neg hc, max_eq_right (not_lt.1 hc)]

theorem glide_same (t d : ℚ) : glide t t d = t := by simp [glide]

/-- C144: with doubles the gain never passes the target and never moves away from it. -/
theorem no_overshoot (g t d : ℚ) (hg : IsDouble g) (hd : 0 ≤ d) :
    (g ≤ t → g ≤ glide g t d ∧ glide g t d ≤ t) ∧ (t ≤ g → t ≤ glide g t d ∧ glide g t d ≤ g) := by
  constructor
  · intro h
    rcases eq_or_lt_of_le h with h | h
    · rw [h, glide_same]; exact ⟨le_refl _, le_refl _⟩
    · rw [glide_up h]
      refine ⟨le_min h.le ?_, min_le_left _ _⟩
      calc g = rnd g := hg.symm
        _ ≤ rnd (g + d) := rnd_mono (by linarith)
  · intro h
    rcases eq_or_lt_of_le h with h | h
    · rw [h, glide_same]; exact ⟨le_refl _, le_refl _⟩
    · rw [glide_down h]
      refine ⟨le_max_left _ _, max_le h.le ?_⟩
      calc rnd (g - d) ≤ rnd g := rnd_mono (by linarith)
        _ = g := hg

example : 1 ≤ glide 1 (11 / 10) (1 / 5) ∧ glide 1 (11 / 10) (1 / 5) ≤ 11 / 10 :=
  (no_overshoot 1 (11 / 10) (1 / 5) (by unfold IsDouble; simpa using rnd_exact 1 0 (by norm_num)) (by norm_num)).1 (by norm_num)

theorem glide_double {g t d : ℚ} (hg : IsDouble g) (ht : IsDouble t) : IsDouble (glide g t d) := by
  rcases lt_trichotomy g t with h | h | h
  · rw [glide_up h]
    rcases min_choice t (rnd (g + d)) with h | h <;> rw [h]
    · exact ht
    · exact rnd_idem _
  · rw [h, glide_same]; exact ht
  · rw [glide_down h]
    rcases max_choice t (rnd (g - d)) with h | h <;> rw [h]
    · exact ht
    · exact rnd_idem _

theorem rnd_error_le {x M : ℚ} (hM : 0 < M) (hx : |x| ≤ M) : |rnd x - x| ≤ ulp M / 2 := by
  have key : ∀ y : ℚ, 0 < y → y ≤ M → |fl y - y| ≤ ulp M / 2 := by
    intro y hy hyM
    refine le_trans (fl_error hy) ?_
    have := ulp_mono hy hyM
    linarith
  rcases lt_trichotomy x 0 with h | h | h
  · rw [rnd_neg h]
    have := key (-x) (by linarith) (by rwa [abs_of_neg h] at hx)
    rw [show -fl (-x) - x = -(fl (-x) - -x) by ring, abs_neg]
    exact this
  · rw [h, rnd_zero]
    have := ulp_pos M
    simp only [sub_zero, abs_zero]
    linarith
  · rw [rnd_pos h.le]
    exact key x h (by rwa [abs_of_pos h] at hx)

/-- One step towards the target: it arrives or comes nearer by at least half the difference. -/
theorem glide_progress {g t d M : ℚ} (ht : IsDouble t) (hg : IsDouble g) (hM : 0 < M) (hgM : |g| ≤ M) (htM : |t| ≤ M) (hd : ulp M ≤ d) :
    glide g t d = t ∨ |t - glide g t d| ≤ |t - g| - d / 2 := by
  have hu := ulp_pos M
  rw [abs_le] at hgM htM
  have hno := no_overshoot g t d hg (by linarith)
  rcases lt_trichotomy g t with h | h | h
  · rcases le_or_gt (g + d) t with hc | hc
    · right
      have hb : |g + d| ≤ M := abs_le.2 ⟨by linarith, by linarith⟩
      have he := abs_le.1 (rnd_error_le hM hb)
      obtain ⟨-, h2⟩ := hno.1 h.le
      rw [abs_of_nonneg (by linarith : 0 ≤ t - glide g t d), abs_of_pos (by linarith)]
      have hle : rnd (g + d) ≤ t := le_trans (rnd_mono hc) (le_of_eq ht)
      rw [glide_up h, min_eq_right hle]
      linarith
    · left
      have hle : t ≤ rnd (g + d) := le_trans (le_of_eq ht.symm) (rnd_mono hc.le)
      rw [glide_up h, min_eq_left hle]
  · left; rw [h, glide_same]
  · rcases le_or_gt t (g - d) with hc | hc
    · right
      have hb : |g - d| ≤ M := abs_le.2 ⟨by linarith, by linarith⟩
      have he := abs_le.1 (rnd_error_le hM hb)
      obtain ⟨h1, -⟩ := hno.2 h.le
      rw [abs_of_nonpos (by linarith : t - glide g t d ≤ 0), abs_of_neg (by linarith)]
      have hle : t ≤ rnd (g - d) := le_trans (le_of_eq ht.symm) (rnd_mono hc)
      rw [glide_down h, max_eq_right hle]
      linarith
    · left
      have hle : rnd (g - d) ≤ t := le_trans (rnd_mono hc.le) (le_of_eq ht)
      rw [glide_down h, max_eq_left hle]

theorem limit_id {g mn mx : ℚ} (h1 : mn ≤ g) (h2 : g ≤ mx) : limit g mn mx = g := by
  simp [limit, not_lt.2 h1, not_lt.2 h2]

theorem run_smooth (s : St ℚ) (x : ℚ) (hs : s.smooth = true) (hd : 0 ≤ s.diff) (hg : s.min ≤ s.gain ∧ s.gain ≤ s.max) (ht : s.min ≤ s.target ∧ s.target ≤ s.max)
    (hg2 : IsDouble s.gain) : (run s x).1 = { s with gain := glide s.gain s.target s.diff } := by
  have hno := no_overshoot s.gain s.target s.diff hg2 hd
  have hb : s.min ≤ glide s.gain s.target s.diff ∧ glide s.gain s.target s.diff ≤ s.max := by
    rcases le_total s.gain s.target with h | h
    · obtain ⟨h1, h2⟩ := hno.1 h; exact ⟨by linarith [hg.1], by linarith [ht.2]⟩
    · obtain ⟨h1, h2⟩ := hno.2 h; exact ⟨by linarith [ht.1], by linarith [hg.2]⟩
  simp only [run, hs, if_true, limit_id hb.1 hb.2]

/-- C144: if the difference is not smaller than the distance of the doubles at `M`, a bound of gain and target, the gain is exactly the target after finitely many runs. -/
theorem arrives_partial (xs : List ℚ) : ∀ (s : St ℚ) (M : ℚ), s.smooth = true → s.min ≤ s.gain ∧ s.gain ≤ s.max → s.min ≤ s.target ∧ s.target ≤ s.max →
    IsDouble s.gain → IsDouble s.target → 0 < M → |s.gain| ≤ M → |s.target| ≤ M → ulp M ≤ s.diff →
    |s.target - s.gain| ≤ xs.length * (s.diff / 2) → (runs s xs).gain = s.target := by
  induction xs with
  | nil =>
    intro s M _ _ _ _ _ _ _ _ _ hn
    simp only [List.length_nil, Nat.cast_zero, zero_mul, abs_nonpos_iff, sub_eq_zero] at hn
    exact hn.symm
  | cons x xs ih =>
    intro s M hs hg ht hg2 ht2 hM hgM htM hd hn
    have hu := ulp_pos M
    have hd0 : 0 ≤ s.diff := by linarith
    have hno := no_overshoot s.gain s.target s.diff hg2 hd0
    have hrun := run_smooth s x hs hd0 hg ht hg2
    have hb : s.min ≤ glide s.gain s.target s.diff ∧ glide s.gain s.target s.diff ≤ s.max ∧ |glide s.gain s.target s.diff| ≤ M := by
      rw [abs_le] at hgM htM
      rcases le_total s.gain s.target with h | h
      · obtain ⟨h1, h2⟩ := hno.1 h; exact ⟨by linarith [hg.1], by linarith [ht.2], abs_le.2 ⟨by linarith, by linarith⟩⟩
      · obtain ⟨h1, h2⟩ := hno.2 h; exact ⟨by linarith [ht.1], by linarith [hg.2], abs_le.2 ⟨by linarith, by linarith⟩⟩
    change (runs (run s x).1 xs).gain = s.target
    rw [hrun]
    refine ih { s with gain := glide s.gain s.target s.diff } M hs ⟨hb.1, hb.2.1⟩ ht (glide_double hg2 ht2) ht2 hM hb.2.2 htM hd ?_
    rcases glide_progress ht2 hg2 hM hgM htM hd with h | h
    · change |s.target - glide s.gain s.target s.diff| ≤ _
      rw [h, sub_self, abs_zero]
      positivity
    · change |s.target - glide s.gain s.target s.diff| ≤ xs.length * (s.diff / 2)
      simp only [List.length_cons, Nat.cast_succ] at hn
      linarith

/-- C144 violated: if the difference is less than half the distance of the doubles at the gain, the gain never moves towards a higher target. -/
theorem stuck_violated (s : St ℚ) (hs : s.smooth = true) (hg : s.min ≤ s.gain ∧ s.gain ≤ s.max) (ht : s.min ≤ s.target ∧ s.target ≤ s.max) (hg2 : IsDouble s.gain)
    (hpos : 0 < s.gain) (hlt : s.gain < s.target) (hd0 : 0 ≤ s.diff) (hd : s.diff < ulp s.gain / 2) (xs : List ℚ) : (runs s xs).gain = s.gain ∧ (runs s xs).gain < s.target := by
  have hgl : glide s.gain s.target s.diff = s.gain := by
    rw [glide_up hlt, absorb hg2 hpos hd0 hd, min_eq_right hlt.le]
  have : runs s xs = s := by
    induction xs with
    | nil => rfl
    | cons x xs ih =>
      change runs (run s x).1 xs = s
      rw [run_smooth s x hs hd0 hg ht hg2, hgl]
      exact ih
  rw [this]
  exact ⟨rfl, hlt⟩

theorem ulp_two_pow (e : ℤ) : ulp (2 ^ e) = 2 ^ (e - 52) := by
  unfold ulp
  have : Int.log 2 ((2:ℚ) ^ e) = e := by exact_mod_cast Int.log_zpow (R := ℚ) (b := 2) (by norm_num) e
  rw [this]

/-- Case of `stuck_violated`: gain 1, target 2, difference 10⁻¹⁷. -/
example (xs : List ℚ) : (runs { gain := 1, max := 10, min := 0, target := 2, diff := 1 / 10 ^ 17, enabled := true, smooth := true } xs).gain = 1 := by
  refine (stuck_violated { gain := 1, max := 10, min := 0, target := 2, diff := 1 / 10 ^ 17, enabled := true, smooth := true } rfl (by norm_num) (by norm_num) ?_
    (by norm_num) (by norm_num) (by norm_num) ?_ xs).1
  · have := rnd_exact 1 0 (by norm_num)
    simpa [IsDouble] using this
  · have := ulp_two_pow 0
    norm_num at this ⊢
    rw [this]
    norm_num

/-- Case of `arrives_partial`: from 1 to 2 with steps of 0.3 (four steps, also seven suffice for the bound). -/
example : (runs { gain := 1, max := 10, min := 0, target := 2, diff := 3 / 10, enabled := true, smooth := true } [5, 5, 5, 5, 5, 5, 5]).gain = 2 := by
  refine arrives_partial _ { gain := 1, max := 10, min := 0, target := 2, diff := 3 / 10, enabled := true, smooth := true } (2 ^ (1:ℤ)) rfl (by norm_num) (by norm_num) ?_ ?_
    (by norm_num) (by norm_num) (by norm_num) ?_ (by norm_num)
  · have := rnd_exact 1 0 (by norm_num)
    simpa [IsDouble] using this
  · have := rnd_exact 2 0 (by norm_num)
    simpa [IsDouble] using this
  · rw [ulp_two_pow]
    norm_num

/-- C144: a disabled block passes its input on unchanged; an enabled one multiplies it with the gain it has after the step, rounded once. -/
theorem output_spec (s : St ℚ) (x : ℚ) :
    (s.enabled = false → (run s x).2 = x) ∧ (s.enabled = true → |(run s x).2 - (run s x).1.gain * x| ≤ |(run s x).1.gain * x| / 2 ^ 53) := by
  constructor
  · intro h; simp [run, h]
  · intro h
    have e : (run s x).2 = rnd ((run s x).1.gain * x) := by simp [run, h]
    rw [e]
    exact rnd_rel _

/-- A disabled block with gain 3 and input 1/3, and the same block enabled. -/
example : (run { gain := 3, max := 5, min := -5, target := 3, diff := 1, enabled := false, smooth := false } (1 / 10)).2 = 1 / 10 ∧
    (run { gain := 3, max := 5, min := -5, target := 3, diff := 1, enabled := true, smooth := false } (1 / 10)).2 = 5404319552844595 / 2 ^ 54 := by
  decide +kernel

end Verif.Control.GainFl
