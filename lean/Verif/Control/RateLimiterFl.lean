import Verif.Control.RateLimiter
import Verif.Control.TimeDiff
import Mathlib.Tactic.NormNum
/-!
`RateLimiter` (includes/eeros/control/RateLimiter.hpp:79-93, 141-150) for scalar signals with the rounding of doubles.  State and constructors are those of
`Verif.Control.RateLimiter`, time differences those of `Verif.Control.TimeDiff`.
-/
namespace Verif.Control.RateLimiterFl
open Verif.Common.Round
open Verif.Control.TimeDiff (dt secs)
open Verif.Control.RateLimiter (St)

/-- `rate > r` for `rate = num / dt`. -/
def rateGt (num d r : ℚ) : Bool := if d = 0 then decide (0 < num) else decide (r < rnd (num / d))
/-- `rate < r` for `rate = num / dt`. -/
def rateLt (num d r : ℚ) : Bool := if d = 0 then decide (num < 0) else decide (rnd (num / d) < r)

/-- `calculateResult`, 142-150, every operation rounds. -/
def limit (s : St ℚ) (x d : ℚ) : ℚ :=
  match s.prev with
  | none => x
  | some p =>
    if rateGt (rnd (x - p)) d s.rising then rnd (rnd (d * s.rising) + p)
    else if rateLt (rnd (x - p)) d s.falling then rnd (rnd (d * s.falling) + p)
    else x

/-- `run`, 79-93; the output is the new `prev`. -/
def run (s : St ℚ) (x : ℚ) (ts : Nat) : St ℚ :=
  let out := if s.enabled then limit s x (dt s.prevTs ts) else x
  { s with prev := some out, prevTs := ts }

/-- Runs with a constant input at these times. -/
def holds (s : St ℚ) (x : ℚ) (ts : List Nat) : St ℚ := ts.foldl (fun s t => run s x t) s

/-! ### Properties: C149 -/

theorem le_of_rnd_le {r y : ℚ} (hr : IsDouble r) (h : r < rnd y) : r < y := by
  by_contra hc
  have := rnd_mono (not_lt.1 hc)
  rw [hr] at this
  linarith

theorem lt_of_rnd_lt {r y : ℚ} (hr : IsDouble r) (h : rnd y < r) : y < r := by
  by_contra hc
  have := rnd_mono (not_lt.1 hc)
  rw [hr] at this
  linarith

theorem rnd_nonpos {x : ℚ} (h : x ≤ 0) : rnd x ≤ 0 := by
  have := rnd_mono h
  rwa [rnd_zero] at this

/-- The three cases of a run with a positive time difference. -/
theorem limit_cases (s : St ℚ) (p x d : ℚ) (hp : s.prev = some p) (hd : 0 < d) :
    (s.rising < rnd (rnd (x - p) / d) ∧ limit s x d = rnd (rnd (d * s.rising) + p)) ∨
    (rnd (rnd (x - p) / d) ≤ s.rising ∧ rnd (rnd (x - p) / d) < s.falling ∧ limit s x d = rnd (rnd (d * s.falling) + p)) ∨
    (rnd (rnd (x - p) / d) ≤ s.rising ∧ s.falling ≤ rnd (rnd (x - p) / d) ∧ limit s x d = x) := by
  unfold limit rateGt rateLt
  rw [hp]
  simp only [hd.ne', if_false, decide_eq_true_eq]
  by_cases h1 : s.rising < rnd (rnd (x - p) / d)
  · left; exact ⟨h1, by rw [if_pos h1]⟩
  · right
    by_cases h2 : rnd (rnd (x - p) / d) < s.falling
    · left; exact ⟨not_lt.1 h1, h2, by rw [if_neg h1, if_pos h2]⟩
    · right; exact ⟨not_lt.1 h1, not_lt.1 h2, by rw [if_neg h1, if_neg h2]⟩

theorem rise_bound {p x d r : ℚ} (hd : 0 < d) (hr : 0 ≤ r) :
    (rnd (rnd (x - p) / d) ≤ r → x - p ≤ r * d * (1 + 4 / 2 ^ 53)) ∧
    rnd (rnd (d * r) + p) - p ≤ r * d * (1 + 4 / 2 ^ 53) + |p| / 2 ^ 53 := by
  have hrd : 0 ≤ r * d := mul_nonneg hr hd.le
  constructor
  · intro h
    rcases le_or_gt (x - p) 0 with h0 | h0
    · refine le_trans h0 ?_
      positivity
    · have h1 := abs_le.1 (rnd_rel (x - p))
      rw [abs_of_pos h0] at h1
      have hA : 0 < rnd (x - p) := by
        have : (x - p) / 2 ^ 53 < x - p := by norm_num; linarith
        linarith
      have hq : 0 < rnd (x - p) / d := div_pos hA hd
      have h2 := abs_le.1 (rnd_rel (rnd (x - p) / d))
      rw [abs_of_pos hq] at h2
      have h3 : rnd (x - p) / d * (1 - 1 / 2 ^ 53) ≤ r := by linarith
      have h4 : rnd (x - p) * (1 - 1 / 2 ^ 53) ≤ r * d := by
        have := mul_le_mul_of_nonneg_right h3 hd.le
        rw [show rnd (x - p) / d * (1 - 1 / 2 ^ 53) * d = rnd (x - p) * (1 - 1 / 2 ^ 53) by field_simp] at this
        exact this
      norm_num at h1 h4 ⊢
      linarith
  · have h1 := abs_le.1 (rnd_rel (d * r))
    rw [abs_of_nonneg (mul_nonneg hd.le hr), mul_comm d r] at h1
    have h2 := abs_le.1 (rnd_rel (rnd (r * d) + p))
    have h0 : 0 ≤ rnd (r * d) := rnd_nonneg hrd
    have h3 : |rnd (r * d) + p| ≤ rnd (r * d) + |p| := by
      refine le_trans (abs_add_le _ _) ?_
      rw [abs_of_nonneg h0]
    rw [mul_comm d r]
    norm_num at h1 h2 ⊢
    linarith

theorem limit_neg (s : St ℚ) (p x d : ℚ) (hp : s.prev = some p) (hd : 0 < d) (hf : s.falling ≤ s.rising) :
    limit { s with prev := some (-p), rising := -s.falling, falling := -s.rising } (-x) d = - limit s x d := by
  have e : rnd (rnd (-x - -p) / d) = - rnd (rnd (x - p) / d) := by
    rw [show -x - -p = -(x - p) by ring, rnd_neg_eq, neg_div, rnd_neg_eq]
  have e2 : ∀ r : ℚ, rnd (rnd (d * -r) + -p) = - rnd (rnd (d * r) + p) := by
    intro r
    rw [mul_neg, rnd_neg_eq, ← neg_add, rnd_neg_eq]
  unfold limit rateGt rateLt
  rw [hp]
  simp only [hd.ne', if_false, decide_eq_true_eq, e, e2]
  by_cases h1 : s.rising < rnd (rnd (x - p) / d)
  · rw [if_pos h1, if_neg (by linarith), if_pos (by linarith)]
  · rw [if_neg h1]
    by_cases h2 : rnd (rnd (x - p) / d) < s.falling
    · rw [if_pos h2, if_pos (by linarith)]
    · rw [if_neg h2, if_neg (by linarith), if_neg (by linarith)]

/-- C149: the change per run exceeds the rate at most by four roundings of the change and one of the output. -/
theorem rate_bounded_partial (s : St ℚ) (he : s.enabled = true) (p : ℚ) (hp : s.prev = some p) (hpd : IsDouble p) (hf : s.falling ≤ 0) (hr : 0 ≤ s.rising)
    (x : ℚ) (t : Nat) (hd : 0 < dt s.prevTs t) :
    ∃ y, (run s x t).prev = some y ∧ y - p ≤ s.rising * dt s.prevTs t * (1 + 4 / 2 ^ 53) + |p| / 2 ^ 53 ∧
      s.falling * dt s.prevTs t * (1 + 4 / 2 ^ 53) - |p| / 2 ^ 53 ≤ y - p := by
  refine ⟨limit s x (dt s.prevTs t), by simp [run, he], ?_⟩
  generalize dt s.prevTs t = d at *
  have key : ∀ (s : St ℚ) (p x : ℚ), s.prev = some p → IsDouble p → s.falling ≤ 0 → 0 ≤ s.rising →
      limit s x d - p ≤ s.rising * d * (1 + 4 / 2 ^ 53) + |p| / 2 ^ 53 := by
    intro s p x hp hpd hf hr
    obtain ⟨b1, b2⟩ := rise_bound (p := p) (x := x) hd hr
    have hpos : 0 ≤ |p| / 2 ^ 53 := by positivity
    have hpos2 : 0 ≤ s.rising * d * (1 + 4 / 2 ^ 53) := by positivity
    rcases limit_cases s p x d hp hd with ⟨-, h⟩ | ⟨-, -, h⟩ | ⟨h1, -, h⟩
    · rw [h]; exact b2
    · have : rnd (rnd (d * s.falling) + p) ≤ p := by
        have h1 : rnd (d * s.falling) ≤ 0 := rnd_nonpos (mul_nonpos_of_nonneg_of_nonpos hd.le hf)
        calc rnd (rnd (d * s.falling) + p) ≤ rnd p := rnd_mono (by linarith)
          _ = p := hpd
      rw [h]; linarith
    · rw [h]; linarith [b1 h1]
  refine ⟨key s p x hp hpd hf hr, ?_⟩
  have h := key { s with prev := some (-p), rising := -s.falling, falling := -s.rising } (-p) (-x) rfl (by unfold IsDouble at *; rw [rnd_neg_eq, hpd])
    (by simpa using hr) (by simpa using hf)
  rw [limit_neg s p x d hp hd (by linarith), abs_neg] at h
  simp only at h
  linarith

theorem towards_up (s : St ℚ) (p x d : ℚ) (hp : s.prev = some p) (hpd : IsDouble p) (hf : s.falling ≤ 0) (hr : 0 ≤ s.rising)
    (hrd : IsDouble s.rising) (hd : 0 < d) (hx : p ≤ x) : p ≤ limit s x d ∧ limit s x d ≤ x + 3 * (|x| + |p|) / 2 ^ 53 := by
  have h0 : 0 ≤ x - p := by linarith
  have hA : 0 ≤ rnd (x - p) := rnd_nonneg h0
  have hq : 0 ≤ rnd (rnd (x - p) / d) := rnd_nonneg (div_nonneg hA hd.le)
  have hpos : 0 ≤ 3 * (|x| + |p|) / 2 ^ 53 := by positivity
  rcases limit_cases s p x d hp hd with ⟨h1, h⟩ | ⟨-, h2, h⟩ | ⟨h1, -, h⟩
  · rw [h]
    constructor
    · calc p = rnd p := hpd.symm
        _ ≤ rnd (rnd (d * s.rising) + p) := rnd_mono (by linarith [rnd_nonneg (mul_nonneg hd.le hr)])
    · have h2 := le_of_rnd_le hrd h1
      rw [lt_div_iff₀ hd] at h2
      have h3 : rnd (d * s.rising) ≤ rnd (x - p) := by
        have := rnd_mono (x := d * s.rising) (y := rnd (x - p)) (by linarith)
        rwa [rnd_idem] at this
      have h4 := abs_le.1 (rnd_rel (x - p))
      have h5 : rnd (rnd (d * s.rising) + p) ≤ rnd (rnd (x - p) + p) := rnd_mono (by linarith)
      have h6 := abs_le.1 (rnd_rel (rnd (x - p) + p))
      have h7 : |rnd (x - p) + p| ≤ |x| + |x - p| / 2 ^ 53 := by
        rw [show rnd (x - p) + p = x + (rnd (x - p) - (x - p)) by ring]
        refine le_trans (abs_add_le _ _) ?_
        linarith [rnd_rel (x - p)]
      have h8 : |x - p| ≤ |x| + |p| := abs_sub x p
      have := abs_nonneg x
      have := abs_nonneg p
      norm_num at h4 h6 h7 ⊢
      linarith
  · linarith
  · rw [h]; exact ⟨hx, by linarith⟩

/-- C149: the output moves towards the input, never away from it, and passes it at most by a few roundings. -/
theorem towards_partial (s : St ℚ) (he : s.enabled = true) (p : ℚ) (hp : s.prev = some p) (hpd : IsDouble p) (hf : s.falling ≤ 0) (hr : 0 ≤ s.rising)
    (hrd : IsDouble s.rising) (hfd : IsDouble s.falling) (x : ℚ) (t : Nat) (hd : 0 < dt s.prevTs t) :
    ∃ y, (run s x t).prev = some y ∧ (p ≤ x → p ≤ y ∧ y ≤ x + 3 * (|x| + |p|) / 2 ^ 53) ∧ (x ≤ p → x - 3 * (|x| + |p|) / 2 ^ 53 ≤ y ∧ y ≤ p) := by
  refine ⟨limit s x (dt s.prevTs t), by simp [run, he], fun hx => towards_up s p x _ hp hpd hf hr hrd hd hx, fun hx => ?_⟩
  have h := towards_up { s with prev := some (-p), rising := -s.falling, falling := -s.rising } (-p) (-x) _ rfl (by unfold IsDouble at *; rw [rnd_neg_eq, hpd])
    (by simpa using hr) (by simpa using hf) (by unfold IsDouble at *; rw [rnd_neg_eq, hfd]) hd (by linarith)
  rw [limit_neg s p x _ hp hd (by linarith), abs_neg, abs_neg] at h
  constructor <;> linarith [h.1, h.2]

/-- C149: runs without a new time stamp leave the output where it is. -/
theorem equal_times (s : St ℚ) (he : s.enabled = true) (p : ℚ) (hp : s.prev = some p) (hpd : IsDouble p) (x : ℚ) (t : Nat) (hd : dt s.prevTs t = 0) :
    (run s x t).prev = some p := by
  have hz : ∀ r : ℚ, rnd (rnd (0 * r) + p) = p := fun r => by rw [zero_mul, rnd_zero, zero_add]; exact hpd
  have hlim : limit s x 0 = p := by
    unfold limit rateGt rateLt
    rw [hp]
    simp only [if_true, decide_eq_true_eq, hz]
    have hr := rnd_rel (x - p)
    rcases lt_trichotomy (x - p) 0 with h | h | h
    · have : rnd (x - p) < 0 := by
        rw [abs_of_neg h] at hr
        have := (abs_le.1 hr).2
        norm_num at this ⊢
        linarith
      rw [if_neg (by linarith), if_pos this]
    · rw [h, rnd_zero]; simp; linarith
    · have : 0 < rnd (x - p) := by
        rw [abs_of_pos h] at hr
        have := (abs_le.1 hr).1
        norm_num at this ⊢
        linarith
      rw [if_pos this]
  simp only [run, he, if_true, hd, hlim]

example : (run { prev := some 1, prevTs := 7000000, falling := -3, rising := 3, enabled := true } 5 7000000).prev = some 1 :=
  equal_times _ rfl 1 rfl (by unfold IsDouble; decide +kernel) 5 7000000 (by decide +kernel)

/-- C149 violated: the output passes the input.  The rate 3 and the period 3 ms, the previous output is one step below 0 and the input a little below 0. -/
theorem passes_input_violated :
    ∃ (s : St ℚ) (p x : ℚ) (t : Nat), s.enabled = true ∧ s.prev = some p ∧ IsDouble p ∧ IsDouble x ∧ s.rising = 3 ∧ s.falling = -3 ∧ p < x ∧
      ∃ y, (run s x t).prev = some y ∧ x < y :=
  ⟨{ prev := some (-(rnd (3 * rnd (3 / 1000)))), prevTs := 0, falling := -3, rising := 3, enabled := true }, -(rnd (3 * rnd (3 / 1000))), -(1 / 2 ^ 80), 3000000,
    rfl, rfl, by unfold IsDouble; decide +kernel, by unfold IsDouble; decide +kernel, rfl, rfl, by decide +kernel, 0, by decide +kernel, by decide +kernel⟩

/-- Below a bound of the values a rounding is at most the distance of the doubles at the bound. -/
theorem rnd_err {y M : ℚ} (c : ℚ) (hM : 0 < M) (h : |y| ≤ c * M) : |rnd y - y| ≤ c * ulp M := by
  have h1 := rnd_rel y
  have hc : 0 ≤ c := by
    by_contra hc
    have : c * M < 0 := mul_neg_of_neg_of_pos (by linarith) hM
    linarith [abs_nonneg y]
  have h2 : M ≤ 2 ^ 53 * ulp M := by
    have := (scaled hM).2
    rw [div_lt_iff₀ (ulp_pos M)] at this
    exact this.le
  have h3 : c * M ≤ c * (2 ^ 53 * ulp M) := mul_le_mul_of_nonneg_left h2 hc
  have h4 : |y| ≤ c * (2 ^ 53 * ulp M) := le_trans h h3
  refine le_trans h1 ?_
  rw [div_le_iff₀ (by norm_num)]
  linarith

theorem ulp_le {M : ℚ} (hM : 0 < M) : ulp M ≤ M := by
  have := (scaled hM).1
  rw [le_div_iff₀ (ulp_pos M)] at this
  have h0 := ulp_pos M
  norm_num at this
  linarith

/-- One run towards a constant input: it arrives or comes nearer by half of the greatest change. -/
theorem nearer (s : St ℚ) (p x d c M : ℚ) (hp : s.prev = some p) (hrd : IsDouble s.rising) (hfd : IsDouble s.falling) (hd : 0 < d) (hM : 0 < M)
    (hx : |x| + |x - p| ≤ M) (hc : 32 * ulp M ≤ c) (hr : c ≤ s.rising * d) (hf : c ≤ -s.falling * d) :
    limit s x d = x ∨ |x - limit s x d| ≤ |x - p| - c / 2 := by
  have hu := ulp_pos M
  have hrp : 0 < s.rising := by
    by_contra h
    have := mul_nonpos_of_nonpos_of_nonneg (not_lt.1 h) hd.le
    linarith
  have hfp : s.falling < 0 := by
    by_contra h
    have := mul_nonneg (not_lt.1 h) hd.le
    linarith
  have key : ∀ (s : St ℚ) (p x : ℚ), s.prev = some p → IsDouble s.rising → s.falling < 0 → c ≤ s.rising * d → 0 < s.rising → |x| + |x - p| ≤ M →
      s.rising < rnd (rnd (x - p) / d) → |x - rnd (rnd (d * s.rising) + p)| ≤ |x - p| - c / 2 := by
    intro s p x hp hrd hf hr hrp hx h1
    have h2 := le_of_rnd_le hrd h1
    rw [lt_div_iff₀ hd] at h2
    have hxp : |x - p| ≤ 1 * M := by linarith [abs_nonneg x]
    have e1 := abs_le.1 (rnd_err 1 hM hxp)
    have hpos : 0 < x - p := by linarith
    have hmul : 0 < s.rising * d := mul_pos hrp hd
    have hle := ulp_le hM
    have hxp' := abs_of_pos hpos
    rw [hxp'] at hx hxp
    have habs := abs_le.1 (le_trans (by linarith [hpos.le] : |x| ≤ M) (le_refl M))
    have e2 := abs_le.1 (rnd_err (y := d * s.rising) 2 hM (by rw [abs_of_pos (by linarith)]; linarith))
    have e3 := abs_le.1 (rnd_err (y := rnd (d * s.rising) + p) 6 hM (by rw [abs_le]; constructor <;> linarith))
    rw [hxp', abs_le]
    constructor <;> linarith
  rcases limit_cases s p x d hp hd with ⟨h1, h⟩ | ⟨-, h2, h⟩ | ⟨-, -, h⟩
  · right; rw [h]; exact key s p x hp hrd hfp hr hrp hx h1
  · right
    have h3 := key { s with prev := some (-p), rising := -s.falling, falling := -s.rising } (-p) (-x) rfl
      (by unfold IsDouble at *; rw [rnd_neg_eq, hfd]) (by simpa using hrp) hf (by simpa using hfp)
      (by rw [abs_neg, show -x - -p = -(x - p) by ring, abs_neg]; exact hx)
      (by
        rw [show -x - -p = -(x - p) by ring, rnd_neg_eq, neg_div, rnd_neg_eq]
        simpa using h2)
    rw [show -x - -p = -(x - p) by ring, abs_neg, mul_neg, rnd_neg_eq, ← neg_add, rnd_neg_eq,
      show -x - -rnd (rnd (d * s.falling) + p) = -(x - rnd (rnd (d * s.falling) + p)) by ring, abs_neg] at h3
    rw [h]; exact h3
  · left; exact h

/-- At these times the greatest changes are at least `c`. -/
def Steady (s : St ℚ) (c : ℚ) : ℕ → List ℕ → Prop
  | _, [] => True
  | a, b :: l => 0 < dt a b ∧ c ≤ s.rising * dt a b ∧ c ≤ -s.falling * dt a b ∧ Steady s c b l

theorem at_input (s : St ℚ) (x d : ℚ) (hp : s.prev = some x) (hd : 0 < d) (hf : s.falling ≤ 0) (hr : 0 ≤ s.rising) : limit s x d = x := by
  rcases limit_cases s x x d hp hd with ⟨h1, -⟩ | ⟨-, h1, -⟩ | ⟨-, -, h⟩
  · rw [sub_self, rnd_zero, zero_div, rnd_zero] at h1; linarith
  · rw [sub_self, rnd_zero, zero_div, rnd_zero] at h1; linarith
  · exact h

/-- C149: with changes per run which are not too small compared to the values, the output is exactly the constant input after finitely many runs, however the times vary. -/
theorem arrives_partial (ts : List ℕ) : ∀ (s : St ℚ) (p x c M : ℚ), s.enabled = true → s.prev = some p → IsDouble s.rising → IsDouble s.falling →
    s.falling ≤ 0 → 0 ≤ s.rising → 0 < M → |x| + |x - p| ≤ M → 32 * ulp M ≤ c → Steady s c s.prevTs ts → |x - p| < ts.length * (c / 2) → (holds s x ts).prev = some x := by
  induction ts with
  | nil => intro s p x c M _ _ _ _ _ _ _ _ _ _ h; simp at h; linarith [abs_nonneg (x - p)]
  | cons t ts ih =>
    intro s p x c M he hp hrd hfd hf hr hM hx hc hS hn
    obtain ⟨hd, hr', hf', hS'⟩ := hS
    have hrun : run s x t = { s with prev := some (limit s x (dt s.prevTs t)), prevTs := t } := by simp [run, he]
    have hcpos : 0 < c := by linarith [ulp_pos M]
    have hst : ∀ (l : List ℕ) (a : ℕ) (o : Option ℚ) (q : ℕ), Steady s c a l → Steady { s with prev := o, prevTs := q } c a l := by
      intro l
      induction l with
      | nil => intro _ _ _ _; trivial
      | cons b l ih => intro a o q h; exact ⟨h.1, h.2.1, h.2.2.1, ih b o q h.2.2.2⟩
    have stay : ∀ (l : List ℕ) (s : St ℚ), s.enabled = true → s.prev = some x → s.falling ≤ 0 → 0 ≤ s.rising → Steady s c s.prevTs l → (holds s x l).prev = some x := by
      intro l
      induction l with
      | nil => intro s _ h _ _ _; exact h
      | cons b l ihl =>
        intro s he h hf hr hS
        obtain ⟨hd, a1, a2, hS⟩ := hS
        have e : run s x b = { s with prev := some x, prevTs := b } := by simp [run, he, at_input s x _ h hd hf hr]
        show (holds (run s x b) x l).prev = some x
        rw [e]
        refine ihl _ he rfl hf hr ?_
        have : ∀ (l : List ℕ) (a : ℕ) (o : Option ℚ) (q : ℕ), Steady s c a l → Steady { s with prev := o, prevTs := q } c a l := by
          intro l
          induction l with
          | nil => intro _ _ _ _; trivial
          | cons b l ih => intro a o q h; exact ⟨h.1, h.2.1, h.2.2.1, ih b o q h.2.2.2⟩
        exact this l b _ _ hS
    show (holds (run s x t) x ts).prev = some x
    rw [hrun]
    rcases nearer s p x (dt s.prevTs t) c M hp hrd hfd hd hM hx hc hr' hf' with h | h
    · rw [h]
      exact stay ts _ he rfl hf hr (hst ts t _ _ hS')
    · refine ih _ (limit s x (dt s.prevTs t)) x c M he rfl hrd hfd hf hr hM (by linarith) hc (hst ts t _ _ hS') ?_
      rw [List.length_cons] at hn
      push_cast at hn
      linarith

theorem ulp_double (p : ℚ) (k : ℤ) : IsDouble (ulp p * 2 ^ k) := by
  have := rnd_exact 1 (Int.log 2 p - 52 + k) (by norm_num)
  unfold IsDouble ulp
  rw [← zpow_add₀ (by norm_num)]
  simpa using this

/-- C149 violated: if the greatest change per run is less than half the distance of the doubles at the output, the output never moves, however far the input is and however many runs there are. -/
theorem stuck_violated (ts : List ℕ) : ∀ (s : St ℚ) (p x : ℚ), s.enabled = true → s.prev = some p → IsDouble p → 0 < p → 0 ≤ s.rising → p + ulp p ≤ x →
    (∀ a b, (a, b) ∈ (s.prevTs :: ts).zip ts → 0 < dt a b ∧ rnd (dt a b * s.rising) < ulp p / 2) → (holds s x ts).prev = some p := by
  induction ts with
  | nil => intro s p x _ hp _ _ _ _ _; exact hp
  | cons t ts ih =>
    intro s p x he hp hpd hp0 hr hx hS
    obtain ⟨hd, hlt⟩ := hS s.prevTs t (by simp)
    have hout : limit s x (dt s.prevTs t) = p := by
      generalize dt s.prevTs t = d at *
      have hu := ulp_pos p
      have h1 : d * s.rising < ulp p / 2 := lt_of_rnd_lt (by have := ulp_double p (-1); rwa [zpow_neg_one, ← div_eq_mul_inv] at this) hlt
      have h2 : ulp p ≤ rnd (x - p) := by
        have h := rnd_mono (x := ulp p) (y := x - p) (by linarith)
        have e := ulp_double p 0
        rw [zpow_zero, mul_one] at e
        rwa [e] at h
      have h3 : 2 * s.rising < rnd (x - p) / d := by rw [lt_div_iff₀ hd]; linarith
      have h5 : 0 < rnd (x - p) / d := by linarith
      have h4 := abs_le.1 (rnd_rel (rnd (x - p) / d))
      rw [abs_of_pos h5] at h4
      have h6 : s.rising < rnd (rnd (x - p) / d) := by
        have : rnd (x - p) / d / 2 ^ 53 ≤ rnd (x - p) / d / 2 := div_le_div_of_nonneg_left h5.le (by norm_num) (by norm_num)
        linarith
      rcases limit_cases s p x d hp hd with ⟨-, h⟩ | ⟨h7, -⟩ | ⟨h7, -⟩
      · rw [h, add_comm]
        exact absorb hpd hp0 (rnd_nonneg (mul_nonneg hd.le hr)) hlt
      · linarith
      · linarith
    have hrun : run s x t = { s with prev := some p, prevTs := t } := by simp [run, he, hout]
    show (holds (run s x t) x ts).prev = some p
    rw [hrun]
    refine ih _ p x he rfl hpd hp0 hr hx ?_
    intro a b hab
    exact hS a b (by simp only [List.zip_cons_cons]; exact List.mem_cons_of_mem _ hab)

/-- Case of `rate_bounded_partial` and `towards_partial`: rate 3, 3 ms. -/
example : 0 < dt 5000000 8000000 ∧ IsDouble (1 / 4) ∧ IsDouble 3 ∧ (1 / 4 : ℚ) ≤ 7 := by
  refine ⟨by decide +kernel, ?_, ?_, by norm_num⟩ <;> unfold IsDouble <;> decide +kernel

/-- Case of `arrives_partial`: from 0 to 1/1024 with the rate 1 and three runs of 1 ms. -/
example : (holds { prev := some 0, prevTs := 0, falling := -1, rising := 1, enabled := true } (1 / 1024) [1000000, 2000000, 3000000]).prev = some (1 / 1024) := by
  have hu : ulp 2 = 1 / 2 ^ 51 := by
    have : Int.log 2 (2:ℚ) = 1 := by have := Int.log_zpow (R := ℚ) (b := 2) (by norm_num) 1; simpa using this
    unfold ulp
    rw [this]; norm_num
  refine arrives_partial _ _ 0 (1 / 1024) (99 / 100000) 2 rfl rfl ?_ ?_ (by norm_num) (by norm_num) (by norm_num) ?_ (by rw [hu]; norm_num) ?_ ?_
  · unfold IsDouble; decide +kernel
  · unfold IsDouble; decide +kernel
  · rw [abs_of_pos, abs_of_pos] <;> norm_num
  · refine ⟨?_, ?_, ?_, ?_, ?_, ?_, ?_, ?_, ?_, trivial⟩ <;> decide +kernel
  · rw [abs_of_pos] <;> norm_num

/-- Case of `stuck_violated`: at the value 1 with the rate 2^-50 per second and runs every 62.5 ms. -/
example : rnd (dt 62500000 125000000 * (1 / 2 ^ 50)) < ulp 1 / 2 ∧ 0 < dt 62500000 125000000 := by
  have hu : ulp 1 = 1 / 2 ^ 52 := by
    have : Int.log 2 (1:ℚ) = 0 := Int.log_one_right 2
    unfold ulp
    rw [this]; norm_num
  rw [hu]
  exact ⟨by decide +kernel, by decide +kernel⟩

/-- Case of `rate_bounded_partial`: 1 ms with 3 per second from the value 1. -/
example : ∃ y, (run { prev := some 1, prevTs := 7000000, falling := -3, rising := 3, enabled := true } 5 8000000).prev = some y ∧ y - 1 ≤ 1 / 300 := by
  obtain ⟨y, h, h1, _⟩ := rate_bounded_partial { prev := some 1, prevTs := 7000000, falling := -3, rising := 3, enabled := true } rfl 1 rfl (by unfold IsDouble; decide +kernel)
    (by norm_num) (by norm_num) 5 8000000 (by decide +kernel)
  refine ⟨y, h, h1.trans ?_⟩
  have : dt 7000000 8000000 ≤ 1 / 999 := by decide +kernel
  norm_num at this ⊢
  linarith

end Verif.Control.RateLimiterFl
