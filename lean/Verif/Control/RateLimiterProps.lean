import Verif.Control.RateLimiter
import Mathlib.Data.Rat.Cast.Order
import Mathlib.Tactic.Linarith
import Mathlib.Tactic.NormNum
import Mathlib.Tactic.Ring
namespace Verif.Control.RateLimiter
variable {K : Type} [Field K] [LinearOrder K] [IsStrictOrderedRing K]

/-- Specification of the state: the last output and its time stamp for a history of calls (`none` before the first run). -/
def lastRun : List (Op K) → Option Nat → Option Nat
  | [], t => t
  | .run _ t :: ops, _ => lastRun ops (some t)
  | _ :: ops, t => lastRun ops t

/-- After any history the state refers to the last run: the value it compares with is the last output, stamped with the last input time. -/
theorem prev_is_last_output (f r : K) (ops : List (Op K)) :
    ((exec (new f r) ops).prev = none ↔ lastRun ops none = none) ∧
    ∀ t, lastRun ops none = some t → (exec (new f r) ops).prevTs = t := by
  suffices H : ∀ (ops : List (Op K)) (s : St K) (o : Option Nat), (s.prev = none ↔ o = none) →
      (∀ t, o = some t → s.prevTs = t) →
      ((exec s ops).prev = none ↔ lastRun ops o = none) ∧ ∀ t, lastRun ops o = some t → (exec s ops).prevTs = t from
    H ops _ none (by simp [new]) (by simp)
  intro ops
  induction ops with
  | nil => intro s o h1 h2; exact ⟨h1, h2⟩
  | cons op ops ih =>
    intro s o h1 h2
    cases op with
    | run x t => exact ih _ (some t) (by simp [step, run]) (by intro t' h; simpa [step, run] using h)
    | enable => exact ih _ o h1 h2
    | disable => exact ih _ o h1 h2
    | setRate f r => exact ih _ o h1 h2

/-- **C29, bound.** An enabled limiter with previous output `p` at time stamp `t0` and a later input stamp `t` changes its output by at
least `falling * dt` and at most `rising * dt`, for every input. -/
theorem rate_bounded (s : St K) (he : s.enabled = true) (hr : s.falling ≤ s.rising) (p : K) (hp : s.prev = some p)
    (x : K) (t : Nat) (ht : s.prevTs < t) :
    ∃ y, (run s x t).prev = some y ∧
      s.falling * (((t : K) - s.prevTs) / 1000000000) ≤ y - p ∧ y - p ≤ s.rising * (((t : K) - s.prevTs) / 1000000000) := by
  set dt : K := ((t : K) - s.prevTs) / 1000000000 with hdt
  have hpos : 0 < dt := by
    rw [hdt]; apply div_pos _ (by norm_num)
    have : (s.prevTs : K) < t := by exact_mod_cast ht
    linarith
  have hd : (t : K) / 1000000000 - (s.prevTs : K) / 1000000000 = dt := by rw [hdt, sub_div]
  refine ⟨limit s x dt, by simp only [run, he, if_true, hd], ?_⟩
  simp only [limit, hp, rateGt, rateLt, hpos.ne', if_false]
  by_cases h1 : s.rising < (x - p) / dt
  · simp only [h1, decide_true, if_true]
    constructor
    · nlinarith
    · linarith
  · simp only [h1, decide_false]
    rw [not_lt, div_le_iff₀ hpos] at h1
    by_cases h2 : (x - p) / dt < s.falling
    · simp only [h2, decide_true, if_true]
      constructor
      · simp; linarith
      · simp; nlinarith
    · simp only [h2, decide_false]
      rw [not_lt, le_div_iff₀ hpos] at h2
      simp; constructor <;> linarith


/-- From 0 towards 5 within two seconds at the rates 1 and -2. -/
example : let s : St ℚ := exec (new (-2) 1) [.enable, .run 0 1000000000]
    s.enabled = true ∧ s.falling ≤ s.rising ∧ s.prev = some 0 ∧ s.prevTs < 3000000000 ∧ (run s 5 3000000000).prev = some 2 ∧
    (run s (-5) 3000000000).prev = some (-4) := by
  norm_num [exec, step, new, run, limit, rateGt, rateLt]

/-- **C29, follow.** If the input respects the rates from the previous output, it is passed exactly. -/
theorem follows_input (s : St K) (p : K) (hp : s.prev = some p) (x : K) (t : Nat) (ht : s.prevTs < t)
    (h1 : s.falling * (((t : K) - s.prevTs) / 1000000000) ≤ x - p)
    (h2 : x - p ≤ s.rising * (((t : K) - s.prevTs) / 1000000000)) : (run s x t).prev = some x := by
  set dt : K := ((t : K) - s.prevTs) / 1000000000 with hdt
  have hpos : 0 < dt := by
    rw [hdt]; apply div_pos _ (by norm_num)
    have : (s.prevTs : K) < t := by exact_mod_cast ht
    linarith
  have hd : (t : K) / 1000000000 - (s.prevTs : K) / 1000000000 = dt := by rw [hdt, sub_div]
  have e1 : ¬ s.rising < (x - p) / dt := by rw [not_lt, div_le_iff₀ hpos]; exact h2
  have e2 : ¬ (x - p) / dt < s.falling := by rw [not_lt, le_div_iff₀ hpos]; exact h1
  simp only [run, hd, limit, hp, rateGt, rateLt, hpos.ne', if_false, e1, e2]
  simp


/-- A change by 1.5 within two seconds at the rates 1 and -2. -/
example : (run (exec (new (-2 : ℚ) 1) [.enable, .run 0 1000000000]) (3/2) 3000000000).prev = some (3/2) := by
  refine follows_input _ 0 ?_ _ _ ?_ ?_ ?_ <;> norm_num [exec, step, new, run, limit, rateGt, rateLt]

/-- **C29, limited direction.** Otherwise the output moves towards the input with exactly the limiting rate. -/
theorem limited_exactly (s : St K) (he : s.enabled = true) (p : K) (hp : s.prev = some p) (x : K) (t : Nat)
    (ht : s.prevTs < t) :
    (s.rising * (((t : K) - s.prevTs) / 1000000000) < x - p →
      (run s x t).prev = some (p + s.rising * (((t : K) - s.prevTs) / 1000000000))) ∧
    (s.falling ≤ s.rising → x - p < s.falling * (((t : K) - s.prevTs) / 1000000000) →
      (run s x t).prev = some (p + s.falling * (((t : K) - s.prevTs) / 1000000000))) := by
  set dt : K := ((t : K) - s.prevTs) / 1000000000 with hdt
  have hpos : 0 < dt := by
    rw [hdt]; apply div_pos _ (by norm_num)
    have : (s.prevTs : K) < t := by exact_mod_cast ht
    linarith
  have hd : (t : K) / 1000000000 - (s.prevTs : K) / 1000000000 = dt := by rw [hdt, sub_div]
  constructor
  · intro h
    have e1 : s.rising < (x - p) / dt := by rw [lt_div_iff₀ hpos]; exact h
    simp only [run, he, if_true, hd, limit, hp, rateGt, hpos.ne', if_false, e1, decide_true]
    congr 1; ring
  · intro hr h
    have e2 : (x - p) / dt < s.falling := by rw [div_lt_iff₀ hpos]; exact h
    have e1 : ¬ s.rising < (x - p) / dt := not_lt.2 (le_trans e2.le hr)
    simp only [run, he, if_true, hd, limit, hp, rateGt, rateLt, hpos.ne', if_false, e1, e2, decide_true, decide_false]
    simp; ring

/-- A repeated time stamp leaves the output of an enabled limiter unchanged. -/
theorem same_stamp_holds (s : St K) (he : s.enabled = true) (p : K) (hp : s.prev = some p) (x : K) :
    (run s x s.prevTs).prev = some p := by
  simp only [run, he, if_true, limit, hp, rateGt, rateLt, sub_self]
  rcases lt_trichotomy (x - p) 0 with h | h | h
  · simp [h, not_lt.2 h.le]
  · simp [h]; linarith
  · simp [h]


example : (run (exec (new (-2 : ℚ) 1) [.enable, .run 3 1000000000]) 50 1000000000).prev = some 3 := by
  have := same_stamp_holds (exec (new (-2 : ℚ) 1) [.enable, .run 3 1000000000]) (by norm_num [exec, step, new, run]) 3 (by norm_num [exec, step, new, run, limit]) 50
  simpa [exec, step, new, run, limit] using this

/-- The first run and every run of a disabled limiter pass the input; a new limiter is disabled. -/
theorem passes_unlimited (s : St K) (h : s.enabled = false ∨ s.prev = none) (x : K) (t : Nat) :
    (run s x t).prev = some x := by
  rcases h with h | h
  · simp [run, h]
  · simp [run, limit, h]


example : (run (new (-2 : ℚ) 1) 50 7).prev = some 50 := passes_unlimited _ (by simp [new]) _ _

/-- **C29, one rate.** A limiter constructed with one rate never moves by more than this rate times the elapsed time, upwards or
downwards, after any history of runs and of switching it on and off. -/
theorem symmetric_bound (rate : K) (hrate : 0 ≤ rate) (ops : List (Op K))
    (hops : ∀ op ∈ ops, match op with | .setRate _ _ => False | _ => True)
    (he : (exec (newSym rate) ops).enabled = true) (p : K) (hp : (exec (newSym rate) ops).prev = some p)
    (x : K) (t : Nat) (ht : (exec (newSym rate) ops).prevTs < t) :
    ∃ y, (exec (newSym rate) (ops ++ [.run x t])).prev = some y ∧
      |y - p| ≤ rate * (((t : K) - (exec (newSym rate) ops).prevTs) / 1000000000) := by
  have H : ∀ (ops : List (Op K)) (s : St K), (∀ op ∈ ops, match op with | .setRate _ _ => False | _ => True) →
      (exec s ops).falling = s.falling ∧ (exec s ops).rising = s.rising := by
    intro ops
    induction ops with
    | nil => intro s _; exact ⟨rfl, rfl⟩
    | cons op ops ih =>
      intro s h
      have ho := h op (by simp)
      have hr := ih (step s op) (fun o ho => h o (by simp [ho]))
      cases op with
      | setRate f r => exact absurd ho id
      | run x t => exact hr
      | enable => exact hr
      | disable => exact hr
  obtain ⟨h1, h2⟩ := H ops (newSym rate) hops
  have h1 : (exec (newSym rate) ops).falling = -rate := h1
  have h2 : (exec (newSym rate) ops).rising = rate := h2
  obtain ⟨y, g1, g2, g3⟩ := rate_bounded _ he (by rw [h1, h2]; linarith) p hp x t ht
  rw [h1] at g2
  rw [h2] at g3
  refine ⟨y, ?_, abs_le.2 ⟨by linarith, g3⟩⟩
  rw [← g1]; simp [exec, step]

/-- Non-vacuity: rate 1 per second, input falls from 0 to -5 within 2 s. -/
example : (exec (newSym (1 : ℚ)) [.enable, .run 0 1000000000]).prev = some 0 ∧
    (exec (newSym (1 : ℚ)) ([.enable, .run 0 1000000000] ++ [.run (-5) 3000000000])).prev = some (-2) := by
  norm_num [exec, step, newSym, new, run, limit, rateGt, rateLt]

/-- Non-vacuity: rate 1 per second, input jumps from 0 to 5 within 2 s. -/
example : (exec (newSym (1 : ℚ)) [.enable, .run 0 1000000000, .run 5 3000000000]).prev = some 2 := by
  norm_num [exec, step, newSym, new, run, limit, rateGt]

/-- Specification: of the last call of `enable` or `disable` in a history, was there one and was it `enable`? -/
def switchedOn : List (Op K) → Bool → Bool
  | [], b => b
  | .enable :: ops, _ => switchedOn ops true
  | .disable :: ops, _ => switchedOn ops false
  | _ :: ops, b => switchedOn ops b

/-- **C29, switching.** A limiter limits exactly if `enable` was called and `disable` was not called since; until then every run passes its input unchanged. -/
theorem off_until_enabled (f r : K) (ops : List (Op K)) :
    (exec (new f r) ops).enabled = switchedOn ops false ∧
    (switchedOn ops false = false → ∀ x t, (exec (new f r) (ops ++ [.run x t])).prev = some x) := by
  have H : ∀ (ops : List (Op K)) (s : St K), (exec s ops).enabled = switchedOn ops s.enabled := by
    intro ops
    induction ops with
    | nil => intro s; rfl
    | cons op ops ih =>
      intro s
      cases op <;> exact ih _
  refine ⟨H ops _, fun h x t => ?_⟩
  rw [exec, List.foldl_append]
  exact passes_unlimited _ (Or.inl ((H ops _).trans h)) x t

example : (exec (new (-2 : ℚ) 1) [.run 0 1000000000, .enable, .run 1 2000000000, .disable, .setRate (-1) 1, .run 50 3000000000]).prev = some 50 :=
  (off_until_enabled (-2) 1 [.run 0 1000000000, .enable, .run 1 2000000000, .disable, .setRate (-1) 1]).2 rfl 50 3000000000

end Verif.Control.RateLimiter
