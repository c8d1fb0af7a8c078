import Mathlib.Algebra.Order.Field.Basic
import Mathlib.Data.Rat.Floor
import Mathlib.Tactic.Linarith
import Mathlib.Tactic.Ring
import Mathlib.Tactic.NormNum
import Mathlib.Tactic.ByContra
/-!
C13: `ConditionTimeout` and `Wait`.  Clock readings are integers in nanoseconds (`steady_clock` of libstdc++), timeouts are elements of an ordered field.
-/
namespace Verif.Sequencer.Timeout

variable {K : Type} [Field K] [LinearOrder K] [IsStrictOrderedRing K]

/-- `ConditionTimeout`, ConditionTimeout.hpp:10-34. -/
structure Cond (K : Type) where
  started : Bool
  startTime : Int
  timeout : K

/-- Line 12. -/
def Cond.new : Cond K := { started := false, startTime := 0, timeout := 0 }

/-- `resetTimeout` at clock reading `t`, lines 26-29. -/
def Cond.reset (c : Cond K) (t : Int) : Cond K := { c with started := true, startTime := t }

/-- `setTimeoutTime`, line 25. -/
def Cond.setTimeout (c : Cond K) (v : K) : Cond K := { c with timeout := v }

/-- `validate` at clock reading `t`, lines 14-23; `duration_cast` truncates towards zero. -/
def Cond.validate (c : Cond K) (t : Int) : Cond K × Bool :=
  if c.timeout = 0 then (c, false)
  else if c.started = false then (c.reset t, false)
  else (c, decide (((Int.tdiv (t - c.startTime) 1000000 : Int) : K) > c.timeout * 1000))

/-- What happens to the condition: it is reset when its sequence is started (Step.hpp:51, Sequence.cpp:45) or restarted (BaseSequence.cpp:68), the time is set,
it is polled. -/
inductive Op (K : Type) where
  | reset (t : Int)
  | set (v : K)
  | poll (t : Int)

def Cond.op (c : Cond K) : Op K → Cond K
  | .reset t => c.reset t
  | .set v => c.setTimeout v
  | .poll t => (c.validate t).1

/-! ### Specification -/

/-- The timeout set last. -/
def lastSet (d : K) : List (Op K) → K
  | [] => d
  | .set v :: l => lastSet v l
  | _ :: l => lastSet d l

/-- The time of the last start or restart. -/
def lastReset (d : Option Int) : List (Op K) → Option Int
  | [] => d
  | .reset t :: l => lastReset (some t) l
  | _ :: l => lastReset d l

theorem fold_timeout (l : List (Op K)) : ∀ c : Cond K, (l.foldl Cond.op c).timeout = lastSet c.timeout l := by
  induction l with
  | nil => intro c; rfl
  | cons a l ih =>
    intro c
    rw [List.foldl_cons, ih]
    cases a with
    | reset t => rfl
    | set v => rfl
    | poll t =>
      simp only [lastSet, Cond.op, Cond.validate]
      split
      · rfl
      · split <;> rfl

theorem fold_start (l : List (Op K)) : ∀ (c : Cond K), c.started = true → (l.foldl Cond.op c).started = true ∧
    lastReset (some c.startTime) l = some (l.foldl Cond.op c).startTime := by
  induction l with
  | nil => intro c hc; exact ⟨hc, rfl⟩
  | cons a l ih =>
    intro c hc
    rw [List.foldl_cons]
    cases a with
    | reset t => exact ih (c.reset t) rfl
    | set v => exact ih (c.setTimeout v) hc
    | poll t =>
      have : c.op (.poll t) = c := by
        simp only [Cond.op, Cond.validate, hc]
        split <;> simp
      rw [this]; exact ih c hc

/-! ### The property theorems -/

/-- A timeout which is not set never fires, in any history. -/
theorem unset_never_fires (l : List (Op K)) (t : Int) (h : lastSet 0 l = 0) : ((l.foldl Cond.op Cond.new).validate t).2 = false := by
  have := fold_timeout l Cond.new
  rw [show (Cond.new : Cond K).timeout = 0 from rfl, h] at this
  unfold Cond.validate
  rw [if_pos this]

/-- Case: a timeout which was set and cancelled again with 0, a year after the start. -/
example : ((([Op.set (1/2), .reset 7, .set 0, .poll 9] : List (Op ℚ)).foldl Cond.op (Cond.new : Cond ℚ)).validate 31536000000000000).2 = false :=
  unset_never_fires _ _ rfl

/-- After the sequence was started at `t0`, for the last time, and with the timeout `v` set last, a poll at `t` fires exactly if `v` is not 0 and the whole
milliseconds since `t0` exceed `v` seconds. -/
theorem fires_iff (l1 l2 : List (Op K)) (t0 t : Int) (h2 : ∀ t', .reset t' ∉ l2) :
    ((((l1 ++ .reset t0 :: l2).foldl Cond.op Cond.new).validate t).2 = true ↔
      lastSet 0 (l1 ++ .reset t0 :: l2) ≠ 0 ∧ ((Int.tdiv (t - t0) 1000000 : Int) : K) > lastSet 0 (l1 ++ .reset t0 :: l2) * 1000) := by
  have h1 := fold_timeout (l1 ++ .reset t0 :: l2) Cond.new
  have hlr : ∀ l : List (Op K), (∀ t', .reset t' ∉ l) → lastReset (some t0) l = some t0 := by
    intro l
    induction l with
    | nil => intro _; rfl
    | cons a l ih =>
      intro h
      cases a with
      | reset t' => exact absurd (by simp) (h t')
      | set v => exact ih (fun t' ht => h t' (by simp [ht]))
      | poll v => exact ih (fun t' ht => h t' (by simp [ht]))
  have h3 := fold_start l2 ((l1.foldl Cond.op Cond.new).reset t0) rfl
  have hf : (l1 ++ .reset t0 :: l2).foldl Cond.op (Cond.new : Cond K) = l2.foldl Cond.op ((l1.foldl Cond.op Cond.new).reset t0) := by
    rw [List.foldl_append]; rfl
  rw [hf] at h1 ⊢
  have hst : (l2.foldl Cond.op ((l1.foldl Cond.op (Cond.new : Cond K)).reset t0)).startTime = t0 := by
    have h4 := h3.2
    rw [show ((l1.foldl Cond.op (Cond.new : Cond K)).reset t0).startTime = t0 from rfl, hlr l2 h2] at h4
    exact (Option.some.inj h4).symm
  have h0 : (Cond.new : Cond K).timeout = 0 := rfl
  rw [h0] at h1
  unfold Cond.validate
  rw [h1, hst, h3.1]
  by_cases hz : lastSet (0 : K) (l1 ++ .reset t0 :: l2) = 0
  · simp [hz]
  · simp [hz]

/-- It never fires early: more than the timeout has elapsed since the last start. -/
theorem never_early (l1 l2 : List (Op K)) (t0 t : Int) (h2 : ∀ t', .reset t' ∉ l2) (ht : t0 ≤ t)
    (h : (((l1 ++ .reset t0 :: l2).foldl Cond.op Cond.new).validate t).2 = true) :
    ((t - t0 : Int) : K) > lastSet 0 (l1 ++ .reset t0 :: l2) * 1000000000 := by
  obtain ⟨-, h4⟩ := (fires_iff l1 l2 t0 t h2).1 h
  have h5 : Int.tdiv (t - t0) 1000000 * 1000000 ≤ t - t0 := by
    rw [Int.tdiv_eq_ediv_of_nonneg (by omega)]
    omega
  have h6 : ((Int.tdiv (t - t0) 1000000 * 1000000 : Int) : K) ≤ ((t - t0 : Int) : K) := by exact_mod_cast h5
  push_cast at h6 ⊢
  linarith

/-- Case: it fired at 1.501 s, so more than half a second has passed since the start at 1 s. -/
example : ((1501000000 - 1000000000 : Int) : ℚ) > (1/2) * 1000000000 :=
  never_early [Op.set (1/2), .poll 5, .reset 7] [.poll 1200000000] 1000000000 1501000000 (by simp) (by decide) (by decide +kernel)

/-- It fires at any poll one millisecond or more after the timeout. -/
theorem not_late (l1 l2 : List (Op K)) (t0 t : Int) (h2 : ∀ t', .reset t' ∉ l2) (ht : t0 ≤ t) (hv : lastSet 0 (l1 ++ .reset t0 :: l2) ≠ 0)
    (h : ((t - t0 : Int) : K) ≥ lastSet 0 (l1 ++ .reset t0 :: l2) * 1000000000 + 1000000) :
    (((l1 ++ .reset t0 :: l2).foldl Cond.op Cond.new).validate t).2 = true := by
  rw [fires_iff l1 l2 t0 t h2]
  refine ⟨hv, ?_⟩
  have h5 : t - t0 < Int.tdiv (t - t0) 1000000 * 1000000 + 1000000 := by
    rw [Int.tdiv_eq_ediv_of_nonneg (by omega)]
    omega
  have h6 : ((t - t0 : Int) : K) < ((Int.tdiv (t - t0) 1000000 * 1000000 + 1000000 : Int) : K) := by exact_mod_cast h5
  push_cast at h6 h
  linarith

/-- Non-trivial case: timeout 1/2 s, started at 1 s, then polls; it fires at 1.501 s and not at 1.5005 s. -/
example : (((([Op.set (1/2), .poll 5, .reset 7] ++ Op.reset 1000000000 :: [.poll 1200000000] : List (Op ℚ)).foldl Cond.op (Cond.new : Cond ℚ)).validate 1501000000).2 = true) ∧
    (((([Op.set (1/2), .poll 5, .reset 7] ++ Op.reset 1000000000 :: [.poll 1200000000] : List (Op ℚ)).foldl Cond.op (Cond.new : Cond ℚ)).validate 1500500000).2 = false) := by
  decide +kernel

/-! ### `Wait`, Wait.hpp:35-42 -/

/-- Polls of a `Wait` step called with waiting time `w` (seconds) and whose action ran at clock reading `t0`: `polls` are the clock readings of the polls
with whether a monitor aborted the step in this poll (BaseSequence.cpp:50-56 with `checkExitCondition` of Wait.hpp:39).  The result is the clock reading when
the step ended and whether it was aborted. -/
def waitLoop (w : K) (t0 : Int) : List (Int × Bool) → Option (Int × Bool)
  | [] => none
  | (t, aborted) :: l =>
    if ((t - t0 : Int) : K) / 1000000000 > w then some (t, false)
    else if aborted then some (t, true)
    else waitLoop w t0 l

/-- A `Wait` step which ends without being aborted has waited longer than its waiting time, and ends at the first poll at which this is so. -/
theorem wait_not_early (w : K) (t0 t : Int) (l : List (Int × Bool)) (h : waitLoop w t0 l = some (t, false)) :
    ((t - t0 : Int) : K) > w * 1000000000 ∧
    ∃ l1 a l2, l = l1 ++ (t, a) :: l2 ∧ ∀ p ∈ l1, ((p.1 - t0 : Int) : K) ≤ w * 1000000000 := by
  induction l with
  | nil => cases h
  | cons p l ih =>
    obtain ⟨t', a⟩ := p
    unfold waitLoop at h
    split at h
    · rename_i hc
      simp only [Option.some.injEq, Prod.mk.injEq, and_true] at h
      subst h
      exact ⟨by rw [gt_iff_lt, lt_div_iff₀ (by norm_num)] at hc; exact hc, [], a, l, rfl, by simp⟩
    · rename_i hc
      split at h
      · simp at h
      · obtain ⟨h1, l1, a1, l2, h2, h3⟩ := ih h
        refine ⟨h1, (t', a) :: l1, a1, l2, by rw [h2]; rfl, ?_⟩
        intro p hp
        rcases List.mem_cons.1 hp with rfl | hp
        · rw [gt_iff_lt, lt_div_iff₀ (by norm_num), not_lt] at hc; exact hc
        · exact h3 p hp

/-- Case: a wait of half a second. -/
example : ((500000011 - 10 : Int) : ℚ) > (1/2) * 1000000000 :=
  (wait_not_early (1/2 : ℚ) 10 500000011 [(100000000, false), (300000010, false), (500000011, false), (700000000, false)] (by decide +kernel)).1

/-- It ends: if some poll is late enough, the step has ended. -/
theorem wait_ends (w : K) (t0 : Int) (l : List (Int × Bool)) (h : ∃ p ∈ l, ((p.1 - t0 : Int) : K) > w * 1000000000) : waitLoop w t0 l ≠ none := by
  induction l with
  | nil => simp at h
  | cons p l ih =>
    obtain ⟨t', a⟩ := p
    unfold waitLoop
    split
    · simp
    · rename_i hc
      split
      · simp
      · apply ih
        obtain ⟨p, hp, h1⟩ := h
        rcases List.mem_cons.1 hp with rfl | hp
        · rw [gt_iff_lt, lt_div_iff₀ (by norm_num)] at hc; exact absurd h1 hc
        · exact ⟨p, hp, h1⟩

example : waitLoop (1/2 : ℚ) 10 [(100000000, false), (300000010, false), (500000011, false), (700000000, false)] = some (500000011, false) := by decide +kernel

end Verif.Sequencer.Timeout
