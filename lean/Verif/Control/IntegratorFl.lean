import Verif.Control.Integrator
import Verif.Control.TimeDiff
import Verif.Common.Error
import Mathlib.Algebra.BigOperators.Group.List.Basic
/-!
The integrator `I` (includes/eeros/control/I.hpp:53-75) with the rounding of doubles: an enabled integrator after its first run, without a safety level; the state is that of `Verif.Control.Integrator`.
-/
namespace Verif.Control.IntegratorFl
open Verif.Common.Round
open Verif.Control.TimeDiff (secs dt)
open Verif.Control.Integrator (St)

/-- Lines 68-71, the operations round. -/
def next (s : St ℚ) (valprev valin : Option ℚ) (d : ℚ) : Option ℚ :=
  match valprev, valin with
  | some p, some x => let val := rnd (p + rnd (x * d))
    if val < s.upper ∧ s.lower < val then some val else some p
  | p, _ => p

/-- `run`, 53-75. -/
def run (s : St ℚ) (valin : Option ℚ) (ts : ℕ) (levelReached : Bool) : St ℚ :=
  let enabled := if s.hasLevel then levelReached else s.enabled
  let d : ℚ := if s.first then 0 else dt s.prevTs ts
  let output := if enabled then next s s.prev valin d else s.prev
  { s with enabled := enabled, first := false, out := output, prev := output, prevTs := ts }

/-- Runs with finite inputs. -/
def runs (s : St ℚ) (xs : List (ℚ × ℕ)) : St ℚ := xs.foldl (fun s x => run s (some x.1) x.2 true) s

/-! ### Properties: C146 -/

/-- The difference of two doubles within a factor of two is a double (Sterbenz). -/
theorem sterbenz {a b : ℚ} (ha : IsDouble a) (hb : IsDouble b) (h0 : 0 < b) (h1 : b ≤ a) (h2 : a ≤ 2 * b) : IsDouble (a - b) := by
  obtain ⟨n, -, hn2, hn⟩ := double_digits hb h0
  have ha0 : 0 < a := lt_of_lt_of_le h0 h1
  have hu := ulp_pos b
  have hpow : (2:ℚ) ^ Int.log 2 b ≤ a := le_trans (log_bounds h0).1 h1
  obtain ⟨m, hm⟩ := fl_multiple hpow
  unfold IsDouble at ha
  rw [rnd_pos ha0.le] at ha
  rw [ha] at hm
  change a = (m : ℚ) * ulp b at hm
  have e : a - b = ((m - n : ℤ) : ℚ) * 2 ^ (Int.log 2 b - 52) := by
    change a - b = ((m - n : ℤ) : ℚ) * ulp b
    push_cast
    linarith
  have h3 : (0:ℚ) ≤ ((m - n : ℤ) : ℚ) ∧ ((m - n : ℤ) : ℚ) ≤ n := by
    have e' : a - b = ((m - n : ℤ) : ℚ) * ulp b := e
    constructor
    · by_contra hc
      have := mul_neg_of_neg_of_pos (not_le.1 hc) hu
      linarith
    · by_contra hc
      have := mul_lt_mul_of_pos_right (not_le.1 hc) hu
      rw [← e', ← hn] at this
      linarith
  have h4 : 0 ≤ m - (n : ℤ) := by exact_mod_cast h3.1
  have h5 : m - (n : ℤ) ≤ n := by exact_mod_cast h3.2
  unfold IsDouble
  rw [e]
  apply rnd_exact
  rw [abs_of_nonneg h4]
  have : ((n : ℕ) : ℤ) < 2 ^ 53 := by exact_mod_cast hn2
  omega

theorem secs_double (t : ℕ) : IsDouble (secs t) := by
  have h := rnd_idem (fl t / 1000000000)
  rw [rnd_pos (div_nonneg (fl_nonneg _) (by norm_num))] at h
  exact h

theorem secs_pos {t : ℕ} (h : 0 < t) : 0 < secs t := by
  have he := (abs_le.1 (TimeDiff.secs_error t)).1
  have ht : (0:ℚ) < t := by exact_mod_cast h
  linarith

/-- C146: the subtraction of two times within a factor of two is exact. -/
theorem dt_exact (a b : ℕ) (ha : 0 < a) (h1 : a ≤ b) (h2 : secs b ≤ 2 * secs a) : dt a b = secs b - secs a :=
  sterbenz (secs_double b) (secs_double a) (secs_pos ha) (TimeDiff.secs_mono h1) h2

example : dt 3600000000000 3600001000000 = secs 3600001000000 - secs 3600000000000 := dt_exact _ _ (by norm_num) (by norm_num) (by decide +kernel)

/-- Time stamps which rise, at most by a factor of two per cycle. -/
def Rising : ℕ → List ℕ → Prop
  | _, [] => True
  | a, b :: l => a ≤ b ∧ secs b ≤ 2 * secs a ∧ Rising b l

/-- Sum of the computed time differences. -/
def elapsed : ℕ → List ℕ → ℚ
  | _, [] => 0
  | a, b :: l => dt a b + elapsed b l

/-- C146: the errors of the time differences do not add up: whatever the number of cycles, their sum is the difference of the last and the first time. -/
theorem elapsed_exact (a : ℕ) (l : List ℕ) (ha : 0 < a) (h : Rising a l) : elapsed a l = secs ((a :: l).getLast (by simp)) - secs a := by
  induction l generalizing a with
  | nil => simp [elapsed]
  | cons b l ih =>
    obtain ⟨h1, h2, h3⟩ := h
    rw [elapsed, dt_exact a b ha h1 h2, ih b (by omega) h3]
    simp

/-- The increments of the integral with the computed time differences. -/
def increments : ℕ → List (ℚ × ℕ) → List ℚ
  | _, [] => []
  | a, (x, b) :: l => x * dt a b :: increments b l

def absSum (l : List ℚ) : ℚ := (l.map (fun x => |x|)).sum

theorem absSum_nonneg (l : List ℚ) : 0 ≤ absSum l := by
  induction l with
  | nil => simp [absSum]
  | cons a l ih =>
    have : absSum (a :: l) = |a| + absSum l := by simp [absSum]
    rw [this]
    have := abs_nonneg a
    linarith

/-- C146: the error of an integral away from the limits.  `m` bounds the magnitudes of the initial value and all increments; every cycle contributes one rounding. -/
theorem integral_error_partial (xs : List (ℚ × ℕ)) : ∀ (s : St ℚ) (v y m : ℚ) (k : ℕ), s.enabled = true → s.hasLevel = false → s.first = false → s.prev = some v → 1 ≤ k →
    Approx k v y m → (1 + gam (k + xs.length)) * (m + absSum (increments s.prevTs xs)) < s.upper → s.lower < - ((1 + gam (k + xs.length)) * (m + absSum (increments s.prevTs xs))) →
    ∃ w, (runs s xs).prev = some w ∧ Approx (k + xs.length) w (y + (increments s.prevTs xs).sum) (m + absSum (increments s.prevTs xs)) := by
  induction xs with
  | nil =>
    intro s v y m k _ _ _ hv _ ha _ _
    exact ⟨v, hv, by simpa [increments, absSum] using ha⟩
  | cons x xs ih =>
    obtain ⟨x, b⟩ := x
    intro s v y m k he hl hf hv hk ha hu hlo
    have hinc : absSum (increments s.prevTs ((x, b) :: xs)) = |x * dt s.prevTs b| + absSum (increments b xs) := by simp [increments, absSum]
    rw [hinc] at hu hlo
    have hx : Approx 1 (rnd (x * dt s.prevTs b)) (x * dt s.prevTs b) |x * dt s.prevTs b| := (Approx.exact _).round
    have hval := (ha.add (hx.weaken hk)).round
    have hg : gam (k + 1) ≤ gam (k + ((x, b) :: xs).length) := gam_mono (by simp)
    have h0 := absSum_nonneg (increments b xs)
    have hm := hval.nonneg
    have habs := hval.abs_le'
    have hbound : (1 + gam (k + 1)) * (m + |x * dt s.prevTs b|) ≤ (1 + gam (k + ((x, b) :: xs).length)) * (m + (|x * dt s.prevTs b| + absSum (increments b xs))) := by
      apply mul_le_mul (by linarith) (by linarith) hm
      have := gam_nonneg (k + ((x, b) :: xs).length)
      linarith
    have hlim := abs_le.1 (le_trans habs hbound)
    have hrun : run s (some x) b true = { s with enabled := true, first := false, out := some (rnd (v + rnd (x * dt s.prevTs b))), prev := some (rnd (v + rnd (x * dt s.prevTs b))), prevTs := b } := by
      have hc : rnd (v + rnd (x * dt s.prevTs b)) < s.upper ∧ s.lower < rnd (v + rnd (x * dt s.prevTs b)) := ⟨by linarith [hlim.2], by linarith [hlim.1]⟩
      simp [run, he, hl, hf, hv, next, hc]
    have hlen : k + 1 + xs.length = k + ((x, b) :: xs).length := by simp; omega
    obtain ⟨w, h1, h2⟩ := ih { s with enabled := true, first := false, out := some (rnd (v + rnd (x * dt s.prevTs b))), prev := some (rnd (v + rnd (x * dt s.prevTs b))), prevTs := b }
      _ _ _ (k + 1) rfl hl rfl rfl (by omega) hval (by rw [hlen]; dsimp only; linarith) (by rw [hlen]; dsimp only; linarith)
    refine ⟨w, ?_, ?_⟩
    · change (runs (run s (some x) b true) xs).prev = some w
      rw [hrun]; exact h1
    · rw [hlen] at h2
      have e1 : y + (increments s.prevTs ((x, b) :: xs)).sum = y + x * dt s.prevTs b + (increments b xs).sum := by simp [increments]; ring
      rw [hinc, e1, ← add_assoc]
      exact h2

/-- C146 violated: if every increment is less than half the distance of the doubles at the value reached, the output stays for ever, however long it is integrated. -/
theorem stuck_violated (s : St ℚ) (v : ℚ) (he : s.enabled = true) (hl : s.hasLevel = false) (hf : s.first = false) (hv : s.prev = some v) (hd : IsDouble v) (h0 : 0 < v) (xs : List (ℚ × ℕ))
    (hx : ∀ y ∈ increments s.prevTs xs, 0 ≤ y ∧ rnd y < ulp v / 2) : (runs s xs).prev = some v := by
  induction xs generalizing s with
  | nil => exact hv
  | cons x xs ih =>
    obtain ⟨x, b⟩ := x
    obtain ⟨hy0, hy⟩ := hx (x * dt s.prevTs b) (by simp [increments])
    have ha := absorb hd h0 (rnd_nonneg hy0) hy
    have hprev : (run s (some x) b true).prev = some v := by
      simp [run, he, hl, hf, hv, next, ha]
    change (runs (run s (some x) b true) xs).prev = some v
    refine ih (run s (some x) b true) ?_ ?_ ?_ hprev ?_
    · simp [run, he, hl]
    · simp [run, hl]
    · simp [run]
    · intro y hy'
      exact hx y (by
        simp only [increments, List.mem_cons]
        right
        simpa [run] using hy')

/-- C146: an integrator which is disabled keeps its value, whatever the inputs and however long. -/
theorem disabled_keeps (xs : List (ℚ × ℕ)) (s : St ℚ) (he : s.enabled = false) (hl : s.hasLevel = false) : (runs s xs).prev = s.prev := by
  induction xs generalizing s with
  | nil => rfl
  | cons x xs ih =>
    change (runs (run s (some x.1) x.2 true) xs).prev = s.prev
    rw [ih _ (by simp [run, he, hl]) (by simp [run, hl])]
    simp [run, he, hl]

/-- C146: the first run integrates over no time: the value, if it is a double, stays as it was set. -/
theorem first_keeps (s : St ℚ) (v : ℚ) (x : ℚ) (ts : ℕ) (b : Bool) (hf : s.first = true) (hv : s.prev = some v) (hd : IsDouble v) :
    (run s (some x) ts b).prev = some v ∧ (run s (some x) ts b).out = some v ∧ (run s (some x) ts b).prevTs = ts := by
  have h0 : rnd (v + rnd (x * 0)) = v := by
    rw [mul_zero, rnd_zero, add_zero]; exact hd
  have hn : next s (some v) (some x) 0 = some v := by
    simp only [next, h0]
    split <;> rfl
  simp only [run, hf, if_true, hv, hn]
  refine ⟨?_, ?_, trivial⟩ <;> exact ite_self _

/-- Case of the two: an hour after the start of the clock, input 2. -/
example : (run { first := true, enabled := true, prev := some 1, prevTs := 0, upper := 10, lower := -10, hasLevel := false, out := some 0 } (some 2) 3600000000000 true).prev = some 1 ∧
    (runs { first := false, enabled := false, prev := some 1, prevTs := 0, upper := 10, lower := -10, hasLevel := false, out := some 0 } [(2, 3600000000000)]).prev = some 1 := by
  decide +kernel

/-- Case of `stuck_violated`: value 1, input 10⁻¹³, two cycles of one millisecond. -/
example : (runs { first := false, enabled := true, prev := some 1, prevTs := 5000000, upper := 10, lower := -10, hasLevel := false, out := some 1 }
    [(1 / 10 ^ 13, 6000000), (1 / 10 ^ 13, 7000000)]).prev = some 1 := by
  refine stuck_violated { first := false, enabled := true, prev := some 1, prevTs := 5000000, upper := 10, lower := -10, hasLevel := false, out := some 1 } 1 rfl rfl rfl rfl ?_ (by norm_num) _ ?_
  · unfold IsDouble; decide +kernel
  · decide +kernel

/-- Case of `elapsed_exact`. -/
example : Rising 5000000 [6000000, 7000000, 12000000] := by
  refine ⟨by norm_num, ?_, by norm_num, ?_, by norm_num, ?_, trivial⟩ <;> decide +kernel

/-- Case of `integral_error_partial`: the input 2 from value 1 over two cycles. -/
example : ∃ w, (runs { first := false, enabled := true, prev := some 1, prevTs := 5000000, upper := 10, lower := -10, hasLevel := false, out := some 1 } [(2, 6000000), (2, 7000000)]).prev = some w ∧
    Approx 3 w (1 + (increments 5000000 [(2, 6000000), (2, 7000000)]).sum) (1 + absSum (increments 5000000 [(2, 6000000), (2, 7000000)])) := by
  refine integral_error_partial _ { first := false, enabled := true, prev := some 1, prevTs := 5000000, upper := 10, lower := -10, hasLevel := false, out := some 1 } 1 1 1 1 rfl rfl rfl rfl le_rfl ?_ ?_ ?_
  · have := (Approx.exact 1).weaken (l := 1) (by omega)
    simpa using this
  · decide +kernel
  · decide +kernel

end Verif.Control.IntegratorFl
