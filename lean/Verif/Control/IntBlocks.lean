import Verif.Common.Ieee
import Mathlib.Data.Rat.Floor
import Mathlib.Algebra.BigOperators.Group.List.Basic
import Mathlib.Tactic.FieldSimp
import Mathlib.Tactic.ByContra
/-!
C330-C333: blocks with integer values.  The templates compute with doubles and convert the result to the type of the signal, that is they cut off the digits behind the point; with matrices of
integers the number of type double is converted before it is multiplied or divided with (`Matrix::operator*(T)`, `operator/(T)`, /repo/includes/eeros/math/Matrix.hpp:582-590, 662-670).  The tests
of the repository make such blocks (test/control/I.cpp:23-25, D.cpp:23-25, LowPassFilter.cpp:25, MovingAverageFilter.cpp:22).

The arithmetic of doubles is exact here (except where IEEE arithmetic is named), and integers do not overflow.
-/
namespace Verif.Control.IntBlocks

/-- Conversion from double to an integer type: towards 0. -/
def trunc (q : ℚ) : ℤ := if 0 ≤ q then ⌊q⌋ else ⌈q⌉

theorem trunc_int (z : ℤ) : trunc z = z := by
  unfold trunc; split <;> simp

theorem trunc_err (q : ℚ) : |(trunc q : ℚ) - q| < 1 := by
  unfold trunc
  split
  · rw [abs_lt]; constructor <;> linarith [Int.floor_le q, Int.lt_floor_add_one q]
  · rw [abs_lt]; constructor <;> linarith [Int.le_ceil q, Int.ceil_lt_add_one q]

theorem trunc_pos {q : ℚ} (h : 0 ≤ q) : trunc q = ⌊q⌋ := by rw [trunc, if_pos h]

theorem trunc_add_nat {z : ℤ} (hz : 0 ≤ z) {r : ℚ} (h0 : 0 ≤ r) (h1 : r < 1) : trunc (z + r) = z := by
  have : (0:ℚ) ≤ z := by exact_mod_cast hz
  rw [trunc_pos (by linarith), Int.floor_eq_iff]
  constructor <;> linarith

theorem trunc_neg_add {z : ℤ} (hz : z < 0) {r : ℚ} (h0 : 0 < r) (h1 : r < 1) : trunc (z + r) = z + 1 := by
  have : (z:ℚ) + 1 ≤ 0 := by exact_mod_cast hz
  rw [trunc, if_neg (by push Not; linarith), Int.ceil_eq_iff]
  push_cast
  constructor <;> linarith

/-! ### Integrator -/

/-- `I<int>::run` (I.hpp:53-75), enabled and away from its limits, with the time `dt` since the last run: the new state and output. -/
def iRun (prev : ℤ) (u : ℤ × ℚ) : ℤ := trunc (prev + u.1 * u.2)
/-- Runs with inputs and times. -/
def iRuns (prev : ℤ) (us : List (ℤ × ℚ)) : ℤ := us.foldl iRun prev
/-- `I<Matrix<n,1,int>>::run`: `valin * dt` converts `dt` to int. -/
def iRunM {n : ℕ} (prev : Fin n → ℤ) (u : (Fin n → ℤ) × ℚ) : Fin n → ℤ := fun i => prev i + u.1 i * trunc u.2
def iRunsM {n : ℕ} (prev : Fin n → ℤ) (us : List ((Fin n → ℤ) × ℚ)) : Fin n → ℤ := us.foldl iRunM prev

/-- C330: a run is exact exactly if input times time is an integer, and always within one unit. -/
theorem integrate_iff (p : ℤ) (u : ℤ × ℚ) : ((iRun p u : ℚ) = p + u.1 * u.2 ↔ ∃ k : ℤ, (u.1 : ℚ) * u.2 = k) ∧ |(iRun p u : ℚ) - (p + u.1 * u.2)| < 1 := by
  refine ⟨⟨fun h => ⟨iRun p u - p, ?_⟩, ?_⟩, trunc_err _⟩
  · push_cast; linarith
  · rintro ⟨k, hk⟩
    have : ((p : ℚ) + u.1 * u.2) = ((p + k : ℤ) : ℚ) := by rw [hk]; push_cast; ring
    rw [iRun, this, trunc_int]

/-- C330: if all these products are integers, the state after any number of runs is the integral. -/
theorem integral_partial (p : ℤ) (us : List (ℤ × ℚ)) (h : ∀ u ∈ us, ∃ k : ℤ, (u.1 : ℚ) * u.2 = k) :
    (iRuns p us : ℚ) = p + (us.map fun u => (u.1 : ℚ) * u.2).sum := by
  induction us generalizing p with
  | nil => simp [iRuns]
  | cons u us ih =>
    have h1 := (integrate_iff p u).1.2 (h u (by simp))
    have := ih (iRun p u) (fun v hv => h v (by simp [hv]))
    simp only [iRuns, List.foldl_cons, List.map_cons, List.sum_cons] at this ⊢
    rw [this, h1]; ring

example : iRuns 3 [(1000, 1 / 1000), (-5000, 1 / 1000)] = -1 := by decide +kernel

/-- C330, violation: as long as input times time stays below one unit, an integrator at 0 or above does not move up, after any number of runs. -/
theorem stuck_violated (p : ℤ) (hp : 0 ≤ p) (us : List (ℤ × ℚ)) (h : ∀ u ∈ us, 0 ≤ (u.1 : ℚ) * u.2 ∧ (u.1 : ℚ) * u.2 < 1) : iRuns p us = p := by
  induction us with
  | nil => rfl
  | cons u us ih =>
    have hu := h u (by simp)
    have : iRun p u = p := trunc_add_nat hp hu.1 hu.2
    simp only [iRuns, List.foldl_cons, this]
    exact ih (fun v hv => h v (by simp [hv]))

example : iRuns 0 (List.replicate 5000 (999, 1 / 1000)) = 0 := by
  refine stuck_violated 0 le_rfl _ fun u hu => ?_
  rw [List.eq_of_mem_replicate hu]; norm_num

/-- C330, violation: below 0 the same inputs move it up by a whole unit in every run, until it is at 0. -/
theorem fast_violated (p : ℤ) (hp : p ≤ 0) (x : ℤ) (dt : ℚ) (h0 : 0 < (x : ℚ) * dt) (h1 : (x : ℚ) * dt < 1) (k : ℕ) :
    iRuns p (List.replicate k (x, dt)) = min 0 (p + k) := by
  induction k generalizing p with
  | zero => simp [iRuns, hp]
  | succ k ih =>
    simp only [iRuns, List.replicate_succ, List.foldl_cons]
    rcases lt_or_eq_of_le hp with hlt | rfl
    · have : iRun p (x, dt) = p + 1 := trunc_neg_add hlt h0 h1
      rw [this]
      have := ih (p + 1) (by omega)
      simp only [iRuns] at this
      rw [this]; push_cast; congr 1; ring
    · have : iRun 0 (x, dt) = 0 := by have := trunc_add_nat (z := 0) le_rfl h0.le h1; simpa [iRun] using this
      rw [this]
      have := ih 0 le_rfl
      simp only [iRuns] at this
      rw [this]; push_cast; omega

example : iRuns (-5) (List.replicate 3 (1, 1 / 1000)) = -2 := fast_violated (-5) (by norm_num) 1 (1 / 1000) (by norm_num) (by norm_num) 3

/-- C330, violation: an integrator of matrices of integers does not move at all with sampling times below one second, for all inputs and any number of runs. -/
theorem matrix_violated {n : ℕ} (p : Fin n → ℤ) (us : List ((Fin n → ℤ) × ℚ)) (h : ∀ u ∈ us, 0 ≤ u.2 ∧ u.2 < 1) : iRunsM p us = p := by
  induction us with
  | nil => rfl
  | cons u us ih =>
    have hu := h u (by simp)
    have ht : trunc u.2 = 0 := by have := trunc_add_nat (z := 0) le_rfl hu.1 hu.2; simpa using this
    have : iRunM p u = p := by funext i; simp [iRunM, ht]
    simp only [iRunsM, List.foldl_cons, this]
    exact ih (fun v hv => h v (by simp [hv]))

example : iRunsM (fun _ : Fin 2 => 0) (List.replicate 1000 (fun _ => 1000000, 1 / 1000)) = fun _ => 0 := by
  refine matrix_violated _ _ fun u hu => ?_
  rw [List.eq_of_mem_replicate hu]; norm_num

/-- C330: its runs are exact for all inputs exactly if the time is a whole number of seconds. -/
theorem matrix_iff {n : ℕ} (p : Fin (n + 1) → ℤ) (dt : ℚ) : (∀ x i, ((iRunM p (x, dt) i : ℤ) : ℚ) = p i + x i * dt) ↔ ∃ k : ℤ, dt = k := by
  constructor
  · intro h
    have := h (fun _ => 1) 0
    simp only [iRunM] at this
    push_cast at this
    exact ⟨trunc dt, by linarith⟩
  · rintro ⟨k, rfl⟩ x i
    simp only [iRunM, trunc_int]; push_cast; ring

/-! ### Low pass filter -/

/-- `LowPassFilter<int>::run` (LowPassFilter.hpp:58-72), enabled, after the first run. -/
def lp (alpha : ℚ) (x prev : ℤ) : ℤ := trunc (x * alpha + prev * (1 - alpha))
/-- `k` runs with a constant input. -/
def lpRuns (alpha : ℚ) (x : ℤ) (k : ℕ) (p : ℤ) : ℤ := (lp alpha x)^[k] p
/-- `LowPassFilter<Matrix<n,1,int>>::run`: `alpha` and `1 - alpha` are converted to int. -/
def lpM {n : ℕ} (alpha : ℚ) (x prev : Fin n → ℤ) : Fin n → ℤ := fun i => x i * trunc alpha + prev i * trunc (1 - alpha)

theorem lp_floor {alpha : ℚ} (h0 : 0 ≤ alpha) (h1 : alpha ≤ 1) {x p : ℤ} (hx : 0 ≤ x) (hp : 0 ≤ p) : lp alpha x p = ⌊(x:ℚ) * alpha + p * (1 - alpha)⌋ := by
  have : (0:ℚ) ≤ x := by exact_mod_cast hx
  have : (0:ℚ) ≤ p := by exact_mod_cast hp
  have : 0 ≤ 1 - alpha := by linarith
  exact trunc_pos (by positivity)

/-- C331: with a weight from 0 to 1 the output lies between the last output and the input. -/
theorem between_partial {alpha : ℚ} (h0 : 0 ≤ alpha) (h1 : alpha ≤ 1) {x p : ℤ} (hx : 0 ≤ x) (hp : 0 ≤ p) : min x p ≤ lp alpha x p ∧ lp alpha x p ≤ max x p := by
  rw [lp_floor h0 h1 hx hp]
  have ha : 0 ≤ 1 - alpha := by linarith
  constructor
  · rw [Int.le_floor]
    have h2 : ((min x p : ℤ) : ℚ) ≤ x := by exact_mod_cast min_le_left x p
    have h3 : ((min x p : ℤ) : ℚ) ≤ p := by exact_mod_cast min_le_right x p
    nlinarith [mul_le_mul_of_nonneg_right h2 h0, mul_le_mul_of_nonneg_right h3 ha]
  · have h2 : (x : ℚ) ≤ ((max x p : ℤ) : ℚ) := by exact_mod_cast le_max_left x p
    have h3 : (p : ℚ) ≤ ((max x p : ℤ) : ℚ) := by exact_mod_cast le_max_right x p
    have h4 : (x:ℚ) * alpha + p * (1 - alpha) ≤ ((max x p : ℤ) : ℚ) := by
      nlinarith [mul_le_mul_of_nonneg_right h2 h0, mul_le_mul_of_nonneg_right h3 ha]
    have := Int.floor_le_floor h4
    rwa [Int.floor_intCast] at this

/-- C331: where the filter rests with a constant input: at the input, and at every value below it which is nearer than the reciprocal of the weight. -/
theorem rest_iff {alpha : ℚ} (h0 : 0 < alpha) (h1 : alpha ≤ 1) {x p : ℤ} (hx : 0 ≤ x) (hp : 0 ≤ p) : lp alpha x p = p ↔ p ≤ x ∧ alpha * (x - p) < 1 := by
  rw [lp_floor h0.le h1 hx hp, Int.floor_eq_iff]
  have e : (x:ℚ) * alpha + p * (1 - alpha) = p + alpha * (x - p) := by ring
  rw [e]
  constructor
  · rintro ⟨ha, hb⟩
    refine ⟨?_, by linarith⟩
    by_contra hc
    have : (x:ℚ) < p := by exact_mod_cast not_le.1 hc
    nlinarith
  · rintro ⟨ha, hb⟩
    have : (x:ℚ) - p ≥ 0 := by have : (p:ℚ) ≤ x := by exact_mod_cast ha
                               linarith
    constructor <;> nlinarith

theorem lpRuns_succ (alpha : ℚ) (x : ℤ) (k : ℕ) (p : ℤ) : lpRuns alpha x (k + 1) p = lpRuns alpha x k (lp alpha x p) := rfl

theorem lpRuns_fixed {alpha : ℚ} {x p : ℤ} (h : lp alpha x p = p) (k : ℕ) : lpRuns alpha x k p = p := Function.iterate_fixed h k

/-- C331, violation: from below, the filter never reaches a constant input it is near to. -/
theorem never_violated {alpha : ℚ} (h0 : 0 < alpha) (h1 : alpha ≤ 1) {x p : ℤ} (hp : 0 ≤ p) (hpx : p < x) (h : alpha * (x - p) < 1) (k : ℕ) : lpRuns alpha x k p = p ∧ p ≠ x :=
  ⟨lpRuns_fixed ((rest_iff h0 h1 (by omega) hp).2 ⟨hpx.le, h⟩) k, hpx.ne⟩

example : lpRuns (1 / 5) 14 1000 10 = 10 := (never_violated (by norm_num) (by norm_num) (by norm_num) (by norm_num) (by norm_num) 1000).1

/-- C331: from above it reaches a constant input after at most as many runs as units lie between. -/
theorem from_above {alpha : ℚ} (h0 : 0 < alpha) (h1 : alpha ≤ 1) {x p : ℤ} (hx : 0 ≤ x) (hpx : x ≤ p) (k : ℕ) (hk : p - x ≤ k) : lpRuns alpha x k p = x := by
  have hxx : lp alpha x x = x := (rest_iff h0 h1 hx hx).2 ⟨le_rfl, by simp⟩
  induction k generalizing p with
  | zero => have : p = x := by push_cast at hk; omega
            rw [this]; rfl
  | succ k ih =>
    rw [lpRuns_succ]
    rcases eq_or_lt_of_le hpx with rfl | hlt
    · rw [hxx]; exact lpRuns_fixed hxx k
    · have hb := between_partial h0.le h1 hx (show 0 ≤ p by omega)
      have hne : lp alpha x p ≠ p := fun h => by have := ((rest_iff h0 h1 hx (by omega)).1 h).1; omega
      rw [min_eq_left hpx, max_eq_right hpx] at hb
      refine ih hb.1 ?_
      have : lp alpha x p ≤ p - 1 := by have := lt_of_le_of_ne hb.2 hne; omega
      push_cast at hk
      omega

example : lpRuns (1 / 5) 10 4 14 = 10 := from_above (by norm_num) (by norm_num) (by norm_num) (by norm_num) 4 (by norm_num)

/-- C331: from below it comes to rest, below the input by less than the reciprocal of the weight. -/
theorem from_below {alpha : ℚ} (h0 : 0 < alpha) (h1 : alpha ≤ 1) {x p : ℤ} (hp : 0 ≤ p) (hpx : p ≤ x) :
    ∃ y, y ≤ x ∧ alpha * (x - y) < 1 ∧ ∀ k : ℕ, x - p ≤ k → lpRuns alpha x k p = y := by
  have main : ∀ (n : ℕ) (p : ℤ), 0 ≤ p → p ≤ x → x - p ≤ n → ∃ y, y ≤ x ∧ alpha * ((x:ℚ) - y) < 1 ∧ ∀ k : ℕ, x - p ≤ k → lpRuns alpha x k p = y := by
    intro n
    induction n with
    | zero =>
      intro p hp hpx hn
      have : p = x := by push_cast at hn; omega
      subst this
      exact ⟨p, le_rfl, by simp, fun k _ => lpRuns_fixed ((rest_iff h0 h1 hp hp).2 ⟨le_rfl, by simp⟩) k⟩
    | succ n ih =>
      intro p hp hpx hn
      by_cases hr : lp alpha x p = p
      · have := (rest_iff h0 h1 (hp.trans hpx) hp).1 hr
        exact ⟨p, this.1, this.2, fun k _ => lpRuns_fixed hr k⟩
      · have hb := between_partial h0.le h1 (hp.trans hpx) hp
        rw [min_eq_right hpx, max_eq_left hpx] at hb
        have hlt := lt_of_le_of_ne hb.1 (Ne.symm hr)
        obtain ⟨y, hy1, hy2, hy3⟩ := ih (lp alpha x p) (by omega) hb.2 (by push_cast at hn; omega)
        refine ⟨y, hy1, hy2, fun k hk => ?_⟩
        cases k with
        | zero => push_cast at hk; omega
        | succ k => rw [lpRuns_succ]; exact hy3 k (by push_cast at hk; omega)
  exact main (x - p).toNat p hp hpx (by omega)

/-- C331, violation: a filter of matrices of integers with a weight between 0 and 1 puts out zeros, for all inputs and states. -/
theorem matrix_zero_violated {n : ℕ} {alpha : ℚ} (h0 : 0 < alpha) (h1 : alpha < 1) (x p : Fin n → ℤ) : lpM alpha x p = fun _ => 0 := by
  have t1 : trunc alpha = 0 := by have := trunc_add_nat (z := 0) le_rfl h0.le h1; simpa using this
  have t2 : trunc (1 - alpha) = 0 := by
    have := trunc_add_nat (z := 0) (r := 1 - alpha) le_rfl (by linarith) (by linarith); simpa using this
  funext i
  simp [lpM, t1, t2]

example : lpM (1 / 5) (fun _ : Fin 2 => 100) (fun _ => 100) = fun _ => 0 := matrix_zero_violated (by norm_num) (by norm_num) _ _

/-- Conversion of a double to int; of infinities and NaN it is undefined. -/
def toInt : XVal ℚ → Option ℤ
  | .fin q => some (trunc q)
  | _ => none

/-- A run of `LowPassFilter<int>` in IEEE arithmetic; the integers are exact as doubles. -/
def lpIeee (alpha : XVal ℚ) (x prev : ℤ) : Option ℤ :=
  toInt (Common.Ieee.add (Common.Ieee.mul (.fin x) alpha) (Common.Ieee.mul (.fin prev) (Common.Ieee.sub (.fin 1) alpha)))

/-- The double nearest to 0.3. -/
def d03 : XVal ℚ := .fin (5404319552844595 / 18014398509481984)

/-- C331, violation: with the rounding of doubles even a filter which has the constant input 3 from the beginning (the first run takes the input as last output) puts out 2, in the first run
and in all others, with the weight 0.3. -/
theorem rounding_violated : lpIeee d03 3 3 = some 2 ∧ lpIeee d03 3 2 = some 2 := by decide +kernel

/-! ### Moving average -/

/-- `MovingAverageFilter<N,int,double>::run` (MovingAverageFilter.hpp:64-78): the newest coefficient and input first, then the others, each sum converted to int. -/
def ma (c : ℚ) (x : ℤ) (rest : List (ℚ × ℤ)) : ℤ := rest.foldl (fun r cv => trunc (r + cv.1 * cv.2)) (trunc (c * x))

/-- C332: the output is within one unit per coefficient of the weighted sum. -/
theorem average_error (c : ℚ) (x : ℤ) (rest : List (ℚ × ℤ)) :
    |(ma c x rest : ℚ) - (c * x + (rest.map fun cv => cv.1 * (cv.2 : ℚ)).sum)| < rest.length + 1 := by
  have main : ∀ (rest : List (ℚ × ℤ)) (r : ℤ) (e b : ℚ), |(r : ℚ) - e| < b →
      |((rest.foldl (fun (r : ℤ) cv => trunc (r + cv.1 * cv.2)) r : ℤ) : ℚ) - (e + (rest.map fun cv => cv.1 * (cv.2 : ℚ)).sum)| < b + rest.length := by
    intro rest
    induction rest with
    | nil => intro r e b h; simpa using h
    | cons cv rest ih =>
      intro r e b h
      have h2 := trunc_err (r + cv.1 * cv.2)
      have := ih (trunc (r + cv.1 * cv.2)) (e + cv.1 * cv.2) (b + 1) (by rw [abs_lt] at h h2 ⊢; constructor <;> linarith)
      simp only [List.foldl_cons, List.map_cons, List.sum_cons, List.length_cons]
      push_cast
      rw [show e + (cv.1 * (cv.2:ℚ) + (rest.map fun cv => cv.1 * (cv.2 : ℚ)).sum) = e + cv.1 * cv.2 + (rest.map fun cv => cv.1 * (cv.2 : ℚ)).sum by ring,
        show b + ((rest.length : ℚ) + 1) = b + 1 + rest.length by ring]
      exact this
  have := main rest (trunc (c * x)) (c * x) 1 (trunc_err _)
  rw [ma, add_comm (rest.length : ℚ) 1]
  exact this

/-- C332: if every product is an integer, the output is the weighted sum. -/
theorem average_partial (c : ℚ) (x : ℤ) (rest : List (ℚ × ℤ)) (h0 : ∃ k : ℤ, c * x = k) (h : ∀ cv ∈ rest, ∃ k : ℤ, cv.1 * (cv.2 : ℚ) = k) :
    (ma c x rest : ℚ) = c * x + (rest.map fun cv => cv.1 * (cv.2 : ℚ)).sum := by
  have main : ∀ (rest : List (ℚ × ℤ)) (r : ℤ), (∀ cv ∈ rest, ∃ k : ℤ, cv.1 * (cv.2 : ℚ) = k) →
      ((rest.foldl (fun (r : ℤ) cv => trunc (r + cv.1 * cv.2)) r : ℤ) : ℚ) = r + (rest.map fun cv => cv.1 * (cv.2 : ℚ)).sum := by
    intro rest
    induction rest with
    | nil => intro r _; simp
    | cons cv rest ih =>
      intro r h
      obtain ⟨k, hk⟩ := h cv (by simp)
      have e : trunc (r + cv.1 * cv.2) = r + k := by rw [hk, ← Int.cast_add, trunc_int]
      simp only [List.foldl_cons, List.map_cons, List.sum_cons]
      rw [e, ih _ (fun v hv => h v (by simp [hv])), hk]; push_cast; ring
  obtain ⟨k, hk⟩ := h0
  rw [ma, main rest _ h, hk, trunc_int]

/-- C332: the average over `N` equal values is the value rounded down to a multiple of `N`, … -/
theorem constant_average (N : ℕ) (v : ℤ) (hv : 0 ≤ v) : ma (1 / (N + 1)) v (List.replicate N (1 / (N + 1), v)) = (N + 1) * (v / (N + 1)) := by
  have hN : (0:ℚ) < N + 1 := by positivity
  have hN2 : (0:ℤ) < N + 1 := by positivity
  set q := v / (N + 1 : ℤ) with hq
  have h1 : (N + 1 : ℤ) * q ≤ v := by have := Int.mul_ediv_add_emod v (N + 1); rw [← hq] at this; have := Int.emod_nonneg v hN2.ne'; omega
  have h2 : v < (N + 1 : ℤ) * q + (N + 1) := by have := Int.mul_ediv_add_emod v (N + 1); rw [← hq] at this; have := Int.emod_lt_of_pos v hN2; omega
  have hq0 : 0 ≤ q := Int.ediv_nonneg hv hN2.le
  have e : (1:ℚ) / (N + 1) * v = q + (v - (N + 1) * q) / (N + 1) := by field_simp; ring
  have r0 : 0 ≤ ((v:ℚ) - (N + 1) * q) / (N + 1) := by
    apply div_nonneg _ hN.le
    have : ((N + 1 : ℤ) * q : ℤ) ≤ (v : ℚ) := by exact_mod_cast h1
    push_cast at this; linarith
  have r1 : ((v:ℚ) - (N + 1) * q) / (N + 1) < 1 := by
    rw [div_lt_one hN]
    have : (v : ℚ) < ((N + 1 : ℤ) * q + (N + 1) : ℤ) := by exact_mod_cast h2
    push_cast at this; linarith
  have main : ∀ (k : ℕ) (r : ℤ), 0 ≤ r → (List.replicate k ((1:ℚ) / (N + 1), v)).foldl (fun (r : ℤ) cv => trunc (r + cv.1 * cv.2)) r = r + k * q := by
    intro k
    induction k with
    | zero => intro r _; simp
    | succ k ih =>
      intro r hr
      simp only [List.replicate_succ, List.foldl_cons]
      have : trunc ((r:ℚ) + 1 / (N + 1) * v) = r + q := by
        rw [e, ← add_assoc, ← Int.cast_add]
        exact trunc_add_nat (by omega) r0 r1
      rw [this, ih _ (by omega)]; push_cast; ring
  have hs : trunc ((1:ℚ) / (N + 1) * v) = q := by rw [e]; exact trunc_add_nat hq0 r0 r1
  rw [ma, hs, main N q hq0]; ring

/-- … so it is the value exactly if `N` divides it. -/
theorem constant_violated (N : ℕ) (v : ℤ) (hv : 0 ≤ v) : ma (1 / (N + 1)) v (List.replicate N (1 / (N + 1), v)) = v ↔ ((N : ℤ) + 1) ∣ v := by
  rw [constant_average N v hv]
  constructor
  · intro h; exact ⟨_, h.symm⟩
  · intro h; exact Int.mul_ediv_cancel' h

example : ma (1 / 4) 3 (List.replicate 3 (1 / 4, 3)) = 0 := by
  have := constant_average 3 3 (by norm_num)
  norm_num at this ⊢; exact this

/-! ### Differentiator and rate limiter -/

/-- `D<int>::run` (D.hpp:37-60), not the first run and with a new time stamp. -/
def dRun (x prev : ℤ) (dt : ℚ) : ℤ := trunc ((x - prev) / dt)
/-- `D<Matrix<n,1,int>>::run`: the time is converted to int; `none` is a division by 0. -/
def dRunM {n : ℕ} (x prev : Fin n → ℤ) (dt : ℚ) : Option (Fin n → ℤ) := if trunc dt = 0 then none else some fun i => (x i - prev i).tdiv (trunc dt)

/-- C333: the derivative of integers is within one unit. -/
theorem derivative_partial (x p : ℤ) (dt : ℚ) : |(dRun x p dt : ℚ) - (x - p) / dt| < 1 := trunc_err _

/-- C333, violation: the derivative of a matrix of integers is defined exactly with sampling times of a second and more; with shorter ones every run divides by 0. -/
theorem derivative_violated {n : ℕ} (x p : Fin n → ℤ) (dt : ℚ) (h : 0 < dt) : dRunM x p dt = none ↔ dt < 1 := by
  have : trunc dt = 0 ↔ dt < 1 := by
    rw [trunc_pos h.le, Int.floor_eq_iff]
    push_cast
    constructor
    · rintro ⟨_, h2⟩; linarith
    · intro h2; exact ⟨h.le, by linarith⟩
  rw [← this]
  unfold dRunM
  split
  · rename_i h; exact ⟨fun _ => h, fun _ => rfl⟩
  · rename_i h; exact ⟨fun h2 => absurd h2 (by simp), fun h2 => absurd h2 h⟩

example : dRunM (fun _ : Fin 2 => 7) (fun _ => 5) (1 / 1000) = none := (derivative_violated _ _ _ (by norm_num)).2 (by norm_num)

/-- `RateLimiter<int>::run` (RateLimiter.hpp:79-93, 142-150), enabled, not the first run, with the rates of type double and `dt` above 0. -/
def rlRun (falling rising dt : ℚ) (x prev : ℤ) : ℤ :=
  let rate := ((x - prev : ℤ) : ℚ) / dt
  if rate > rising then trunc (dt * rising + prev)
  else if rate < falling then trunc (dt * falling + prev)
  else x

/-- C333: the output is the input if the rate allows it. -/
theorem limiter_passes {falling rising dt : ℚ} (hdt : 0 < dt) {x p : ℤ} (h1 : falling * dt ≤ x - p) (h2 : (x - p : ℚ) ≤ rising * dt) : rlRun falling rising dt x p = x := by
  unfold rlRun
  simp only [Int.cast_sub]
  rw [if_neg (by rw [gt_iff_lt, lt_div_iff₀ hdt]; linarith), if_neg (by rw [div_lt_iff₀ hdt]; linarith)]

/-- C333: in general it differs from the limited value by less than one unit. -/
theorem limiter_partial {falling rising dt : ℚ} (hf : falling ≤ rising) (hdt : 0 < dt) (x p : ℤ) :
    |(rlRun falling rising dt x p : ℚ) - max (p + falling * dt) (min (p + rising * dt) x)| < 1 := by
  unfold rlRun
  simp only [Int.cast_sub]
  have hm : falling * dt ≤ rising * dt := mul_le_mul_of_nonneg_right hf hdt.le
  split
  · rename_i h
    rw [gt_iff_lt, lt_div_iff₀ hdt] at h
    rw [min_eq_left (by linarith), max_eq_right (by linarith), show (p:ℚ) + rising * dt = dt * rising + p by ring]
    exact trunc_err _
  · rename_i h
    rw [gt_iff_lt, lt_div_iff₀ hdt] at h
    split
    · rename_i h2
      rw [div_lt_iff₀ hdt] at h2
      rw [min_eq_right (by linarith), max_eq_left (by linarith), show (p:ℚ) + falling * dt = dt * falling + p by ring]
      exact trunc_err _
    · rename_i h2
      rw [div_lt_iff₀ hdt] at h2
      rw [min_eq_right (by linarith), max_eq_right (by linarith)]
      simp

/-- C333, violation: if the rate allows less than one unit per run, an output at 0 or above never rises, for any number of runs with any inputs above it. -/
theorem rise_violated {falling rising dt : ℚ} (hr : 0 ≤ rising) (hdt : 0 < dt) (h : rising * dt < 1) {p : ℤ} (hp : 0 ≤ p) (xs : List ℤ) (hx : ∀ x ∈ xs, p < x) :
    xs.foldl (fun p x => rlRun falling rising dt x p) p = p := by
  induction xs with
  | nil => rfl
  | cons x xs ih =>
    have hx1 : ((p:ℚ) + 1) ≤ x := by exact_mod_cast hx x (by simp)
    have : rlRun falling rising dt x p = p := by
      unfold rlRun
      simp only [Int.cast_sub]
      rw [if_pos (by rw [gt_iff_lt, lt_div_iff₀ hdt]; linarith), add_comm, mul_comm]
      exact trunc_add_nat hp (by positivity) h
    simp only [List.foldl_cons, this]
    exact ih (fun v hv => hx v (by simp [hv]))

example : (List.replicate 1000 50).foldl (fun p x => rlRun (-100) 100 (1 / 1000) x p) 7 = 7 :=
  rise_violated (by norm_num) (by norm_num) (by norm_num) (by norm_num) _ (fun x hx => by rw [List.eq_of_mem_replicate hx]; norm_num)

/-- C333, violation: above 0 it falls by a whole unit per run, faster than the rate allows. -/
theorem fall_violated {falling rising dt : ℚ} (hf : falling < 0) (hr : 0 ≤ rising) (hdt : 0 < dt) (h : -1 < falling * dt) {p x : ℤ} (hp : 0 < p) (hx : x < p) :
    rlRun falling rising dt x p = p - 1 ∧ ((p - 1 : ℤ) : ℚ) - p < falling * dt := by
  have hx1 : (x:ℚ) + 1 ≤ p := by exact_mod_cast hx
  have hneg : falling * dt < 0 := mul_neg_of_neg_of_pos hf hdt
  have hrd : 0 ≤ rising * dt := by positivity
  constructor
  · unfold rlRun
    simp only [Int.cast_sub]
    rw [if_neg (by rw [gt_iff_lt, lt_div_iff₀ hdt]; linarith), if_pos (by rw [div_lt_iff₀ hdt]; linarith)]
    rw [show dt * falling + (p:ℚ) = ((p - 1 : ℤ) : ℚ) + (falling * dt + 1) by push_cast; ring]
    exact trunc_add_nat (by omega) (by linarith) (by linarith)
  · push_cast; linarith

example : rlRun (-100) 100 (1 / 1000) 0 7 = 6 := (fall_violated (by norm_num) (by norm_num) (by norm_num) (by norm_num) (by norm_num) (by norm_num)).1

/-- Cases of `between_partial` and `rest_iff`. -/
example : min 14 10 ≤ lp (1 / 5) 14 10 ∧ lp (1 / 5) 14 10 ≤ max 14 10 := between_partial (by norm_num) (by norm_num) (by norm_num) (by norm_num)
example : lp (1 / 5) 14 10 = 10 ∧ lp (1 / 5) 15 10 ≠ 10 := by
  rw [ne_eq, rest_iff (by norm_num) (by norm_num) (by norm_num) (by norm_num), rest_iff (by norm_num) (by norm_num) (by norm_num) (by norm_num)]
  norm_num

end Verif.Control.IntBlocks
