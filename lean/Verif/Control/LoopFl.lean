import Verif.Control.IntegratorFl
import Verif.Control.Loop
/-!
The control loop of `Verif/Control/Loop.lean` (setpoint, sum, gain, integrator, in this order) with the rounding of doubles: the sum starts
from zero and rounds after each term (Sum.hpp:42-50, 53-56), the gain rounds its product (Gain.hpp:134-136) and the integrator is that of
`IntegratorFl`, whose time difference is computed from rounded seconds.  Unbounded exponents.
-/
namespace Verif.Control.LoopFl
open Verif.Common.Round
open Verif.Control.Loop (Cfg)
open Verif.Control.TimeDiff (dt)

/-- `first` of the sum, and the integrator. -/
structure St where
  first : Bool
  int : Integrator.St ℚ

/-- As `Loop.start`. -/
def start (c : Cfg ℚ) : St :=
  ⟨true, Integrator.exec (Integrator.new 0) [.setLimit c.upper c.lower, .setInit c.x0, .enable]⟩

/-- One cycle. -/
def cycle (c : Cfg ℚ) (t : Nat) (s : St) : St :=
  let y := if s.first then c.v else s.int.out.getD 0
  let e := rnd (rnd (0 + c.r) - y)
  let u := rnd (c.g * e)
  ⟨false, IntegratorFl.run s.int (some u) t true⟩

/-- The state after `n` cycles. -/
def cycles (c : Cfg ℚ) (t : Nat → Nat) : Nat → St
  | 0 => start c
  | n + 1 => cycle c (t n) (cycles c t n)

/-- The output of the integrator after cycle `k`. -/
def output (c : Cfg ℚ) (t : Nat → Nat) (k : Nat) : Option ℚ := (cycles c t (k + 1)).int.out

/-- What the integrator adds in a cycle with time difference `d`. -/
def inc (c : Cfg ℚ) (y d : ℚ) : ℚ := rnd (rnd (c.g * rnd (c.r - y)) * d)

/-- The value after a cycle. -/
def nextY (c : Cfg ℚ) (y d : ℚ) : ℚ := if rnd (y + inc c y d) < c.upper ∧ c.lower < rnd (y + inc c y d) then rnd (y + inc c y d) else y

theorem first_y (c : Cfg ℚ) (t : Nat → Nat) (hx : IsDouble c.x0) : (cycles c t 1).int.out = some c.x0 ∧ (cycles c t 1).int.prev = some c.x0 := by
  have h : rnd c.x0 = c.x0 := hx
  simp [cycles, cycle, start, Integrator.exec, Integrator.step, Integrator.setLimit, Integrator.new, IntegratorFl.run, IntegratorFl.next, rnd_zero, h]

/-- Between two cycles. -/
structure Inv (c : Cfg ℚ) (s : St) (y : ℚ) (ts : Nat) : Prop where
  first : s.first = false
  ifirst : s.int.first = false
  en : s.int.enabled = true
  lev : s.int.hasLevel = false
  up : s.int.upper = c.upper
  lo : s.int.lower = c.lower
  out : s.int.out = some y
  prev : s.int.prev = some y
  ts : s.int.prevTs = ts

theorem inv_first (c : Cfg ℚ) (t : Nat → Nat) (hx : IsDouble c.x0) : Inv c (cycles c t 1) c.x0 (t 0) :=
  ⟨rfl, rfl, rfl, rfl, rfl, rfl, (first_y c t hx).1, (first_y c t hx).2, rfl⟩

theorem inv_cycle (c : Cfg ℚ) (hr : IsDouble c.r) (s : St) (y : ℚ) (a b : Nat) (h : Inv c s y a) : Inv c (cycle c b s) (nextY c y (dt a b)) b := by
  have hr' : rnd (0 + c.r) = c.r := by rw [zero_add]; exact hr
  have e : (cycle c b s).int.out = some (nextY c y (dt a b)) := by
    simp only [cycle, h.first, h.out, Option.getD_some, hr', IntegratorFl.run, h.lev, h.en, h.ifirst, h.prev, h.ts, h.up, h.lo, IntegratorFl.next,
      nextY, inc, Bool.false_eq_true, if_false, if_true]
    exact (apply_ite some _ _ _).symm
  exact ⟨rfl, rfl, by simp [cycle, IntegratorFl.run, h.lev, h.en], h.lev, h.up, h.lo, e, e, rfl⟩

/-- The values of the output. -/
def vals (c : Cfg ℚ) (t : Nat → Nat) : Nat → ℚ
  | 0 => c.x0
  | k + 1 => nextY c (vals c t k) (dt (t k) (t (k + 1)))

theorem output_eq (c : Cfg ℚ) (hr : IsDouble c.r) (hx : IsDouble c.x0) (t : Nat → Nat) (k : Nat) : output c t k = some (vals c t k) := by
  suffices H : Inv c (cycles c t (k + 1)) (vals c t k) (t k) from H.out
  induction k with
  | zero => exact inv_first c t hx
  | succ k ih => exact inv_cycle c hr _ _ _ _ ih

theorem vals_double (c : Cfg ℚ) (hx : IsDouble c.x0) (t : Nat → Nat) (k : Nat) : IsDouble (vals c t k) := by
  induction k with
  | zero => exact hx
  | succ k ih =>
    rw [vals, nextY]
    split
    · exact rnd_idem _
    · exact ih

/-- The increment is gain times time times error up to three roundings. -/
theorem inc_error (c : Cfg ℚ) (y d : ℚ) : |inc c y d - c.g * d * (c.r - y)| ≤ gam 3 * (|c.g * d| * |c.r - y|) := by
  have h1 : Approx 1 (rnd (c.r - y)) (c.r - y) |c.r - y| := (Approx.exact _).round
  have h2 : Approx 2 (rnd (c.g * rnd (c.r - y))) (c.g * (c.r - y)) (|c.g| * |c.r - y|) := (h1.scale c.g).round
  have h3 : Approx 2 (d * rnd (c.g * rnd (c.r - y))) (d * (c.g * (c.r - y))) (|d| * (|c.g| * |c.r - y|)) := h2.scale d
  have h4 := h3.round
  have := h4.err
  rw [show d * rnd (c.g * rnd (c.r - y)) = rnd (c.g * rnd (c.r - y)) * d from mul_comm _ _] at this
  rw [abs_mul]
  calc |inc c y d - c.g * d * (c.r - y)| = |rnd (rnd (c.g * rnd (c.r - y)) * d) - d * (c.g * (c.r - y))| := by unfold inc; ring_nf
    _ ≤ gam 3 * (|d| * (|c.g| * |c.r - y|)) := this
    _ = _ := by ring

/-- **No overshoot with rounding**: if gain times computed time, with three roundings, is between 0 and 1, the output rises and never
passes the setpoint, not even by the last bit. -/
theorem no_overshoot (c : Cfg ℚ) (hr : IsDouble c.r) (hx : IsDouble c.x0) (t : Nat → Nat) (hxr : c.x0 ≤ c.r)
    (hg : ∀ k, 0 ≤ c.g * dt (t k) (t (k + 1)) ∧ c.g * dt (t k) (t (k + 1)) * (1 + gam 3) ≤ 1) (k : Nat) :
    ∃ y y', output c t k = some y ∧ output c t (k + 1) = some y' ∧ c.x0 ≤ y ∧ y ≤ y' ∧ y' ≤ c.r := by
  have step : ∀ k, vals c t k ≤ c.r → vals c t k ≤ vals c t (k + 1) ∧ vals c t (k + 1) ≤ c.r := by
    intro k h
    have he : 0 ≤ c.r - vals c t k := by linarith
    have hi := abs_le.mp (inc_error c (vals c t k) (dt (t k) (t (k + 1))))
    rw [abs_of_nonneg (hg k).1, abs_of_nonneg he] at hi
    have hm : c.g * dt (t k) (t (k + 1)) * (1 + gam 3) * (c.r - vals c t k) ≤ 1 * (c.r - vals c t k) := mul_le_mul_of_nonneg_right (hg k).2 he
    have g3 : gam 3 ≤ 1 := by norm_num [gam, unit]
    have hp : 0 ≤ c.g * dt (t k) (t (k + 1)) * (c.r - vals c t k) := mul_nonneg (hg k).1 he
    have hn : 0 ≤ inc c (vals c t k) (dt (t k) (t (k + 1))) := by nlinarith [hi.1]
    have hu : vals c t k + inc c (vals c t k) (dt (t k) (t (k + 1))) ≤ c.r := by nlinarith [hi.2]
    have r1 : vals c t k ≤ rnd (vals c t k + inc c (vals c t k) (dt (t k) (t (k + 1)))) := by
      have := rnd_mono (show vals c t k ≤ vals c t k + inc c (vals c t k) (dt (t k) (t (k + 1))) by linarith)
      rwa [show rnd (vals c t k) = vals c t k from vals_double c hx t k] at this
    have r2 : rnd (vals c t k + inc c (vals c t k) (dt (t k) (t (k + 1)))) ≤ c.r := by
      have := rnd_mono hu
      rwa [show rnd c.r = c.r from hr] at this
    rw [vals, nextY]
    split
    · exact ⟨r1, r2⟩
    · exact ⟨le_refl _, h⟩
  have all : ∀ k, c.x0 ≤ vals c t k ∧ vals c t k ≤ c.r := by
    intro k
    induction k with
    | zero => exact ⟨le_refl _, hxr⟩
    | succ k ih => exact ⟨le_trans ih.1 (step k ih.2).1, (step k ih.2).2⟩
  exact ⟨_, _, output_eq c hr hx t k, output_eq c hr hx t (k + 1), (all k).1, step k (all k).2⟩

/-- The factor by which the error decays: that without rounding, and some roundings. -/
def rho (δ : ℚ) : ℚ := (1 + unit) * (1 - δ + 2 * gam 3)

/-- One step towards the setpoint: relative part and one rounding of the setpoint. -/
theorem step_error (c : Cfg ℚ) (y d δ : ℚ) (h : δ ≤ c.g * d ∧ c.g * d ≤ 2 - δ) (h0 : 0 ≤ δ) :
    |c.r - rnd (y + inc c y d)| ≤ rho δ * |c.r - y| + unit * |c.r| := by
  have hi := inc_error c y d
  have e0 := abs_nonneg (c.r - y)
  have g0 := gam_nonneg 3
  have hb : |c.g * d| ≤ 2 := abs_le.mpr ⟨by linarith [h.1], by linarith [h.2]⟩
  have h1 : |1 - c.g * d| ≤ 1 - δ := abs_le.mpr ⟨by linarith [h.2], by linarith [h.1]⟩
  have hE : |c.r - (y + inc c y d)| ≤ (1 - δ + 2 * gam 3) * |c.r - y| := by
    have e : c.r - (y + inc c y d) = (1 - c.g * d) * (c.r - y) - (inc c y d - c.g * d * (c.r - y)) := by ring
    rw [e]
    calc _ ≤ |(1 - c.g * d) * (c.r - y)| + |inc c y d - c.g * d * (c.r - y)| := abs_sub _ _
      _ ≤ (1 - δ) * |c.r - y| + gam 3 * (2 * |c.r - y|) := by
        rw [abs_mul]
        refine add_le_add (mul_le_mul_of_nonneg_right h1 e0) (le_trans hi ?_)
        exact mul_le_mul_of_nonneg_left (mul_le_mul_of_nonneg_right hb e0) g0
      _ = _ := by ring
  have hr := rnd_rel (y + inc c y d)
  have hy : |y + inc c y d| ≤ |c.r| + |c.r - (y + inc c y d)| := by
    calc |y + inc c y d| = |c.r - (c.r - (y + inc c y d))| := by ring_nf
      _ ≤ _ := abs_sub _ _
  have hu : (0 : ℚ) < unit := unit_pos
  have hr' : |rnd (y + inc c y d) - (y + inc c y d)| ≤ unit * |y + inc c y d| := by
    have e : unit * |y + inc c y d| = |y + inc c y d| / 2 ^ 53 := by unfold unit; ring
    rw [e]; exact hr
  calc |c.r - rnd (y + inc c y d)| = |(c.r - (y + inc c y d)) - (rnd (y + inc c y d) - (y + inc c y d))| := by ring_nf
    _ ≤ |c.r - (y + inc c y d)| + |rnd (y + inc c y d) - (y + inc c y d)| := abs_sub _ _
    _ ≤ |c.r - (y + inc c y d)| + unit * (|c.r| + |c.r - (y + inc c y d)|) := by
      refine add_le_add (le_refl _) (le_trans hr' (mul_le_mul_of_nonneg_left hy hu.le))
    _ = (1 + unit) * |c.r - (y + inc c y d)| + unit * |c.r| := by ring
    _ ≤ (1 + unit) * ((1 - δ + 2 * gam 3) * |c.r - y|) + unit * |c.r| := by
      refine add_le_add (mul_le_mul_of_nonneg_left hE (by linarith)) (le_refl _)
    _ = _ := by unfold rho; ring

/-- **The loop converges with rounding up to the resolution of the doubles**: with jitter between `δ` and `2 - δ` the error after cycle
`k` is at most `rho^k` times the first one plus one rounding of the setpoint divided by `1 - rho`, whatever the number of cycles. -/
theorem tracks (c : Cfg ℚ) (hr : IsDouble c.r) (hx : IsDouble c.x0) (t : Nat → Nat) (δ : ℚ) (h0 : 0 ≤ δ) (h1 : δ ≤ 1) (hρ : rho δ < 1)
    (ht : ∀ k, δ ≤ c.g * dt (t k) (t (k + 1)) ∧ c.g * dt (t k) (t (k + 1)) ≤ 2 - δ)
    (hlo : c.lower < c.r - (|c.r - c.x0| + unit * |c.r| / (1 - rho δ))) (hup : c.r + (|c.r - c.x0| + unit * |c.r| / (1 - rho δ)) < c.upper)
    (k : Nat) : ∃ y, output c t k = some y ∧ |c.r - y| ≤ rho δ ^ k * |c.r - c.x0| + unit * |c.r| / (1 - rho δ) := by
  refine ⟨_, output_eq c hr hx t k, ?_⟩
  have hu : (0 : ℚ) < unit := unit_pos
  have g0 := gam_nonneg 3
  have hρ0 : 0 ≤ rho δ := mul_nonneg (by linarith) (by linarith)
  have hp : 0 < 1 - rho δ := by linarith
  have hB : 0 ≤ unit * |c.r| / (1 - rho δ) := div_nonneg (mul_nonneg hu.le (abs_nonneg _)) hp.le
  have hB' : unit * |c.r| = unit * |c.r| / (1 - rho δ) * (1 - rho δ) := by field_simp
  induction k with
  | zero => simp only [vals, pow_zero, one_mul]; linarith
  | succ k ih =>
    have hs := step_error c (vals c t k) (dt (t k) (t (k + 1))) δ (ht k) h0
    have hstep : |c.r - rnd (vals c t k + inc c (vals c t k) (dt (t k) (t (k + 1))))| ≤
        rho δ ^ (k + 1) * |c.r - c.x0| + unit * |c.r| / (1 - rho δ) := by
      calc _ ≤ rho δ * |c.r - vals c t k| + unit * |c.r| := hs
        _ ≤ rho δ * (rho δ ^ k * |c.r - c.x0| + unit * |c.r| / (1 - rho δ)) + unit * |c.r| / (1 - rho δ) * (1 - rho δ) := by
          rw [← hB']
          exact add_le_add (mul_le_mul_of_nonneg_left ih hρ0) (le_refl _)
        _ = _ := by ring
    have hle : rho δ ^ (k + 1) * |c.r - c.x0| ≤ |c.r - c.x0| := by
      calc _ ≤ 1 * |c.r - c.x0| := mul_le_mul_of_nonneg_right (pow_le_one₀ hρ0 hρ.le) (abs_nonneg _)
        _ = _ := one_mul _
    have hb := abs_le.mp hstep
    rw [vals, nextY, if_pos ⟨by linarith, by linarith⟩]
    exact hstep

/-- **The last difference remains**: as soon as gain times time times error is less than half the distance of the doubles at the value
reached, the output stays where it is, as many cycles as this holds. -/
theorem stuck_violated (c : Cfg ℚ) (hr : IsDouble c.r) (hx : IsDouble c.x0) (t : Nat → Nat) (n : Nat) (y : ℚ) (hy : output c t n = some y)
    (hpos : 0 < y) (k : Nat)
    (hinc : ∀ j, n ≤ j → j < n + k → 0 ≤ inc c y (dt (t j) (t (j + 1))) ∧ inc c y (dt (t j) (t (j + 1))) < ulp y / 2) :
    output c t (n + k) = some y := by
  rw [output_eq c hr hx] at hy ⊢
  have hy' : vals c t n = y := Option.some.inj hy
  have hd := vals_double c hx t n
  rw [hy'] at hd
  suffices H : vals c t (n + k) = y by rw [H]
  induction k with
  | zero => exact hy'
  | succ k ih =>
    show vals c t (n + k + 1) = y
    rw [vals, ih fun j a b => hinc j a (by omega), nextY,
      absorb hd hpos (hinc (n + k) (by omega) (by omega)).1 (hinc (n + k) (by omega) (by omega)).2]
    split <;> rfl

/-! ### Cases -/

/-- Gain 2 per second, from 0 to 1. -/
def caseEx : Cfg ℚ := { r := 1, g := 2, gmin := -10, gmax := 10, v := 0, x0 := 0, lower := -100, upper := 100, ts0 := 0 }

/-- One hour after the origin of the clock, 100 ms per cycle: the time differences are not exact, the output is near 1/5 and 9/25. -/
example : (List.range 3).map (output caseEx fun k => 3600000000000 + k * 100000000) =
    [some 0, some (1801439850946560 / 2 ^ 53), some (3242591731704136 / 2 ^ 53)] := by decide +kernel

/-- The hypotheses of `tracks` and `no_overshoot` hold for computed periods between 0.1 and 0.4 seconds. -/
example (t : Nat → Nat) (ht : ∀ k, 1 / 10 ≤ dt (t k) (t (k + 1)) ∧ dt (t k) (t (k + 1)) ≤ 2 / 5) (k : Nat) :
    ∃ y, output caseEx t k = some y ∧ |1 - y| ≤ (5 / 6) ^ k + 6 / 2 ^ 53 := by
  have hρ : rho (1 / 5) ≤ 5 / 6 := by norm_num [rho, gam, unit]
  have hρ0 : 0 ≤ rho (1 / 5) := by norm_num [rho, gam, unit]
  have hb : unit * |(1 : ℚ)| / (1 - rho (1 / 5)) ≤ 6 / 2 ^ 53 := by norm_num [rho, gam, unit]
  have hd : ∀ x : ℤ, |x| ≤ 2 ^ 53 → IsDouble (x : ℚ) := fun x hx => by have := rnd_exact x 0 hx; simpa [IsDouble] using this
  have e1 : |caseEx.r - caseEx.x0| = 1 := by norm_num [caseEx]
  have er : |caseEx.r| = |(1 : ℚ)| := rfl
  obtain ⟨y, hy, h⟩ := tracks caseEx (hd 1 (by norm_num)) (hd 0 (by norm_num)) t (1 / 5) (by norm_num) (by norm_num) (by linarith)
    (fun k => ⟨by have := (ht k).1; simp only [caseEx]; linarith, by have := (ht k).2; simp only [caseEx]; linarith⟩)
    (by rw [e1, er]; have : (6 : ℚ) / 2 ^ 53 < 1 := by norm_num
        simp only [caseEx]; linarith)
    (by rw [e1, er]; have : (6 : ℚ) / 2 ^ 53 < 1 := by norm_num
        simp only [caseEx]; linarith) k
  refine ⟨y, hy, ?_⟩
  rw [e1, er, mul_one] at h
  have := pow_le_pow_left₀ hρ0 hρ k
  simp only [caseEx] at h
  linarith

example (t : Nat → Nat) (ht : ∀ k, 1 / 10 ≤ dt (t k) (t (k + 1)) ∧ dt (t k) (t (k + 1)) ≤ 2 / 5) (k : Nat) :
    ∃ y y', output caseEx t k = some y ∧ output caseEx t (k + 1) = some y' ∧ 0 ≤ y ∧ y ≤ y' ∧ y' ≤ 1 := by
  have hd : ∀ x : ℤ, |x| ≤ 2 ^ 53 → IsDouble (x : ℚ) := fun x hx => by have := rnd_exact x 0 hx; simpa [IsDouble] using this
  refine no_overshoot caseEx (hd 1 (by norm_num)) (hd 0 (by norm_num)) t (by norm_num [caseEx]) (fun k => ?_) k
  have g3 : gam 3 ≤ 1 / 8 := by norm_num [gam, unit]
  have g0 := gam_nonneg 3
  obtain ⟨a, b⟩ := ht k
  simp only [caseEx]
  constructor
  · linarith
  · nlinarith

/-- A slow loop (gain 1/1000 per second, 1 ms): 1000 doubles below the setpoint it has stopped. -/
def slowEx : Cfg ℚ := { r := 1, g := 1 / 1000, gmin := -10, gmax := 10, v := 0, x0 := 1 - 1000 / 2 ^ 53, lower := -100, upper := 100, ts0 := 0 }

example : output slowEx (fun k => 1000000000 + k * 1000000) 3 = some (1 - 1000 / 2 ^ 53) :=
  stuck_violated slowEx (by unfold IsDouble; decide +kernel) (by unfold IsDouble; decide +kernel) _ 0 (1 - 1000 / 2 ^ 53)
    (by decide +kernel) (by norm_num) 3 (fun j _ h => by
      have : j = 0 ∨ j = 1 ∨ j = 2 := by omega
      rcases this with rfl | rfl | rfl <;> decide +kernel)

end Verif.Control.LoopFl
