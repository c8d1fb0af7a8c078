import Verif.Control.AlgebraProps
import Verif.Control.GainProps
import Verif.Control.Integrator
import Mathlib.Tactic.Common
import Mathlib.Tactic.Linarith
import Mathlib.Tactic.Ring
import Mathlib.Tactic.NormNum
import Mathlib.Tactic.FinCases
import Mathlib.Tactic.FieldSimp
import Mathlib.Algebra.Order.Field.Basic
import Mathlib.Analysis.SpecificLimits.Normed
/-!
A closed control loop made of the blocks of the framework: a setpoint (Constant.hpp:49-53), a sum of setpoint and negated feedback with an
initial condition for the feedback (Sum.hpp:41-61, 83-87), a gain (Gain.hpp:107-142) and an integrator (I.hpp:53-75), the simplest plant,
whose output is the feedback.  The models of the blocks are those of `Verif/Control/Algebra.lean`, `Gain.lean` and `Integrator.lean`, with
exact arithmetic; the time domain runs them in the order in which they were added (src/control/TimeDomain.cpp:28).

Two orders: in the direction of the signals (setpoint, sum, gain, integrator), and with the gain added last (setpoint, sum, integrator,
gain), so that the integrator reads the output of the gain of the cycle before.
-/
namespace Verif.Control.Loop
open _root_.Verif.Control.Algebra
variable {K : Type} [Field K] [LinearOrder K] [IsStrictOrderedRing K]

/-- The state of the blocks and the signal at the output of the gain (`none`: NaN, before its first run, Blockio.hpp:312-314); the signal at the output of the integrator is part of its state. -/
structure St (K : Type) where
  sum : Algebra.Sum 2 K
  gain : Gain.St K
  int : Integrator.St K
  u : Option K
  uts : Nat

/-- Setpoint, gain with its limits, initial condition of the feedback, initial value and limits of the integrator, and the time stamp
which the output of the gain carries before its first run: Signal.hpp:154 does not initialise it. -/
structure Cfg (K : Type) where
  r : K
  g : K
  gmin : K
  gmax : K
  v : K
  x0 : K
  lower : K
  upper : K
  ts0 : Nat

/-- The blocks after the construction: `negateInput(1)`, `setInitCondition(1, v)`, `setInitCondition(x0)`, `setLimit`, `enable`. -/
def start (c : Cfg K) : Except Err (St K) := do
  let s ← (Algebra.Sum.new 2 : Algebra.Sum 2 K).negate 1
  let s ← s.setInit 1 c.v
  .ok ⟨s, Gain.new c.g c.gmax c.gmin,
    Integrator.exec (Integrator.new 0) [.setLimit c.upper c.lower, .setInit c.x0, .enable], none, c.ts0⟩

/-- What the sum reads: the setpoint, and the output of the integrator.  Before its first run this is NaN; the sum does not read it then
because of the initial condition, so any value may stand for it. -/
def ins (c : Cfg K) (t : Nat) (s : St K) : Fin 2 → Option (Sig K) := ![some ⟨c.r, t⟩, some ⟨s.int.out.getD 0, s.int.prevTs⟩]

/-- One cycle in the order setpoint, sum, gain, integrator. -/
def direct (c : Cfg K) (t : Nat) (s : St K) : Except Err (St K) := do
  let (sum, e) ← s.sum.run (ins c t s)
  let (gain, u) := Gain.run s.gain e.val
  .ok ⟨sum, gain, Integrator.run s.int (some u) e.ts true, some u, e.ts⟩

/-- One cycle in the order setpoint, sum, integrator, gain. -/
def gainLast (c : Cfg K) (t : Nat) (s : St K) : Except Err (St K) := do
  let (sum, e) ← s.sum.run (ins c t s)
  let int := Integrator.run s.int s.u s.uts true
  let (gain, u) := Gain.run s.gain e.val
  .ok ⟨sum, gain, int, some u, e.ts⟩

/-- The state after the first `n` cycles; the setpoint is read at the times `t 0, t 1, …` (nanoseconds). -/
def cycles (cyc : Nat → St K → Except Err (St K)) (s0 : Except Err (St K)) (t : Nat → Nat) : Nat → Except Err (St K)
  | 0 => s0
  | n + 1 => do let s ← cycles cyc s0 t n; cyc (t n) s

/-- The output of the integrator after cycle `k`; `none` if it is NaN or a block has thrown. -/
def output (cyc : Nat → St K → Except Err (St K)) (s0 : Except Err (St K)) (t : Nat → Nat) (k : Nat) : Option K :=
  match cycles cyc s0 t (k + 1) with
  | .ok s => s.int.out
  | .error _ => none

/-! ### Specification: the output as a plain recursion -/

/-- Seconds between two readings of the clock. -/
def sec (a b : Nat) : K := ((b : K) - a) / 1000000000

/-- A new value, unless it is outside the limits. -/
def within (c : Cfg K) (old new : K) : K := if c.lower < new ∧ new < c.upper then new else old

/-- Explicit integration of `dy/dt = g (r - y)` over the times of the cycles. -/
def euler (c : Cfg K) (t : Nat → Nat) : Nat → K
  | 0 => c.x0
  | k + 1 => within c (euler c t k) (euler c t k + c.g * (c.r - euler c t k) * sec (t k) (t (k + 1)))

/-- The same with the error of the cycle before, and a first step with the error of the initial condition over the time since the
initial time stamp. -/
def late (c : Cfg K) (t : Nat → Nat) : Nat → K
  | 0 => c.x0
  | 1 => within c c.x0 (c.x0 + c.g * (c.r - c.v) * sec c.ts0 (t 0))
  | k + 2 => within c (late c t (k + 1)) (late c t (k + 1) + c.g * (c.r - late c t k) * sec (t k) (t (k + 1)))

/-! ### The blocks do this -/

theorem seconds_eq (a b : Nat) : (Integrator.seconds a b : K) = sec a b := by
  unfold Integrator.seconds sec; ring

/-- The state between two cycles: everything but the values. -/
structure Inv (c : Cfg K) (s : St K) : Prop where
  first : s.sum.first = false
  neg0 : s.sum.negated 0 = false
  neg1 : s.sum.negated 1 = true
  gain : s.gain = Gain.new c.g c.gmax c.gmin
  ifirst : s.int.first = false
  en : s.int.enabled = true
  lev : s.int.hasLevel = false
  up : s.int.upper = c.upper
  lo : s.int.lower = c.lower

theorem gain_run (c : Cfg K) (h1 : c.gmin ≤ c.g) (h2 : c.g ≤ c.gmax) (x : K) :
    Gain.run (Gain.new c.g c.gmax c.gmin) x = (Gain.new c.g c.gmax c.gmin, c.g * x) := by
  unfold Gain.run
  simp [Gain.new, Gain.limit_id _ _ _ h1 h2]

omit [LinearOrder K] [IsStrictOrderedRing K] in
theorem ins_some (c : Cfg K) (t : Nat) (s : St K) :
    ins c t s = fun i => some ((![⟨c.r, t⟩, ⟨s.int.out.getD 0, s.int.prevTs⟩] : Fin 2 → Sig K) i) := by
  funext i; fin_cases i <;> rfl

omit [IsStrictOrderedRing K] [LinearOrder K] in
/-- A later run of the sum. -/
theorem sum_run (c : Cfg K) (t : Nat) (s : St K) (y : K) (hf : s.sum.first = false) (h0 : s.sum.negated 0 = false) (h1 : s.sum.negated 1 = true)
    (hy : s.int.out = some y) : s.sum.run (ins c t s) = .ok (s.sum, ⟨c.r - y, t⟩) := by
  rw [ins_some, sum_later_runs s.sum hf]
  simp [Fin.sum_univ_two, h0, h1, hy, sub_eq_add_neg]

omit [IsStrictOrderedRing K] in
theorem start_ok (c : Cfg K) : ∃ s, start c = .ok s ∧ s.sum.first = true ∧ s.sum.negated 0 = false ∧ s.sum.negated 1 = true ∧
    s.sum.init 0 = none ∧ s.sum.init 1 = some c.v ∧ s.gain = Gain.new c.g c.gmax c.gmin ∧ s.int.first = true ∧ s.int.enabled = true ∧
    s.int.hasLevel = false ∧ s.int.upper = c.upper ∧ s.int.lower = c.lower ∧ s.int.prev = some c.x0 ∧ s.u = none ∧ s.uts = c.ts0 := by
  refine ⟨_, rfl, ?_⟩
  simp [Algebra.Sum.new, Integrator.exec, Integrator.step, Integrator.setLimit, Integrator.new, Function.update]

omit [LinearOrder K] [IsStrictOrderedRing K] in
theorem first_sum (c : Cfg K) (t : Nat) (s : St K) (hf : s.sum.first = true) (h0 : s.sum.negated 0 = false) (h1 : s.sum.negated 1 = true)
    (hi0 : s.sum.init 0 = none) (hi : s.sum.init 1 = some c.v) :
    s.sum.run (ins c t s) = .ok ({ s.sum with first := false }, ⟨c.r - c.v, t⟩) := by
  rw [ins_some, sum_correct]
  simp [Fin.sum_univ_two, contribution, h0, h1, hi, hi0, hf, sub_eq_add_neg]

theorem int_run (c : Cfg K) (s : Integrator.St K) (p u : K) (t0 t1 : Nat) (hf : s.first = false) (he : s.enabled = true) (hl : s.hasLevel = false)
    (hu : s.upper = c.upper) (hlo : s.lower = c.lower) (hp : s.prev = some p) (ht : s.prevTs = t0) :
    (Integrator.run s (some u) t1 true).out = some (within c p (p + u * sec t0 t1)) := by
  simp only [Integrator.run, hl, he, hf, hp, ht, Integrator.next, seconds_eq, hu, hlo, within, if_true, Bool.false_eq_true, if_false]
  by_cases h : c.lower < p + u * sec t0 t1 ∧ p + u * sec t0 t1 < c.upper
  · rw [if_pos h, if_pos h.symm]
  · rw [if_neg h, if_neg fun q => h q.symm]

/-- **The loop in the direction of the signals is the explicit integration of the controlled plant**: no block throws, and the output
after every cycle is that of the recursion, for all parameters and all times of the cycles. -/
theorem direct_output (c : Cfg K) (h1 : c.gmin ≤ c.g) (h2 : c.g ≤ c.gmax) (t : Nat → Nat) (n : Nat) :
    output (direct c) (start c) t n = some (euler c t n) := by
  suffices H : ∃ s, cycles (direct c) (start c) t (n + 1) = .ok s ∧ Inv c s ∧ s.int.out = some (euler c t n) ∧
      s.int.prev = some (euler c t n) ∧ s.int.prevTs = t n by
    obtain ⟨s, hs, _, ho, _⟩ := H
    simp only [output, hs, ho]
  induction n with
  | zero =>
    obtain ⟨s, hs, a1, a2, a3, a4, a5, a6, a7, a8, a9, a10, a11, a12, a13, a14⟩ := start_ok c
    refine ⟨⟨{ s.sum with first := false }, Gain.new c.g c.gmax c.gmin, Integrator.run s.int (some (c.g * (c.r - c.v))) (t 0) true,
      some (c.g * (c.r - c.v)), t 0⟩, ?_, ?_⟩
    · show cycles (direct c) (start c) t 1 = _
      simp only [cycles, hs, bind, Except.bind, direct, first_sum c (t 0) s a1 a2 a3 a4 a5, a6, gain_run c h1 h2]
    · refine ⟨⟨rfl, a2, a3, rfl, rfl, ?_, a9, a10, a11⟩, ?_, ?_, rfl⟩
      · simp [Integrator.run, a9, a8]
      · simp [Integrator.run, a9, a8, a7, a12, Integrator.next, euler]
      · simp [Integrator.run, a9, a8, a7, a12, Integrator.next, euler]
  | succ n ih =>
    obtain ⟨s, hs, hi, ho, hp, ht⟩ := ih
    have hrun := int_run c s.int (euler c t n) (c.g * (c.r - euler c t n)) (t n) (t (n + 1)) hi.ifirst hi.en hi.lev hi.up hi.lo hp ht
    refine ⟨⟨s.sum, Gain.new c.g c.gmax c.gmin, Integrator.run s.int (some (c.g * (c.r - euler c t n))) (t (n + 1)) true,
      some (c.g * (c.r - euler c t n)), t (n + 1)⟩, ?_, ?_⟩
    · show cycles (direct c) (start c) t (n + 1 + 1) = _
      rw [cycles, hs]
      simp only [bind, Except.bind, direct, sum_run c (t (n + 1)) s _ hi.first hi.neg0 hi.neg1 ho, hi.gain, gain_run c h1 h2]
    · refine ⟨⟨hi.first, hi.neg0, hi.neg1, rfl, rfl, ?_, hi.lev, hi.up, hi.lo⟩, hrun, hrun, rfl⟩
      simp [Integrator.run, hi.lev, hi.en]

/-- **With the gain added last the plant is driven by the error of the cycle before.** -/
theorem gainLast_output (c : Cfg K) (h1 : c.gmin ≤ c.g) (h2 : c.g ≤ c.gmax) (t : Nat → Nat) (n : Nat) :
    output (gainLast c) (start c) t n = some (late c t n) := by
  suffices H : ∃ s, cycles (gainLast c) (start c) t (n + 1) = .ok s ∧ Inv c s ∧
      s.int.out = some (late c t n) ∧ s.int.prev = some (late c t n) ∧ s.int.prevTs = (if n = 0 then c.ts0 else t (n - 1)) ∧
      s.uts = t n ∧ s.u = some (c.g * (c.r - if n = 0 then c.v else late c t (n - 1))) by
    obtain ⟨s, hs, _, ho, _⟩ := H
    simp only [output, hs, ho]
  induction n with
  | zero =>
    obtain ⟨s, hs, a1, a2, a3, a4, a5, a6, a7, a8, a9, a10, a11, a12, a13, a14⟩ := start_ok c
    refine ⟨⟨{ s.sum with first := false }, Gain.new c.g c.gmax c.gmin, Integrator.run s.int s.u s.uts true, some (c.g * (c.r - c.v)), t 0⟩,
      ?_, ?_⟩
    · show cycles (gainLast c) (start c) t 1 = _
      simp only [cycles, hs, bind, Except.bind, gainLast, first_sum c (t 0) s a1 a2 a3 a4 a5, a6, gain_run c h1 h2]
    · refine ⟨⟨rfl, a2, a3, rfl, rfl, ?_, a9, a10, a11⟩, ?_, ?_, ?_, rfl, rfl⟩
      · simp [Integrator.run, a9, a8]
      · simp [Integrator.run, a9, a8, a12, a13, Integrator.next, late]
      · simp [Integrator.run, a9, a8, a12, a13, Integrator.next, late]
      · exact a14
  | succ n ih =>
    obtain ⟨s, hs, hi, ho, hp, ht, hut, hu⟩ := ih
    have hval : within c (late c t n) (late c t n + c.g * (c.r - if n = 0 then c.v else late c t (n - 1)) *
        sec (if n = 0 then c.ts0 else t (n - 1)) (t n)) = late c t (n + 1) := by
      cases n with
      | zero => simp only [late, if_true]
      | succ n => simp only [late, Nat.succ_ne_zero, if_false, Nat.add_sub_cancel]
    have hrun := int_run c s.int (late c t n) (c.g * (c.r - if n = 0 then c.v else late c t (n - 1))) _ (t n) hi.ifirst hi.en hi.lev hi.up hi.lo
      hp ht
    rw [hval, ← hu, ← hut] at hrun
    refine ⟨⟨s.sum, Gain.new c.g c.gmax c.gmin, Integrator.run s.int s.u s.uts true, some (c.g * (c.r - late c t n)), t (n + 1)⟩, ?_, ?_⟩
    · show cycles (gainLast c) (start c) t (n + 1 + 1) = _
      rw [cycles, hs]
      simp only [bind, Except.bind, gainLast, sum_run c (t (n + 1)) s _ hi.first hi.neg0 hi.neg1 ho, hi.gain, gain_run c h1 h2]
    · refine ⟨⟨hi.first, hi.neg0, hi.neg1, rfl, rfl, ?_, hi.lev, hi.up, hi.lo⟩, hrun, hrun, ?_, rfl, ?_⟩
      · simp [Integrator.run, hi.lev, hi.en]
      · simp [Integrator.run, hut]
      · simp only [Nat.succ_ne_zero, if_false, Nat.add_sub_cancel]

/-! ### Behaviour of the loop in the direction of the signals -/

/-- **No overshoot** (from below): if in every cycle gain times elapsed time is between 0 and 1, the output rises and never passes the
setpoint. -/
theorem direct_no_overshoot (c : Cfg K) (h1 : c.gmin ≤ c.g) (h2 : c.g ≤ c.gmax) (t : Nat → Nat)
    (ht : ∀ k, 0 ≤ c.g * sec (t k) (t (k + 1)) ∧ c.g * sec (t k) (t (k + 1)) ≤ 1) (hx : c.x0 ≤ c.r) (k : Nat) :
    ∃ y y', output (direct c) (start c) t k = some y ∧ output (direct c) (start c) t (k + 1) = some y' ∧ c.x0 ≤ y ∧ y ≤ y' ∧ y' ≤ c.r := by
  have step : ∀ k, euler c t k ≤ c.r → euler c t k ≤ euler c t (k + 1) ∧ euler c t (k + 1) ≤ c.r := by
    intro k h
    have e1 : 0 ≤ (c.r - euler c t k) * (c.g * sec (t k) (t (k + 1))) := mul_nonneg (by linarith) (ht k).1
    have e2 : (c.r - euler c t k) * (c.g * sec (t k) (t (k + 1))) ≤ (c.r - euler c t k) * 1 := mul_le_mul_of_nonneg_left (ht k).2 (by linarith)
    have e3 : c.g * (c.r - euler c t k) * sec (t k) (t (k + 1)) = (c.r - euler c t k) * (c.g * sec (t k) (t (k + 1))) := by ring
    simp only [euler, within]
    split <;> constructor <;> linarith
  have all : ∀ k, c.x0 ≤ euler c t k ∧ euler c t k ≤ c.r := by
    intro k
    induction k with
    | zero => exact ⟨le_refl _, hx⟩
    | succ k ih => exact ⟨le_trans ih.1 (step k ih.2).1, (step k ih.2).2⟩
  exact ⟨_, _, direct_output c h1 h2 t k, direct_output c h1 h2 t (k + 1), (all k).1, step k (all k).2⟩

/-- Within limits that contain the ball around the setpoint in which the output starts, one cycle multiplies the error. -/
theorem euler_step (c : Cfg K) (t : Nat → Nat) (k : Nat) {e : K} (hlo : c.lower < c.r - e) (hup : c.r + e < c.upper)
    (hk : |c.r - euler c t k| ≤ e) (h : 0 ≤ c.g * sec (t k) (t (k + 1)) ∧ c.g * sec (t k) (t (k + 1)) ≤ 2) :
    c.r - euler c t (k + 1) = (1 - c.g * sec (t k) (t (k + 1))) * (c.r - euler c t k) := by
  have hb : |(1 - c.g * sec (t k) (t (k + 1))) * (c.r - euler c t k)| ≤ e := by
    rw [abs_mul]
    have : |1 - c.g * sec (t k) (t (k + 1))| ≤ 1 := abs_le.mpr ⟨by linarith [h.2], by linarith [h.1]⟩
    calc _ ≤ 1 * |c.r - euler c t k| := mul_le_mul_of_nonneg_right this (abs_nonneg _)
      _ ≤ e := by linarith
  have hn : euler c t k + c.g * (c.r - euler c t k) * sec (t k) (t (k + 1)) = c.r - (1 - c.g * sec (t k) (t (k + 1))) * (c.r - euler c t k) := by
    ring
  have := abs_le.mp hb
  simp only [euler, within, hn]
  rw [if_pos ⟨by linarith, by linarith⟩]
  ring

/-- **Convergence with jitter**: if gain times elapsed time stays between `δ` and `2 - δ`, the error is at most `(1 - δ)^k` times the
first one, whatever the times of the cycles. -/
theorem direct_converges (c : Cfg K) (h1 : c.gmin ≤ c.g) (h2 : c.g ≤ c.gmax) (t : Nat → Nat) (δ : K) (h0 : 0 ≤ δ) (hδ : δ ≤ 1)
    (ht : ∀ k, δ ≤ c.g * sec (t k) (t (k + 1)) ∧ c.g * sec (t k) (t (k + 1)) ≤ 2 - δ)
    (hlo : c.lower < c.r - |c.r - c.x0|) (hup : c.r + |c.r - c.x0| < c.upper) (k : Nat) :
    ∃ y, output (direct c) (start c) t k = some y ∧ |c.r - y| ≤ (1 - δ) ^ k * |c.r - c.x0| := by
  refine ⟨_, direct_output c h1 h2 t k, ?_⟩
  induction k with
  | zero => simp [euler]
  | succ k ih =>
    have hp : (1 - δ) ^ k ≤ 1 := pow_le_one₀ (by linarith) (by linarith)
    have hk : |c.r - euler c t k| ≤ |c.r - c.x0| := by
      calc _ ≤ (1 - δ) ^ k * |c.r - c.x0| := ih
        _ ≤ 1 * |c.r - c.x0| := mul_le_mul_of_nonneg_right hp (abs_nonneg _)
        _ = _ := one_mul _
    rw [euler_step c t k hlo hup hk ⟨by linarith [(ht k).1], by linarith [(ht k).2]⟩, abs_mul, pow_succ]
    have : |1 - c.g * sec (t k) (t (k + 1))| ≤ 1 - δ := abs_le.mpr ⟨by linarith [(ht k).2], by linarith [(ht k).1]⟩
    calc _ ≤ (1 - δ) * ((1 - δ) ^ k * |c.r - c.x0|) := mul_le_mul this ih (abs_nonneg _) (by linarith)
      _ = _ := by ring

/-- **Convergence on a grid with jitter**, as the executor provides it (cycle `k` not before `k` periods, C82) if each cycle starts at most
`J` late: the gain must fit the shortest and the longest distance of two cycles. -/
theorem direct_on_grid (c : Cfg K) (h1 : c.gmin ≤ c.g) (h2 : c.g ≤ c.gmax) (t : Nat → Nat) (T P J : Nat) (hg : 0 ≤ c.g)
    (ht : ∀ k, T + k * P ≤ t k ∧ t k ≤ T + k * P + J) (δ : K) (h0 : 0 ≤ δ) (hδ : δ ≤ 1)
    (hmin : δ ≤ c.g * (((P : K) - J) / 1000000000)) (hmax : c.g * (((P : K) + J) / 1000000000) ≤ 2 - δ)
    (hlo : c.lower < c.r - |c.r - c.x0|) (hup : c.r + |c.r - c.x0| < c.upper) (k : Nat) :
    ∃ y, output (direct c) (start c) t k = some y ∧ |c.r - y| ≤ (1 - δ) ^ k * |c.r - c.x0| := by
  refine direct_converges c h1 h2 t δ h0 hδ (fun k => ?_) hlo hup k
  have a1 : (T : K) + k * P ≤ t k := by exact_mod_cast (ht k).1
  have a2 : (t k : K) ≤ T + k * P + J := by exact_mod_cast (ht k).2
  have b1 : (T : K) + (k + 1) * P ≤ t (k + 1) := by exact_mod_cast (ht (k + 1)).1
  have b2 : (t (k + 1) : K) ≤ T + (k + 1) * P + J := by exact_mod_cast (ht (k + 1)).2
  have s1 : ((P : K) - J) / 1000000000 ≤ sec (t k) (t (k + 1)) := by
    unfold sec; exact div_le_div_of_nonneg_right (by linarith) (by norm_num)
  have s2 : (sec (t k) (t (k + 1)) : K) ≤ ((P : K) + J) / 1000000000 := by
    unfold sec; exact div_le_div_of_nonneg_right (by linarith) (by norm_num)
  exact ⟨le_trans hmin (mul_le_mul_of_nonneg_left s1 hg), le_trans (mul_le_mul_of_nonneg_left s2 hg) hmax⟩

/-- **Too much gain, or of the wrong sign**: the error never becomes smaller than at the beginning, also where the limits stop the
integrator. -/
theorem direct_diverges (c : Cfg K) (h1 : c.gmin ≤ c.g) (h2 : c.g ≤ c.gmax) (t : Nat → Nat)
    (ht : ∀ k, c.g * sec (t k) (t (k + 1)) ≤ 0 ∨ 2 ≤ c.g * sec (t k) (t (k + 1))) (k : Nat) :
    ∃ y, output (direct c) (start c) t k = some y ∧ |c.r - c.x0| ≤ |c.r - y| := by
  refine ⟨_, direct_output c h1 h2 t k, ?_⟩
  induction k with
  | zero => simp [euler]
  | succ k ih =>
    refine le_trans ih ?_
    simp only [euler, within]
    split
    · have hn : c.r - (euler c t k + c.g * (c.r - euler c t k) * sec (t k) (t (k + 1))) =
          (1 - c.g * sec (t k) (t (k + 1))) * (c.r - euler c t k) := by ring
      rw [hn, abs_mul]
      have : 1 ≤ |1 - c.g * sec (t k) (t (k + 1))| := by
        rcases ht k with h | h
        · exact le_trans (by linarith) (le_abs_self _)
        · exact le_trans (by linarith) (neg_le_abs _)
      calc _ = 1 * |c.r - euler c t k| := (one_mul _).symm
        _ ≤ _ := mul_le_mul_of_nonneg_right this (abs_nonneg _)
    · exact le_refl _

/-! ### The loop with the gain added last -/

/-- **The first step does not depend on the period of the loop but on the time since the initial time stamp**: the signal of the gain that
the integrator reads in its first run is cleared and carries a time stamp that is not initialised (0, the origin of the clock, in static
memory), and the next one carries the time of the clock. -/
theorem gainLast_start_violated (c : Cfg K) (h1 : c.gmin ≤ c.g) (h2 : c.g ≤ c.gmax) (t : Nat → Nat)
    (hlo : c.lower < c.x0 + c.g * (c.r - c.v) * sec c.ts0 (t 0)) (hup : c.x0 + c.g * (c.r - c.v) * sec c.ts0 (t 0) < c.upper) :
    output (gainLast c) (start c) t 0 = some c.x0 ∧
    output (gainLast c) (start c) t 1 = some (c.x0 + c.g * (c.r - c.v) * sec c.ts0 (t 0)) := by
  refine ⟨gainLast_output c h1 h2 t 0, ?_⟩
  rw [gainLast_output c h1 h2 t 1]
  simp [late, within, hlo, hup]

/-- The free recursion of the error: it is reduced by `a` times the error of the cycle before. -/
def osc (a e0 e1 : K) : Nat → K
  | 0 => e0
  | 1 => e1
  | k + 2 => osc a e0 e1 (k + 1) - a * osc a e0 e1 k

/-- The error after the first step. -/
def jump (c : Cfg K) (t0 : Nat) : K := c.r - c.x0 - c.g * (c.r - c.v) * sec c.ts0 t0

/-- With a constant period `P` and as long as no limit is reached the error is the free recursion with `a = g P`. -/
theorem late_periodic (c : Cfg K) (t0 P n : Nat)
    (hl : ∀ k, 1 ≤ k → k ≤ n → c.lower < c.r - osc (c.g * (P / 1000000000)) (c.r - c.x0) (jump c t0) k ∧
      c.r - osc (c.g * (P / 1000000000)) (c.r - c.x0) (jump c t0) k < c.upper) :
    c.r - late c (fun k => t0 + k * P) n = osc (c.g * (P / 1000000000)) (c.r - c.x0) (jump c t0) n := by
  suffices H : ∀ n, (∀ k, 1 ≤ k → k ≤ n + 1 → c.lower < c.r - osc (c.g * (P / 1000000000)) (c.r - c.x0) (jump c t0) k ∧
      c.r - osc (c.g * (P / 1000000000)) (c.r - c.x0) (jump c t0) k < c.upper) →
      late c (fun k => t0 + k * P) n = c.r - osc (c.g * (P / 1000000000)) (c.r - c.x0) (jump c t0) n ∧
      late c (fun k => t0 + k * P) (n + 1) = c.r - osc (c.g * (P / 1000000000)) (c.r - c.x0) (jump c t0) (n + 1) by
    cases n with
    | zero => simp [late, osc]
    | succ n => rw [(H n hl).2]; ring
  intro n
  induction n with
  | zero =>
    intro hl
    have h := hl 1 (le_refl _) (by omega)
    refine ⟨by simp [late, osc], ?_⟩
    have e : c.x0 + c.g * (c.r - c.v) * sec c.ts0 (t0 + 0 * P) = c.r - osc (c.g * (P / 1000000000)) (c.r - c.x0) (jump c t0) 1 := by
      simp only [osc, jump, sec, Nat.zero_mul, Nat.add_zero]; ring
    simp only [late, within]
    rw [e, if_pos h]
  | succ n ih =>
    intro hl
    obtain ⟨i1, i2⟩ := ih fun k h1 h2 => hl k h1 (by omega)
    refine ⟨i2, ?_⟩
    have h := hl (n + 2) (by omega) (by omega)
    have e : c.r - osc (c.g * (P / 1000000000)) (c.r - c.x0) (jump c t0) (n + 1) +
        c.g * (c.r - (c.r - osc (c.g * (P / 1000000000)) (c.r - c.x0) (jump c t0) n)) * sec (t0 + n * P) (t0 + (n + 1) * P) =
        c.r - osc (c.g * (P / 1000000000)) (c.r - c.x0) (jump c t0) (n + 2) := by
      simp only [osc, sec, Nat.cast_add, Nat.cast_mul, Nat.cast_one]; ring
    show late c (fun k => t0 + k * P) (n + 2) = _
    simp only [late, within]
    rw [i1, i2, e, if_pos h]

/-- A quadratic form that is multiplied by `a` in each cycle. -/
def form (a e e' : K) : K := e' * e' - e' * e + a * (e * e)

omit [LinearOrder K] [IsStrictOrderedRing K] in
theorem form_osc (a e0 e1 : K) (k : Nat) : form a (osc a e0 e1 k) (osc a e0 e1 (k + 1)) = a ^ k * form a e0 e1 := by
  induction k with
  | zero => simp [osc]
  | succ k ih =>
    have : form a (osc a e0 e1 (k + 1)) (osc a e0 e1 (k + 2)) = a * form a (osc a e0 e1 k) (osc a e0 e1 (k + 1)) := by
      simp only [form, osc]; ring
    rw [this, ih, pow_succ]; ring

theorem form_pos {a e e' : K} (ha : 1 ≤ a) (h : e ≠ 0 ∨ e' ≠ 0) : 0 < form a e e' := by
  unfold form
  rcases eq_or_ne e 0 with he | he
  · subst he
    have : 0 < e' * e' := mul_self_pos.mpr (by simpa using h)
    simp [this]
  · have h1 : 0 < e * e := mul_self_pos.mpr he
    nlinarith [sq_nonneg (2 * e' - e), mul_le_mul_of_nonneg_right ha h1.le]

theorem form_le {a e e' m : K} (ha : 0 ≤ a) (h : e * e ≤ m) (h' : e' * e' ≤ m) : form a e e' ≤ (2 + a) * m := by
  unfold form
  nlinarith [sq_nonneg (e + e'), mul_le_mul_of_nonneg_left h ha]

/-- **With the gain added last the loop oscillates if gain times period is at least 1**: of two successive errors the square of one is
at least a constant that is not 0 and that grows with every cycle if the product is larger than 1 — until a limit of the integrator is
reached. -/
theorem gainLast_oscillates_violated (c : Cfg K) (h1 : c.gmin ≤ c.g) (h2 : c.g ≤ c.gmax) (t0 P n : Nat)
    (ha : 1 ≤ c.g * (P / 1000000000)) (hx : c.x0 ≠ c.r)
    (hl : ∀ k, 1 ≤ k → k ≤ n + 1 → c.lower < c.r - osc (c.g * (P / 1000000000)) (c.r - c.x0) (jump c t0) k ∧
      c.r - osc (c.g * (P / 1000000000)) (c.r - c.x0) (jump c t0) k < c.upper) :
    ∃ y y' q, output (gainLast c) (start c) (fun k => t0 + k * P) n = some y ∧
      output (gainLast c) (start c) (fun k => t0 + k * P) (n + 1) = some y' ∧
      q = form (c.g * (P / 1000000000)) (c.r - c.x0) (jump c t0) ∧ 0 < q ∧
      (c.g * (P / 1000000000)) ^ n * q ≤ (2 + c.g * (P / 1000000000)) * max ((c.r - y) * (c.r - y)) ((c.r - y') * (c.r - y')) := by
  refine ⟨_, _, _, gainLast_output c h1 h2 _ n, gainLast_output c h1 h2 _ (n + 1), rfl, form_pos ha (Or.inl ?_), ?_⟩
  · intro h; exact hx (by linarith)
  · rw [late_periodic c t0 P n fun k a b => hl k a (by omega), late_periodic c t0 P (n + 1) hl, ← form_osc]
    exact form_le (by linarith) (le_max_left _ _) (le_max_right _ _)

/-! ### Limits, over the reals -/
open Filter Topology

/-- The output exists in all cycles and converges to the setpoint. -/
def Converges (cyc : Nat → St ℝ → Except Err (St ℝ)) (s0 : Except Err (St ℝ)) (t : Nat → Nat) (r : ℝ) : Prop :=
  ∃ y : Nat → ℝ, (∀ k, output cyc s0 t k = some (y k)) ∧ Tendsto y atTop (𝓝 r)

/-- **The loop in the direction of the signals is stable exactly for `0 < g P < 2`**. -/
theorem direct_stable_iff (c : Cfg ℝ) (h1 : c.gmin ≤ c.g) (h2 : c.g ≤ c.gmax) (t0 P : Nat) (hx : c.x0 ≠ c.r)
    (hlo : c.lower < c.r - |c.r - c.x0|) (hup : c.r + |c.r - c.x0| < c.upper) :
    Converges (direct c) (start c) (fun k => t0 + k * P) c.r ↔ 0 < c.g * (P / 1000000000) ∧ c.g * (P / 1000000000) < 2 := by
  have hs : ∀ k, c.g * sec ((fun k => t0 + k * P) k) ((fun k => t0 + k * P) (k + 1)) = c.g * (P / 1000000000) := by
    intro k; simp only [sec, Nat.cast_add, Nat.cast_mul, Nat.cast_one]; ring
  constructor
  · rintro ⟨y, hy, hlim⟩
    by_contra hn
    have hd : c.g * ((P : ℝ) / 1000000000) ≤ 0 ∨ 2 ≤ c.g * ((P : ℝ) / 1000000000) := by
      rcases le_or_gt (c.g * ((P : ℝ) / 1000000000)) 0 with h | h
      · exact Or.inl h
      · exact Or.inr (le_of_not_gt fun q => hn ⟨h, q⟩)
    have hpos : 0 < |c.r - c.x0| := abs_pos.mpr fun h => hx (by linarith)
    have hge : ∀ k, |c.r - c.x0| ≤ |c.r - y k| := by
      intro k
      obtain ⟨z, hz, hb⟩ := direct_diverges c h1 h2 (fun k => t0 + k * P) (fun k => by rw [hs k]; exact hd) k
      rw [hy k] at hz
      rwa [Option.some.inj hz]
    have : Tendsto (fun k => |c.r - y k|) atTop (𝓝 |c.r - c.r|) := (tendsto_const_nhds.sub hlim).abs
    rw [sub_self, abs_zero] at this
    exact absurd (ge_of_tendsto' this hge) (not_le.mpr hpos)
  · rintro ⟨ha, hb⟩
    refine ⟨_, direct_output c h1 h2 _, ?_⟩
    have key : ∀ δ : ℝ, 0 < δ → δ ≤ 1 → δ ≤ c.g * (P / 1000000000) → c.g * (P / 1000000000) ≤ 2 - δ →
        Tendsto (euler c fun k => t0 + k * P) atTop (𝓝 c.r) := by
      intro δ d0 d1 d2 d3
      have hb : ∀ k, |c.r - euler c (fun k => t0 + k * P) k| ≤ (1 - δ) ^ k * |c.r - c.x0| := by
        intro k
        obtain ⟨z, hz, hb⟩ := direct_converges c h1 h2 (fun k => t0 + k * P) δ d0.le d1 (fun k => by rw [hs k]; exact ⟨d2, d3⟩) hlo hup k
        rw [direct_output c h1 h2] at hz
        rwa [Option.some.inj hz]
      have hz : Tendsto (fun k => (1 - δ) ^ k * |c.r - c.x0|) atTop (𝓝 0) := by
        have := (tendsto_pow_atTop_nhds_zero_of_lt_one (r := 1 - δ) (by linarith) (by linarith)).mul_const |c.r - c.x0|
        rwa [zero_mul] at this
      have h0 : Tendsto (fun k => c.r - euler c (fun k => t0 + k * P) k) atTop (𝓝 0) :=
        squeeze_zero_norm (fun k => by rw [Real.norm_eq_abs]; exact hb k) hz
      have := (tendsto_const_nhds (x := c.r)).sub h0
      simpa using this
    rcases le_or_gt (c.g * ((P : ℝ) / 1000000000)) 1 with h | h
    · exact key _ ha h (le_refl _) (by linarith)
    · exact key (2 - c.g * (P / 1000000000)) (by linarith) (by linarith) (by linarith) (by linarith)

/-- Complex roots. -/
theorem osc_tendsto_large {a : ℝ} (h0 : 1 / 4 < a) (h1 : a < 1) (e0 e1 : ℝ) : Tendsto (osc a e0 e1) atTop (𝓝 0) := by
  have hb : ∀ k, osc a e0 e1 k * osc a e0 e1 k ≤ a ^ k * (form a e0 e1 / (a - 1 / 4)) := by
    intro k
    have h := form_osc a e0 e1 k
    have hp : 0 < a - 1 / 4 := by linarith
    rw [← mul_div_assoc, le_div_iff₀ hp, ← h]
    unfold form
    nlinarith [sq_nonneg (2 * osc a e0 e1 (k + 1) - osc a e0 e1 k)]
  have hz : Tendsto (fun k => a ^ k * (form a e0 e1 / (a - 1 / 4))) atTop (𝓝 0) := by
    have := (tendsto_pow_atTop_nhds_zero_of_lt_one (r := a) (by linarith) h1).mul_const (form a e0 e1 / (a - 1 / 4))
    rwa [zero_mul] at this
  have hs : Tendsto (fun k => osc a e0 e1 k * osc a e0 e1 k) atTop (𝓝 0) := squeeze_zero (fun k => mul_self_nonneg _) hb hz
  have := hs.sqrt
  simp only [Real.sqrt_mul_self_eq_abs, Real.sqrt_zero] at this
  exact (tendsto_zero_iff_abs_tendsto_zero _).mpr this

/-- Real roots `l` and `1 - l`. -/
theorem osc_tendsto_small {l : ℝ} (h0 : 1 / 2 ≤ l) (h1 : l < 1) (e0 e1 : ℝ) : Tendsto (osc (l * (1 - l)) e0 e1) atTop (𝓝 0) := by
  have hf : ∀ k, osc (l * (1 - l)) e0 e1 (k + 1) - l * osc (l * (1 - l)) e0 e1 k = (1 - l) ^ k * (e1 - l * e0) := by
    intro k
    induction k with
    | zero => simp [osc]
    | succ k ih =>
      have : osc (l * (1 - l)) e0 e1 (k + 2) - l * osc (l * (1 - l)) e0 e1 (k + 1) =
          (1 - l) * (osc (l * (1 - l)) e0 e1 (k + 1) - l * osc (l * (1 - l)) e0 e1 k) := by simp only [osc]; ring
      rw [this, ih, pow_succ]; ring
  have hb : ∀ k : Nat, |osc (l * (1 - l)) e0 e1 k| ≤ l ^ k * |e0| + 2 * (k * l ^ k) * |e1 - l * e0| := by
    intro k
    induction k with
    | zero => simp [osc]
    | succ k ih =>
      have e : osc (l * (1 - l)) e0 e1 (k + 1) = l * osc (l * (1 - l)) e0 e1 k + (1 - l) ^ k * (e1 - l * e0) := by rw [← hf k]; ring
      have a1 : |l * osc (l * (1 - l)) e0 e1 k| ≤ l * (l ^ k * |e0| + 2 * (k * l ^ k) * |e1 - l * e0|) := by
        rw [abs_mul, abs_of_nonneg (by linarith : (0 : ℝ) ≤ l)]
        exact mul_le_mul_of_nonneg_left ih (by linarith)
      have a2 : |(1 - l) ^ k * (e1 - l * e0)| ≤ 2 * l ^ (k + 1) * |e1 - l * e0| := by
        rw [abs_mul, abs_of_nonneg (pow_nonneg (by linarith : (0 : ℝ) ≤ 1 - l) k)]
        refine mul_le_mul_of_nonneg_right ?_ (abs_nonneg _)
        calc (1 - l) ^ k ≤ l ^ k := pow_le_pow_left₀ (by linarith) (by linarith) k
          _ ≤ 2 * l ^ (k + 1) := by
            rw [pow_succ]
            have : 0 ≤ l ^ k := pow_nonneg (by linarith) k
            nlinarith
      rw [e]
      refine le_trans (abs_add_le _ _) ?_
      push_cast
      calc _ ≤ l * (l ^ k * |e0| + 2 * (k * l ^ k) * |e1 - l * e0|) + 2 * l ^ (k + 1) * |e1 - l * e0| := add_le_add a1 a2
        _ = _ := by ring
  have z1 : Tendsto (fun k : Nat => l ^ k * |e0|) atTop (𝓝 0) := by
    have := (tendsto_pow_atTop_nhds_zero_of_lt_one (r := l) (by linarith) h1).mul_const |e0|
    rwa [zero_mul] at this
  have z2 : Tendsto (fun k : Nat => 2 * (k * l ^ k) * |e1 - l * e0|) atTop (𝓝 0) := by
    have := ((tendsto_self_mul_const_pow_of_lt_one (r := l) (by linarith) h1).const_mul 2).mul_const |e1 - l * e0|
    rwa [mul_zero, zero_mul] at this
  have z := z1.add z2
  rw [add_zero] at z
  exact squeeze_zero_norm (fun k => by rw [Real.norm_eq_abs]; exact hb k) z

/-- The free recursion decays for `0 < a < 1`. -/
theorem osc_tendsto {a : ℝ} (h0 : 0 < a) (h1 : a < 1) (e0 e1 : ℝ) : Tendsto (osc a e0 e1) atTop (𝓝 0) := by
  rcases lt_or_ge (1 / 4) a with h | h
  · exact osc_tendsto_large h h1 e0 e1
  · have hd : 0 ≤ 1 - 4 * a := by linarith
    have hs : Real.sqrt (1 - 4 * a) * Real.sqrt (1 - 4 * a) = 1 - 4 * a := Real.mul_self_sqrt hd
    have hs0 : 0 ≤ Real.sqrt (1 - 4 * a) := Real.sqrt_nonneg _
    have hs1 : Real.sqrt (1 - 4 * a) < 1 := by nlinarith
    have e : a = ((1 + Real.sqrt (1 - 4 * a)) / 2) * (1 - (1 + Real.sqrt (1 - 4 * a)) / 2) := by nlinarith
    have := osc_tendsto_small (l := (1 + Real.sqrt (1 - 4 * a)) / 2) (by linarith) (by linarith) e0 e1
    rwa [← e] at this

/-- **With the gain added last the loop is stable only for `g P < 1`**: it converges for `0 < g P < 1`, if its limits contain the values
of the free recursion, -/
theorem gainLast_converges_partial (c : Cfg ℝ) (h1 : c.gmin ≤ c.g) (h2 : c.g ≤ c.gmax) (t0 P : Nat)
    (ha : 0 < c.g * ((P : ℝ) / 1000000000)) (ha' : c.g * ((P : ℝ) / 1000000000) < 1)
    (hl : ∀ k, c.lower < c.r - osc (c.g * (P / 1000000000)) (c.r - c.x0) (jump c t0) k ∧
      c.r - osc (c.g * (P / 1000000000)) (c.r - c.x0) (jump c t0) k < c.upper) :
    Converges (gainLast c) (start c) (fun k => t0 + k * P) c.r := by
  refine ⟨_, gainLast_output c h1 h2 _, ?_⟩
  have e : ∀ k, late c (fun k => t0 + k * P) k = c.r - osc (c.g * (P / 1000000000)) (c.r - c.x0) (jump c t0) k := by
    intro k
    rw [← late_periodic c t0 P k fun k _ _ => hl k]; ring
  rw [show late c (fun k => t0 + k * P) = fun k => c.r - osc (c.g * (P / 1000000000)) (c.r - c.x0) (jump c t0) k from funext e]
  have := (tendsto_const_nhds (x := c.r)).sub (osc_tendsto ha ha' (c.r - c.x0) (jump c t0))
  simpa using this

/-- and does not converge for `1 ≤ g P` without reaching a limit of the integrator. -/
theorem gainLast_not_converges (c : Cfg ℝ) (h1 : c.gmin ≤ c.g) (h2 : c.g ≤ c.gmax) (t0 P : Nat) (hx : c.x0 ≠ c.r)
    (ha : 1 ≤ c.g * ((P : ℝ) / 1000000000))
    (hl : ∀ k, 1 ≤ k → c.lower < c.r - osc (c.g * (P / 1000000000)) (c.r - c.x0) (jump c t0) k ∧
      c.r - osc (c.g * (P / 1000000000)) (c.r - c.x0) (jump c t0) k < c.upper) :
    ¬ Converges (gainLast c) (start c) (fun k => t0 + k * P) c.r := by
  rintro ⟨y, hy, hlim⟩
  have hq : ∀ n, form (c.g * (P / 1000000000)) (c.r - c.x0) (jump c t0) ≤
      (2 + c.g * (P / 1000000000)) * max ((c.r - y n) * (c.r - y n)) ((c.r - y (n + 1)) * (c.r - y (n + 1))) := by
    intro n
    obtain ⟨z, z', q, hz, hz', hq, hq0, hb⟩ := gainLast_oscillates_violated c h1 h2 t0 P n ha hx fun k h _ => hl k h
    rw [hy] at hz hz'
    rw [Option.some.inj hz, Option.some.inj hz', ← hq]
    refine le_trans ?_ hb
    calc q = 1 * q := (one_mul q).symm
      _ ≤ _ := mul_le_mul_of_nonneg_right (one_le_pow₀ ha) hq0.le
  have d : Tendsto (fun n => c.r - y n) atTop (𝓝 0) := by
    have := (tendsto_const_nhds (x := c.r)).sub hlim
    rwa [sub_self] at this
  have d' : Tendsto (fun n => c.r - y (n + 1)) atTop (𝓝 0) := d.comp (tendsto_add_atTop_nat 1)
  have m := (((d.mul d).max (d'.mul d')).const_mul (2 + c.g * ((P : ℝ) / 1000000000)))
  simp only [mul_zero, max_self] at m
  have := ge_of_tendsto' m hq
  have hp := form_pos (e' := jump c t0) ha (Or.inl (fun h => hx (by linarith) : c.r - c.x0 ≠ 0))
  linarith

/-- For `1 < g P` the oscillation grows until it reaches the limits, whatever they are. -/
theorem osc_leaves {a e0 e1 lower upper r : ℝ} (ha : 1 < a) (h0 : e0 ≠ 0) : ∃ k, 1 ≤ k ∧ ¬ (lower < r - osc a e0 e1 k ∧ r - osc a e0 e1 k < upper) := by
  by_contra hn
  have hl : ∀ k, 1 ≤ k → lower < r - osc a e0 e1 k ∧ r - osc a e0 e1 k < upper := by
    intro k hk
    by_contra h
    exact hn ⟨k, hk, h⟩
  have hq := form_pos (e' := e1) ha.le (Or.inl h0)
  have hb : ∀ k, 1 ≤ k → osc a e0 e1 k * osc a e0 e1 k ≤ (|r - lower| + |r - upper|) * (|r - lower| + |r - upper|) := by
    intro k hk
    have := hl k hk
    have hm : |osc a e0 e1 k| ≤ |r - lower| + |r - upper| :=
      abs_le.mpr ⟨by linarith [neg_abs_le (r - upper), abs_nonneg (r - lower)], by linarith [le_abs_self (r - lower), abs_nonneg (r - upper)]⟩
    rw [← abs_mul_abs_self]
    exact mul_self_le_mul_self (abs_nonneg _) hm
  obtain ⟨n, hn⟩ := pow_unbounded_of_one_lt ((2 + a) * ((|r - lower| + |r - upper|) * (|r - lower| + |r - upper|)) / form a e0 e1) ha
  rw [div_lt_iff₀ hq] at hn
  have h1 := form_osc a e0 e1 (n + 1)
  have h2 := form_le (a := a) (by linarith) (hb (n + 1) (by omega)) (hb (n + 2) (by omega))
  have h3 : a ^ n * form a e0 e1 ≤ a ^ (n + 1) * form a e0 e1 :=
    mul_le_mul_of_nonneg_right (pow_le_pow_right₀ ha.le (by omega)) hq.le
  have h4 : form a (osc a e0 e1 (n + 1)) (osc a e0 e1 (n + 2)) = a ^ (n + 1) * form a e0 e1 := h1
  linarith

/-- **The order of the blocks decides on the stability** (1): for `1 < g P < 2` the loop in the direction of the signals converges and
stays within the first distance from the setpoint; with the same blocks and the gain added last the integrator is stopped by its limits,
however wide they are. -/
theorem order_decides_violated (c : Cfg ℝ) (h1 : c.gmin ≤ c.g) (h2 : c.g ≤ c.gmax) (t0 P : Nat) (hx : c.x0 ≠ c.r)
    (ha : 1 < c.g * ((P : ℝ) / 1000000000)) (ha' : c.g * ((P : ℝ) / 1000000000) < 2)
    (hlo : c.lower < c.r - |c.r - c.x0|) (hup : c.r + |c.r - c.x0| < c.upper) :
    Converges (direct c) (start c) (fun k => t0 + k * P) c.r ∧
    ∃ k y u, output (gainLast c) (start c) (fun k => t0 + k * P) k = some y ∧
      output (gainLast c) (start c) (fun k => t0 + k * P) (k + 1) = some y ∧ (y + u ≤ c.lower ∨ c.upper ≤ y + u) ∧
      u = if k = 0 then c.g * (c.r - c.v) * sec c.ts0 t0
        else c.g * (P / 1000000000) * (c.r - late c (fun k => t0 + k * P) (k - 1)) := by
  refine ⟨(direct_stable_iff c h1 h2 t0 P hx hlo hup).mpr ⟨by linarith, ha'⟩, ?_⟩
  have hex := osc_leaves (e1 := jump c t0) (lower := c.lower) (upper := c.upper) (r := c.r) ha
    (fun h => hx (by linarith) : c.r - c.x0 ≠ 0)
  classical
  obtain ⟨⟨hm1, hm2⟩, hmin⟩ := And.intro (Nat.find_spec hex) (fun j => Nat.find_min (H := hex) (m := j))
  generalize Nat.find hex = m at hm1 hm2 hmin
  obtain ⟨k, rfl⟩ : ∃ k, m = k + 1 := ⟨m - 1, by omega⟩
  have hl : ∀ j, 1 ≤ j → j ≤ k → c.lower < c.r - osc (c.g * (P / 1000000000)) (c.r - c.x0) (jump c t0) j ∧
      c.r - osc (c.g * (P / 1000000000)) (c.r - c.x0) (jump c t0) j < c.upper := by
    intro j hj hk
    by_contra h
    exact hmin j (by omega) ⟨hj, h⟩
  have hk := late_periodic c t0 P k hl
  have hout : ∀ x, c.r - x = osc (c.g * (P / 1000000000)) (c.r - c.x0) (jump c t0) (k + 1) → x ≤ c.lower ∨ c.upper ≤ x := by
    intro x hx
    rw [← hx] at hm2
    by_contra h
    push Not at h
    exact hm2 ⟨by linarith [h.1], by linarith [h.2]⟩
  refine ⟨k, late c (fun k => t0 + k * P) k, _, gainLast_output c h1 h2 _ k, ?_, ?_, rfl⟩
  · rw [gainLast_output c h1 h2]
    cases k with
    | zero =>
      have e : c.r - (c.x0 + c.g * (c.r - c.v) * sec c.ts0 (t0 + 0 * P)) = osc (c.g * (P / 1000000000)) (c.r - c.x0) (jump c t0) (0 + 1) := by
        simp only [osc, jump, sec, Nat.zero_mul, Nat.add_zero]; ring
      simp only [late, within]
      rw [if_neg]
      rintro ⟨q1, q2⟩
      rcases hout _ e with h | h <;> linarith
    | succ k =>
      have hk' := late_periodic c t0 P k fun j a b => hl j a (by omega)
      have e : c.r - (late c (fun k => t0 + k * P) (k + 1) + c.g * (c.r - late c (fun k => t0 + k * P) k) * sec (t0 + k * P) (t0 + (k + 1) * P)) =
          osc (c.g * (P / 1000000000)) (c.r - c.x0) (jump c t0) (k + 1 + 1) := by
        rw [osc, ← hk, ← hk']
        simp only [sec, Nat.cast_add, Nat.cast_mul, Nat.cast_one]; ring
      show some (late c (fun k => t0 + k * P) (k + 2)) = _
      rw [late]
      simp only [within]
      rw [if_neg]
      rintro ⟨q1, q2⟩
      rcases hout _ e with h | h <;> linarith
  · apply hout
    cases k with
    | zero => simp only [late, if_true, osc, jump]; ring
    | succ k =>
      have hk' := late_periodic c t0 P k fun j a b => hl j a (by omega)
      rw [if_neg (by omega), Nat.add_sub_cancel, osc, ← hk, ← hk']
      ring

omit [LinearOrder K] [IsStrictOrderedRing K] in
theorem osc_one (e0 e1 : K) (k : Nat) : osc 1 e0 e1 (k + 3) = - osc 1 e0 e1 k := by
  have a : osc 1 e0 e1 (k + 3) = osc 1 e0 e1 (k + 2) - 1 * osc 1 e0 e1 (k + 1) := rfl
  have b : osc 1 e0 e1 (k + 2) = osc 1 e0 e1 (k + 1) - 1 * osc 1 e0 e1 k := rfl
  rw [a, b]; ring

theorem osc_one_le (e0 e1 : K) : ∀ k, |osc 1 e0 e1 k| ≤ |e0| + |e1|
  | 0 => by simp [osc]
  | 1 => by simp [osc]
  | 2 => by
    have : osc 1 e0 e1 2 = e1 - e0 := by simp [osc]
    rw [this]
    exact le_trans (abs_sub _ _) (by rw [add_comm])
  | k + 3 => by rw [osc_one, abs_neg]; exact osc_one_le e0 e1 k

/-- **The order of the blocks decides on the stability** (2): for `g P = 1` the loop in the direction of the signals reaches the setpoint
in one step; with the gain added last the error repeats itself for ever, with a period of six cycles. -/
theorem order_dead_beat_violated (c : Cfg ℝ) (h1 : c.gmin ≤ c.g) (h2 : c.g ≤ c.gmax) (t0 P : Nat) (hx : c.x0 ≠ c.r)
    (ha : c.g * ((P : ℝ) / 1000000000) = 1)
    (hlo : c.lower < c.r - (|c.r - c.x0| + |jump c t0|)) (hup : c.r + (|c.r - c.x0| + |jump c t0|) < c.upper) :
    (∀ k, output (direct c) (start c) (fun k => t0 + k * P) (k + 1) = some c.r) ∧
    (∀ k, output (gainLast c) (start c) (fun k => t0 + k * P) (k + 6) = output (gainLast c) (start c) (fun k => t0 + k * P) k) ∧
    ¬ Converges (gainLast c) (start c) (fun k => t0 + k * P) c.r := by
  have hl : ∀ k, c.lower < c.r - osc (c.g * (P / 1000000000)) (c.r - c.x0) (jump c t0) k ∧
      c.r - osc (c.g * (P / 1000000000)) (c.r - c.x0) (jump c t0) k < c.upper := by
    intro k
    rw [ha]
    have := abs_le.mp (osc_one_le (c.r - c.x0) (jump c t0) k)
    constructor <;> linarith [this.1, this.2]
  refine ⟨?_, ?_, gainLast_not_converges c h1 h2 t0 P hx ha.ge fun k _ => hl k⟩
  · intro k
    have hs : ∀ k, c.g * sec ((fun k => t0 + k * P) k) ((fun k => t0 + k * P) (k + 1)) = 1 := by
      intro k; rw [← ha]; simp only [sec, Nat.cast_add, Nat.cast_mul, Nat.cast_one]; ring
    have hj := abs_nonneg (jump c t0)
    obtain ⟨y, hy, hb⟩ := direct_converges c h1 h2 (fun k => t0 + k * P) 1 zero_le_one (le_refl _)
      (fun k => by rw [hs k]; constructor <;> linarith) (by linarith) (by linarith) (k + 1)
    rw [hy]
    rw [sub_self, zero_pow (by omega), zero_mul] at hb
    have := abs_nonpos_iff.mp hb
    rw [show y = c.r by linarith]
  · intro k
    have e : ∀ k, late c (fun k => t0 + k * P) k = c.r - osc (c.g * (P / 1000000000)) (c.r - c.x0) (jump c t0) k := by
      intro k
      rw [← late_periodic c t0 P k fun k _ _ => hl k]; ring
    rw [gainLast_output c h1 h2, gainLast_output c h1 h2, e, e, ha, show k + 6 = k + 3 + 3 from rfl, osc_one, osc_one, neg_neg]

/-! ### Cases -/

/-- Gain 2 per second, from 0 to 1. -/
def caseEx : Cfg ℚ := { r := 1, g := 2, gmin := -10, gmax := 10, v := 0, x0 := 0, lower := -100, upper := 100, ts0 := 0 }

/-- A period of a quarter of a second: the error is halved in each cycle. -/
example : (List.range 4).map (output (direct caseEx) (start caseEx) fun k => 1000000000 + k * 250000000) =
    [some 0, some (1 / 2), some (3 / 4), some (7 / 8)] := by decide +kernel

/-- The same with the gain added last, one second after the origin of the clock: the first step is as if the period were one second. -/
example : (List.range 5).map (output (gainLast caseEx) (start caseEx) fun k => 1000000000 + k * 250000000) =
    [some 0, some 2, some (5 / 2), some 2, some (5 / 4)] := by decide +kernel

/-- Half a second: the setpoint in one step, and an oscillation with a period of six cycles. -/
example : (List.range 4).map (output (direct caseEx) (start caseEx) fun k => 1000000000 + k * 500000000) =
    [some 0, some 1, some 1, some 1] := by decide +kernel
example : (List.range 8).map (output (gainLast caseEx) (start caseEx) fun k => 1000000000 + k * 500000000) =
    [some 0, some 2, some 3, some 2, some 0, some (-1), some 0, some 2] := by decide +kernel

/-- The hypotheses of the theorems above hold with jitter between 0.2 and 0.3 seconds. -/
example (t : Nat → Nat) (ht : ∀ k, t k + 200000000 ≤ t (k + 1) ∧ t (k + 1) ≤ t k + 300000000) (k : Nat) :
    ∃ y, output (direct caseEx) (start caseEx) t k = some y ∧ |1 - y| ≤ (3 / 5) ^ k := by
  have hs : ∀ k, (2 / 5 : ℚ) ≤ caseEx.g * sec (t k) (t (k + 1)) ∧ caseEx.g * sec (t k) (t (k + 1)) ≤ 2 - 2 / 5 := by
    intro k
    have h1 : ((t k : ℚ) + 200000000) ≤ t (k + 1) := by exact_mod_cast (ht k).1
    have h2 : (t (k + 1) : ℚ) ≤ t k + 300000000 := by exact_mod_cast (ht k).2
    simp only [caseEx, sec]
    constructor <;> linarith
  have := direct_converges caseEx (by norm_num [caseEx]) (by norm_num [caseEx]) t (2 / 5) (by norm_num) (by norm_num) hs
    (by norm_num [caseEx]) (by norm_num [caseEx]) k
  norm_num [caseEx] at this ⊢
  exact this

example (t : Nat → Nat) (ht : ∀ k, t k ≤ t (k + 1) ∧ t (k + 1) ≤ t k + 500000000) (k : Nat) :
    ∃ y y', output (direct caseEx) (start caseEx) t k = some y ∧ output (direct caseEx) (start caseEx) t (k + 1) = some y' ∧ 0 ≤ y ∧ y ≤ y' ∧ y' ≤ 1 := by
  refine direct_no_overshoot caseEx (by norm_num [caseEx]) (by norm_num [caseEx]) t (fun k => ?_) (by norm_num [caseEx]) k
  have h1 : (t k : ℚ) ≤ t (k + 1) := by exact_mod_cast (ht k).1
  have h2 : (t (k + 1) : ℚ) ≤ t k + 500000000 := by exact_mod_cast (ht k).2
  simp only [caseEx, sec]
  constructor <;> linarith

/-- A period of 0.2 s and a jitter of 0.1 s. -/
example (t : Nat → Nat) (ht : ∀ k, 7 + k * 200000000 ≤ t k ∧ t k ≤ 7 + k * 200000000 + 100000000) (k : Nat) :
    ∃ y, output (direct caseEx) (start caseEx) t k = some y ∧ |1 - y| ≤ (4 / 5) ^ k := by
  have := direct_on_grid caseEx (by norm_num [caseEx]) (by norm_num [caseEx]) t 7 200000000 100000000 (by norm_num [caseEx]) ht (1 / 5)
    (by norm_num) (by norm_num) (by norm_num [caseEx]) (by norm_num [caseEx]) (by norm_num [caseEx]) (by norm_num [caseEx]) k
  norm_num [caseEx] at this ⊢
  exact this

/-- The same over the reals with a gain of `a` per second. -/
noncomputable def caseR (a : ℝ) : Cfg ℝ := { r := 1, g := a, gmin := -10, gmax := 10, v := 0, x0 := 0, lower := -100, upper := 100, ts0 := 0 }

example : Converges (direct (caseR (3 / 2))) (start (caseR (3 / 2))) (fun k => 5000000000 + k * 1000000000) 1 :=
  (direct_stable_iff (caseR (3 / 2)) (by norm_num [caseR]) (by norm_num [caseR]) 5000000000 1000000000 (by norm_num [caseR])
    (by norm_num [caseR]) (by norm_num [caseR])).mpr (by norm_num [caseR])

example : ¬ Converges (direct (caseR 2)) (start (caseR 2)) (fun k => 5000000000 + k * 1000000000) 1 := fun h => by
  have := (direct_stable_iff (caseR 2) (by norm_num [caseR]) (by norm_num [caseR]) 5000000000 1000000000 (by norm_num [caseR])
    (by norm_num [caseR]) (by norm_num [caseR])).mp h
  norm_num [caseR] at this

example : Converges (direct (caseR (3 / 2))) (start (caseR (3 / 2))) (fun k => 5000000000 + k * 1000000000) 1 ∧
    ∃ k y, output (gainLast (caseR (3 / 2))) (start (caseR (3 / 2))) (fun k => 5000000000 + k * 1000000000) k = some y ∧
      output (gainLast (caseR (3 / 2))) (start (caseR (3 / 2))) (fun k => 5000000000 + k * 1000000000) (k + 1) = some y := by
  obtain ⟨h, k, y, _, a, b, _⟩ := order_decides_violated (caseR (3 / 2)) (by norm_num [caseR]) (by norm_num [caseR]) 5000000000 1000000000
    (by norm_num [caseR]) (by norm_num [caseR]) (by norm_num [caseR]) (by norm_num [caseR]) (by norm_num [caseR])
  exact ⟨h, k, y, a, b⟩

example : ¬ Converges (gainLast (caseR 1)) (start (caseR 1)) (fun k => 5000000000 + k * 1000000000) 1 :=
  (order_dead_beat_violated (caseR 1) (by norm_num [caseR]) (by norm_num [caseR]) 5000000000 1000000000 (by norm_num [caseR])
    (by norm_num [caseR]) (by norm_num [caseR, jump, sec]) (by norm_num [caseR, jump, sec])).2.2

/-- With a period of half a second and the setpoint as initial condition (no jump): the error is halved every two cycles, up to the sign
of the oscillation, so the limits contain the free recursion. -/
example : Converges (gainLast { caseR 1 with v := 1 }) (start { caseR 1 with v := 1 }) (fun k => 5000000000 + k * 500000000) 1 := by
  refine gainLast_converges_partial { caseR 1 with v := 1 } (by norm_num [caseR]) (by norm_num [caseR]) 5000000000 500000000
    (by norm_num [caseR]) (by norm_num [caseR]) fun k => ?_
  have hq := form_osc (1 / 2 : ℝ) 1 1 k
  have hp : (1 / 2 : ℝ) ^ k ≤ 1 := pow_le_one₀ (by norm_num) (by norm_num)
  have hb : osc (1 / 2 : ℝ) 1 1 k * osc (1 / 2 : ℝ) 1 1 k ≤ 2 := by
    have : form (1 / 2 : ℝ) 1 1 = 1 / 2 := by norm_num [form]
    rw [this] at hq
    unfold form at hq
    nlinarith [sq_nonneg (2 * osc (1 / 2 : ℝ) 1 1 (k + 1) - osc (1 / 2 : ℝ) 1 1 k)]
  have hj : osc ((caseR 1).g * (((500000000 : Nat) : ℝ) / 1000000000)) ((caseR 1).r - (caseR 1).x0) (jump { caseR 1 with v := 1 } 5000000000) k =
      osc (1 / 2 : ℝ) 1 1 k := by norm_num [caseR, jump, sec]
  show (caseR 1).lower < (caseR 1).r - osc ((caseR 1).g * (((500000000 : Nat) : ℝ) / 1000000000)) ((caseR 1).r - (caseR 1).x0) (jump { caseR 1 with v := 1 } 5000000000) k ∧ _
  rw [hj]
  simp only [caseR]
  constructor <;> nlinarith

/-- Case of `direct_output` and `gainLast_output`. -/
example : euler caseEx (fun k => 1000000000 + k * 250000000) 3 = 7 / 8 ∧ late caseEx (fun k => 1000000000 + k * 250000000) 4 = 5 / 4 := by decide +kernel
example (t : Nat → Nat) (n : Nat) : output (direct caseEx) (start caseEx) t n = some (euler caseEx t n) ∧ output (gainLast caseEx) (start caseEx) t n = some (late caseEx t n) :=
  ⟨direct_output caseEx (by norm_num [caseEx]) (by norm_num [caseEx]) t n, gainLast_output caseEx (by norm_num [caseEx]) (by norm_num [caseEx]) t n⟩
/-- Case of `direct_diverges`: with a gain of 2 per second and periods of at least one second the error never gets smaller. -/
example (k : Nat) : ∃ y, output (direct caseEx) (start caseEx) (fun k => k * 1100000000) k = some y ∧ 1 ≤ |1 - y| := by
  obtain ⟨y, h, h'⟩ := direct_diverges caseEx (by norm_num [caseEx]) (by norm_num [caseEx]) (fun k => k * 1100000000)
    (fun k => Or.inr (by simp only [sec, caseEx]; push_cast; linarith)) k
  exact ⟨y, h, by norm_num [caseEx] at h'; exact h'⟩
/-- Case of `gainLast_start_violated`: the first step of the second order is the time since the start of the clock. -/
example : output (gainLast caseEx) (start caseEx) (fun k => 3000000000 + k * 1000000) 1 = some 6 := by
  have h := (gainLast_start_violated caseEx (by norm_num [caseEx]) (by norm_num [caseEx]) (fun k => 3000000000 + k * 1000000) (by norm_num [caseEx, sec]) (by norm_num [caseEx, sec])).2
  rw [h]; norm_num [caseEx, sec]

end Verif.Control.Loop
