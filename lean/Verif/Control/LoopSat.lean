import Verif.Control.Loop
import Verif.Control.SaturationProps
/-!
The control loop of `Verif/Control/Loop.lean` with a saturation (Saturation.hpp:53-60, 96-102) between gain and integrator, as before an
actuator; blocks in the order setpoint, sum, gain, saturation, integrator.  Exact arithmetic.
-/
namespace Verif.Control.LoopSat
open Verif.Control.Loop
variable {K : Type} [Field K] [LinearOrder K] [IsStrictOrderedRing K]

/-- The value of a signal for the integrator, which treats all values that are not finite alike. -/
def finite : XVal K → Option K
  | .fin x => some x
  | _ => none

/-- One cycle; `lo` and `hi` are the limits of the saturation. -/
def cyc (c : Cfg K) (lo hi : K) (t : Nat) (s : Loop.St K) : Except Algebra.Err (Loop.St K) := do
  let (sum, e) ← s.sum.run (ins c t s)
  let (gain, u) := Gain.run s.gain e.val
  let w := Saturation.run (Saturation.new (XVal.fin lo) (.fin hi)) (.fin u)
  .ok ⟨sum, gain, Integrator.run s.int (finite w) e.ts true, finite w, e.ts⟩

/-- Specification: integration of the limited velocity. -/
def limited (c : Cfg K) (lo hi : K) (t : Nat → Nat) : Nat → K
  | 0 => c.x0
  | k + 1 => within c (limited c lo hi t k) (limited c lo hi t k + max lo (min hi (c.g * (c.r - limited c lo hi t k))) * sec (t k) (t (k + 1)))

theorem sat_run (lo hi x : K) (h : lo ≤ hi) : finite (Saturation.run (Saturation.new (XVal.fin lo) (.fin hi)) (.fin x)) = some (max lo (min hi x)) := by
  simp only [Saturation.run, Saturation.new, if_true, Saturation.clamp_fin lo hi x h, finite]

/-- **The loop with saturation is the integration of the limited velocity.** -/
theorem output_eq (c : Cfg K) (lo hi : K) (h : lo ≤ hi) (h1 : c.gmin ≤ c.g) (h2 : c.g ≤ c.gmax) (t : Nat → Nat) (n : Nat) :
    output (cyc c lo hi) (start c) t n = some (limited c lo hi t n) := by
  suffices H : ∃ s, cycles (cyc c lo hi) (start c) t (n + 1) = .ok s ∧ Inv c s ∧ s.int.out = some (limited c lo hi t n) ∧
      s.int.prev = some (limited c lo hi t n) ∧ s.int.prevTs = t n by
    obtain ⟨s, hs, _, ho, _⟩ := H
    simp only [output, hs, ho]
  induction n with
  | zero =>
    obtain ⟨s, hs, a1, a2, a3, a4, a5, a6, a7, a8, a9, a10, a11, a12, a13, a14⟩ := start_ok c
    refine ⟨⟨{ s.sum with first := false }, Gain.new c.g c.gmax c.gmin,
      Integrator.run s.int (some (max lo (min hi (c.g * (c.r - c.v))))) (t 0) true, some (max lo (min hi (c.g * (c.r - c.v)))), t 0⟩, ?_, ?_⟩
    · show cycles (cyc c lo hi) (start c) t 1 = _
      simp only [cycles, hs, bind, Except.bind, cyc, first_sum c (t 0) s a1 a2 a3 a4 a5, a6, gain_run c h1 h2, sat_run lo hi _ h]
    · refine ⟨⟨rfl, a2, a3, rfl, rfl, ?_, a9, a10, a11⟩, ?_, ?_, rfl⟩
      · simp [Integrator.run, a9, a8]
      · simp [Integrator.run, a9, a8, a7, a12, Integrator.next, limited]
      · simp [Integrator.run, a9, a8, a7, a12, Integrator.next, limited]
  | succ n ih =>
    obtain ⟨s, hs, hi', ho, hp, ht⟩ := ih
    have hrun := int_run c s.int (limited c lo hi t n) (max lo (min hi (c.g * (c.r - limited c lo hi t n)))) (t n) (t (n + 1))
      hi'.ifirst hi'.en hi'.lev hi'.up hi'.lo hp ht
    refine ⟨⟨s.sum, Gain.new c.g c.gmax c.gmin, Integrator.run s.int (some (max lo (min hi (c.g * (c.r - limited c lo hi t n))))) (t (n + 1)) true,
      some (max lo (min hi (c.g * (c.r - limited c lo hi t n)))), t (n + 1)⟩, ?_, ?_⟩
    · show cycles (cyc c lo hi) (start c) t (n + 1 + 1) = _
      rw [cycles, hs]
      simp only [bind, Except.bind, cyc, sum_run c (t (n + 1)) s _ hi'.first hi'.neg0 hi'.neg1 ho, hi'.gain, gain_run c h1 h2, sat_run lo hi _ h]
    · refine ⟨⟨hi'.first, hi'.neg0, hi'.neg1, rfl, rfl, ?_, hi'.lev, hi'.up, hi'.lo⟩, hrun, hrun, rfl⟩
      simp [Integrator.run, hi'.lev, hi'.en]

/-- **The velocity is limited** whatever gain, setpoint and limits of the integrator are. -/
theorem velocity (c : Cfg K) (lo hi : K) (hlo : lo ≤ 0) (hhi : 0 ≤ hi) (h1 : c.gmin ≤ c.g) (h2 : c.g ≤ c.gmax) (t : Nat → Nat) (k : Nat)
    (ht : t k ≤ t (k + 1)) : ∃ y y', output (cyc c lo hi) (start c) t k = some y ∧ output (cyc c lo hi) (start c) t (k + 1) = some y' ∧
      lo * sec (t k) (t (k + 1)) ≤ y' - y ∧ y' - y ≤ hi * sec (t k) (t (k + 1)) := by
  refine ⟨_, _, output_eq c lo hi (le_trans hlo hhi) h1 h2 t k, output_eq c lo hi (le_trans hlo hhi) h1 h2 t (k + 1), ?_⟩
  have hs : (0 : K) ≤ sec (t k) (t (k + 1)) := by
    unfold sec
    have : (t k : K) ≤ t (k + 1) := by exact_mod_cast ht
    exact div_nonneg (by linarith) (by norm_num)
  have a1 : lo ≤ max lo (min hi (c.g * (c.r - limited c lo hi t k))) := le_max_left _ _
  have a2 : max lo (min hi (c.g * (c.r - limited c lo hi t k))) ≤ hi := max_le (le_trans hlo hhi) (min_le_left _ _)
  have b1 := mul_le_mul_of_nonneg_right a1 hs
  have b2 := mul_le_mul_of_nonneg_right a2 hs
  have c1 := mul_nonneg hhi hs
  have c2 := mul_nonpos_of_nonpos_of_nonneg hlo hs
  rw [limited, within]
  split <;> constructor <;> linarith

/-- What the theorems below assume of the clock and the configuration: time passes, gain times time is at most 1, setpoint and initial
value are within the limits of the integrator, and the setpoint is above. -/
structure Fits (c : Cfg K) (lo hi : K) (t : Nat → Nat) : Prop where
  gmin : c.gmin ≤ c.g
  gmax : c.g ≤ c.gmax
  pos : 0 < c.g
  lo : lo ≤ 0
  hi : 0 < hi
  time : ∀ k, t k ≤ t (k + 1)
  fast : ∀ k, c.g * sec (t k) (t (k + 1)) ≤ 1
  below : c.x0 ≤ c.r
  lower : c.lower < c.x0
  upper : c.r < c.upper

omit [LinearOrder K] [IsStrictOrderedRing K] in
theorem sec_add (a b d : Nat) : (sec a b : K) + sec b d = sec a d := by unfold sec; ring

theorem sec_nonneg {a b : Nat} (h : a ≤ b) : (0 : K) ≤ sec a b := by
  unfold sec
  have : (a : K) ≤ b := by exact_mod_cast h
  exact div_nonneg (by linarith) (by norm_num)

/-- One cycle below the setpoint. -/
theorem step (c : Cfg K) {lo hi : K} {t : Nat → Nat} (f : Fits c lo hi t) (k : Nat) (hx : c.x0 ≤ limited c lo hi t k) (h : limited c lo hi t k ≤ c.r) :
    limited c lo hi t (k + 1) = limited c lo hi t k + min hi (c.g * (c.r - limited c lo hi t k)) * sec (t k) (t (k + 1)) ∧
    c.x0 ≤ limited c lo hi t (k + 1) ∧ limited c lo hi t (k + 1) ≤ c.r ∧ limited c lo hi t k ≤ limited c lo hi t (k + 1) := by
  have hs : (0 : K) ≤ sec (t k) (t (k + 1)) := sec_nonneg (f.time k)
  have he : 0 ≤ c.r - limited c lo hi t k := by linarith
  have hv : 0 ≤ min hi (c.g * (c.r - limited c lo hi t k)) := le_min f.hi.le (mul_nonneg f.pos.le he)
  have hm : max lo (min hi (c.g * (c.r - limited c lo hi t k))) = min hi (c.g * (c.r - limited c lo hi t k)) := max_eq_right (le_trans f.lo hv)
  have hp := mul_nonneg hv hs
  have hq : min hi (c.g * (c.r - limited c lo hi t k)) * sec (t k) (t (k + 1)) ≤ c.r - limited c lo hi t k := by
    calc _ ≤ c.g * (c.r - limited c lo hi t k) * sec (t k) (t (k + 1)) := mul_le_mul_of_nonneg_right (min_le_right _ _) hs
      _ = c.g * sec (t k) (t (k + 1)) * (c.r - limited c lo hi t k) := by ring
      _ ≤ 1 * (c.r - limited c lo hi t k) := mul_le_mul_of_nonneg_right (f.fast k) he
      _ = _ := one_mul _
  have e : limited c lo hi t (k + 1) = limited c lo hi t k + min hi (c.g * (c.r - limited c lo hi t k)) * sec (t k) (t (k + 1)) := by
    rw [limited, hm, within, if_pos ⟨by linarith [f.lower], by linarith [f.upper]⟩]
  exact ⟨e, by linarith, by linarith, by linarith⟩

theorem all (c : Cfg K) {lo hi : K} {t : Nat → Nat} (f : Fits c lo hi t) (k : Nat) : c.x0 ≤ limited c lo hi t k ∧ limited c lo hi t k ≤ c.r := by
  induction k with
  | zero => exact ⟨le_refl _, f.below⟩
  | succ k ih => have := step c f k ih.1 ih.2; exact ⟨this.2.1, this.2.2.1⟩

/-- **No overshoot with a saturated actuator.** -/
theorem no_overshoot (c : Cfg K) {lo hi : K} {t : Nat → Nat} (f : Fits c lo hi t) (k : Nat) :
    ∃ y y', output (cyc c lo hi) (start c) t k = some y ∧ output (cyc c lo hi) (start c) t (k + 1) = some y' ∧ c.x0 ≤ y ∧ y ≤ y' ∧ y' ≤ c.r := by
  have hl := le_trans f.lo f.hi.le
  have a := all c f k
  have s := step c f k a.1 a.2
  exact ⟨_, _, output_eq c lo hi hl f.gmin f.gmax t k, output_eq c lo hi hl f.gmin f.gmax t (k + 1), a.1, s.2.2.2, s.2.2.1⟩

/-- **The way is made with full velocity**: after any time the output is at the place reached with full velocity, or the rest of the way
is at most `hi / g`, where the actuator leaves the saturation. -/
theorem full_velocity (c : Cfg K) {lo hi : K} {t : Nat → Nat} (f : Fits c lo hi t) (k : Nat) :
    ∃ y, output (cyc c lo hi) (start c) t k = some y ∧ (y = c.x0 + hi * sec (t 0) (t k) ∨ c.r - y ≤ hi / c.g) := by
  refine ⟨_, output_eq c lo hi (le_trans f.lo f.hi.le) f.gmin f.gmax t k, ?_⟩
  induction k with
  | zero => left; simp [limited, sec]
  | succ k ih =>
    have a := all c f k
    have s := step c f k a.1 a.2
    rcases le_or_gt (c.r - limited c lo hi t k) (hi / c.g) with h | h
    · right; linarith [s.2.2.2]
    · left
      have hb : hi ≤ c.g * (c.r - limited c lo hi t k) := by
        have := mul_le_mul_of_nonneg_left h.le f.pos.le
        rwa [mul_div_cancel₀ _ f.pos.ne'] at this
      rcases ih with e | e
      · rw [s.1, min_eq_left hb, ← sec_add (t 0) (t k) (t (k + 1))]
        rw [e]; ring
      · linarith

/-- **Time of arrival**: when the time for the way with full velocity has passed, and in all later cycles, the rest of the way is at most
`hi / g`; -/
theorem arrives (c : Cfg K) {lo hi : K} {t : Nat → Nat} (f : Fits c lo hi t) (n : Nat) (hn : c.r - c.x0 ≤ hi * sec (t 0) (t n) + hi / c.g) :
    ∃ y, output (cyc c lo hi) (start c) t n = some y ∧ 0 ≤ c.r - y ∧ c.r - y ≤ hi / c.g := by
  obtain ⟨y, hy, h⟩ := full_velocity c f n
  have hy' := output_eq c lo hi (le_trans f.lo f.hi.le) f.gmin f.gmax t n
  have e : y = limited c lo hi t n := Option.some.inj (hy.symm.trans hy')
  have a := (all c f n).2
  refine ⟨y, hy, by rw [e]; linarith, ?_⟩
  rcases h with h | h
  · rw [h]; linarith
  · exact h

/-- from then on the error decays as without saturation. -/
theorem then_decays (c : Cfg K) {lo hi : K} {t : Nat → Nat} (f : Fits c lo hi t) (n : Nat) (hn : c.r - c.x0 ≤ hi * sec (t 0) (t n) + hi / c.g)
    (δ : K) (hδ : ∀ k, δ ≤ c.g * sec (t k) (t (k + 1))) (k : Nat) :
    ∃ y, output (cyc c lo hi) (start c) t (n + k) = some y ∧ 0 ≤ c.r - y ∧ c.r - y ≤ (1 - δ) ^ k * (hi / c.g) := by
  refine ⟨_, output_eq c lo hi (le_trans f.lo f.hi.le) f.gmin f.gmax t (n + k), by linarith [(all c f (n + k)).2], ?_⟩
  have hpos : 0 ≤ hi / c.g := div_nonneg f.hi.le f.pos.le
  have hd1 : 0 ≤ 1 - δ := by linarith [hδ 0, f.fast 0]
  suffices H : c.r - limited c lo hi t (n + k) ≤ (1 - δ) ^ k * (hi / c.g) ∧ c.r - limited c lo hi t (n + k) ≤ hi / c.g from H.1
  induction k with
  | zero =>
    obtain ⟨y, hy, _, h⟩ := arrives c f n hn
    have e : y = limited c lo hi t n := Option.some.inj (hy.symm.trans (output_eq c lo hi (le_trans f.lo f.hi.le) f.gmin f.gmax t n))
    rw [e] at h
    simpa using h
  | succ k ih =>
    have a := all c f (n + k)
    have s := step c f (n + k) a.1 a.2
    have hb : c.g * (c.r - limited c lo hi t (n + k)) ≤ hi := by
      have := mul_le_mul_of_nonneg_left ih.2 f.pos.le
      rwa [mul_div_cancel₀ _ f.pos.ne'] at this
    have he : 0 ≤ c.r - limited c lo hi t (n + k) := by linarith [a.2]
    have e : c.r - limited c lo hi t (n + k + 1) = (1 - c.g * sec (t (n + k)) (t (n + k + 1))) * (c.r - limited c lo hi t (n + k)) := by
      rw [s.1, min_eq_right hb]; ring
    constructor
    · show c.r - limited c lo hi t (n + k + 1) ≤ _
      rw [e, pow_succ]
      calc _ ≤ (1 - δ) * (c.r - limited c lo hi t (n + k)) := mul_le_mul_of_nonneg_right (by linarith [hδ (n + k)]) he
        _ ≤ (1 - δ) * ((1 - δ) ^ k * (hi / c.g)) := mul_le_mul_of_nonneg_left ih.1 hd1
        _ = _ := by ring
    · show c.r - limited c lo hi t (n + k + 1) ≤ _
      linarith [s.2.2.2, ih.2]

/-! ### Cases -/

/-- From 0 to 10 with gain 2 per second and at most 4 per second; cycles of a quarter of a second. -/
def caseEx : Cfg ℚ := { r := 10, g := 2, gmin := -10, gmax := 10, v := 0, x0 := 0, lower := -100, upper := 100, ts0 := 0 }

theorem fitsEx : Fits caseEx (-4) 4 (fun k => 5 + k * 250000000) where
  gmin := by norm_num [caseEx]
  gmax := by norm_num [caseEx]
  pos := by norm_num [caseEx]
  lo := by norm_num
  hi := by norm_num
  time := fun k => by show 5 + k * 250000000 ≤ 5 + (k + 1) * 250000000; omega
  fast := fun k => by simp only [caseEx, sec]; push_cast; linarith
  below := by norm_num [caseEx]
  lower := by norm_num [caseEx]
  upper := by norm_num [caseEx]

example : (List.range 12).map (output (cyc caseEx (-4) 4) (start caseEx) fun k => 5 + k * 250000000) =
    [some 0, some 1, some 2, some 3, some 4, some 5, some 6, some 7, some 8, some 9, some (19 / 2), some (39 / 4)] := by decide +kernel

example (k : Nat) : ∃ y, output (cyc caseEx (-4) 4) (start caseEx) (fun k => 5 + k * 250000000) (8 + k) = some y ∧ 0 ≤ 10 - y ∧ 10 - y ≤ (1 / 2) ^ k * 2 := by
  have := then_decays caseEx fitsEx 8 (by norm_num [caseEx, sec]) (1 / 2) (fun k => by simp only [caseEx, sec]; push_cast; linarith) k
  norm_num [caseEx] at this ⊢
  exact this

/-- Case of `output_eq` and `velocity`. -/
example (k : Nat) : ∃ y y', output (cyc caseEx (-4) 4) (start caseEx) (fun k => 5 + k * 250000000) k = some y ∧
    output (cyc caseEx (-4) 4) (start caseEx) (fun k => 5 + k * 250000000) (k + 1) = some y' ∧ -1 ≤ y' - y ∧ y' - y ≤ 1 := by
  obtain ⟨y, y', h, h', h1, h2⟩ := velocity caseEx (-4) 4 (by norm_num) (by norm_num) (by norm_num [caseEx]) (by norm_num [caseEx])
    (fun k => 5 + k * 250000000) k (by omega)
  have e : (sec (5 + k * 250000000) (5 + (k + 1) * 250000000) : ℚ) = 1 / 4 := by simp only [sec]; push_cast; ring
  simp only [e] at h1 h2
  exact ⟨y, y', h, h', by linarith, by linarith⟩
example : limited caseEx (-4) 4 (fun k => 5 + k * 250000000) 9 = 9 ∧ output (cyc caseEx (-4) 4) (start caseEx) (fun k => 5 + k * 250000000) 9 = some 9 := by
  have h : limited caseEx (-4) 4 (fun k => 5 + k * 250000000) 9 = 9 := by decide +kernel
  exact ⟨h, by rw [output_eq caseEx (-4) 4 (by norm_num) (by norm_num [caseEx]) (by norm_num [caseEx]), h]⟩

end Verif.Control.LoopSat
