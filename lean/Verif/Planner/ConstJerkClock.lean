/-
C250: the clock of `control::PathPlannerConstJerk` (`/repo/includes/eeros/control/PathPlannerConstJerk.hpp:75-169`) in IEEE double arithmetic, as in `ConstAccClock.lean` for the
planner with constant acceleration: all quantities are natural multiples of `2^-u`, sums and products are rounded to 53 binary digits.  `ConstJerk.lean` treats the same function,
with its outputs, in exact arithmetic.
-/
import Verif.Planner.ConstAccClockProps

namespace Verif.Planner.JerkClock
open Clock (rnd near small epsM St IsDouble clock Fine le_rnd near_iff)

/-- Unit, sampling time, `dT1` and `dT2`. -/
structure Par where
  u : Nat
  dt : Nat
  D1 : Nat
  D2 : Nat

/-- The length compared with in the five cases (84, 96, 108, 120, 132). -/
def dur (g : Par) (r : Nat) : Nat := if r = 3 then g.D2 else g.D1

/-- `run` (75-169) for one element; the cases 1 to 5 (83-142) have the same form, there is no test for an empty third phase. -/
def run (g : Par) (s : St) : St :=
  let t := rnd (s.t + g.dt)
  let s := { s with t := t }
  if s.finished then s
  else if 1 ≤ s.range ∧ s.range ≤ 5 then
    let s1 := if t ≤ dur g s.range then { s with shown := (s.range, t) } else s
    if near g.u t (dur g s.range) then { s1 with range := s.range + 1, t := 0 } else s1
  else if s.range = 6 then { s with finished := true, shown := (6, 0) }
  else s

/-- After a successful `move` (267-271). -/
def start : St := ⟨false, 1, 0, (0, 0)⟩

def runs (g : Par) : Nat → St
  | 0 => start
  | k + 1 => run g (runs g k)

/-- Phase lengths `ceil(..) * dt` (220-221) of `m1` and `m2` samples. -/
def planned (u dt m1 m2 : Nat) : Par := ⟨u, dt, rnd (m1 * dt), rnd (m2 * dt)⟩

/-! ### Single runs -/

theorem run_stay {g : Par} {s : St} (hf : s.finished = false) (hr : 1 ≤ s.range ∧ s.range ≤ 5) (hn : near g.u (rnd (s.t + g.dt)) (dur g s.range) = false) :
    (run g s).finished = false ∧ (run g s).range = s.range ∧ (run g s).t = rnd (s.t + g.dt) ∧ (¬ rnd (s.t + g.dt) ≤ dur g s.range → (run g s).shown = s.shown) := by
  unfold run
  simp only [hf, hr, hn, Bool.false_eq_true, if_false, and_self, if_true]
  split <;> simp_all

theorem run_next {g : Par} {s : St} (hf : s.finished = false) (hr : 1 ≤ s.range ∧ s.range ≤ 5) (hn : near g.u (rnd (s.t + g.dt)) (dur g s.range) = true) :
    (run g s).finished = false ∧ (run g s).range = s.range + 1 ∧ (run g s).t = 0 := by
  unfold run
  simp only [hf, hr, hn, Bool.false_eq_true, if_false, and_self, if_true]
  split <;> simp_all

theorem run_double (g : Par) (s : St) : IsDouble (run g s).t := by
  have h0 : IsDouble 0 := ⟨0, 0, by norm_num, by norm_num⟩
  unfold run
  simp only
  repeat' split
  all_goals first | exact h0 | exact Clock.rnd_isDouble _

theorem runs_double (g : Par) : ∀ k, IsDouble (runs g k).t
  | 0 => ⟨0, 0, by norm_num, by norm_num [runs, start]⟩
  | _ + 1 => run_double g _

/-! ### Phases which are recognised -/

theorem phase {g : Par} {r m j a : Nat} (hr : 1 ≤ r ∧ r ≤ 5) (hD : dur g r = rnd (m * g.dt)) (hF : Fine g.u g.dt m j) (hm : 1 ≤ m)
    (h0 : (runs g a).finished = false) (h1 : (runs g a).range = r) (h2 : (runs g a).t = 0) :
    (∀ i, i < m → (runs g (a + i)).finished = false) ∧ (runs g (a + m)).finished = false ∧ (runs g (a + m)).range = r + 1 ∧ (runs g (a + m)).t = 0 := by
  have A : ∀ i, i < m → (runs g (a + i)).finished = false ∧ (runs g (a + i)).range = r ∧ (runs g (a + i)).t = clock g.dt i := by
    intro i
    induction i with
    | zero => intro _; exact ⟨h0, h1, h2⟩
    | succ i ih =>
      intro hi
      obtain ⟨b0, b1, b2⟩ := ih (by omega)
      have hc : rnd ((runs g (a + i)).t + g.dt) = clock g.dt (i + 1) := by rw [b2]; rfl
      have hn : near g.u (rnd ((runs g (a + i)).t + g.dt)) (dur g (runs g (a + i)).range) = false := by
        rw [hc, b1, hD, Bool.eq_false_iff]
        intro hc'
        have := (near_iff hF (k := i + 1) hi.le).1 hc'
        omega
      obtain ⟨c0, c1, c2, -⟩ := run_stay b0 (by rw [b1]; exact hr) hn
      exact ⟨c0, c1.trans b1, c2.trans hc⟩
  refine ⟨fun i hi => (A i hi).1, ?_⟩
  obtain ⟨i, rfl⟩ : ∃ i, m = i + 1 := ⟨m - 1, by omega⟩
  obtain ⟨b0, b1, b2⟩ := A i (by omega)
  have hc : rnd ((runs g (a + i)).t + g.dt) = clock g.dt (i + 1) := by rw [b2]; rfl
  have hn : near g.u (rnd ((runs g (a + i)).t + g.dt)) (dur g (runs g (a + i)).range) = true := by
    rw [hc, b1, hD]
    exact (near_iff hF (le_refl _)).2 rfl
  obtain ⟨c0, c1, c2⟩ := run_next b0 (by rw [b1]; exact hr) hn
  exact ⟨c0, by rw [← b1]; exact c1, c2⟩

/-! ### The property theorems (C250) -/

/-- In double arithmetic a motion with phases of `m1`, `m1`, `m2`, `m1`, `m1` samples finishes after exactly as many runs as in exact arithmetic, if it has a phase of constant
velocity and each phase is short enough for the accumulated rounding error (`Fine`).  Missing: `no_cruise_never_finishes_violated`, `long_phase_never_finishes_violated`. -/
theorem finishes_partial (u dt m1 m2 j1 j2 : Nat) (h1 : 1 ≤ m1) (h2 : 1 ≤ m2) (f1 : Fine u dt m1 j1) (f2 : Fine u dt m2 j2) (k : Nat) :
    (runs (planned u dt m1 m2) k).finished = true ↔ 4 * m1 + m2 + 1 ≤ k := by
  generalize hg : planned u dt m1 m2 = g
  have d1 : ∀ r, r ≠ 3 → dur g r = rnd (m1 * g.dt) := by intro r hr; rw [← hg]; simp [dur, planned, hr]
  have d2 : dur g 3 = rnd (m2 * g.dt) := by rw [← hg]; simp [dur, planned]
  have e1 : Fine g.u g.dt m1 j1 := by rw [← hg]; exact f1
  have e2 : Fine g.u g.dt m2 j2 := by rw [← hg]; exact f2
  obtain ⟨a0, a1, a2, a3⟩ := phase (a := 0) (r := 1) (by omega) (d1 1 (by omega)) e1 h1 rfl rfl rfl
  obtain ⟨b0, b1, b2, b3⟩ := phase (by omega) (d1 2 (by omega)) e1 h1 a1 a2 a3
  obtain ⟨c0, c1, c2, c3⟩ := phase (by omega) d2 e2 h2 b1 b2 b3
  obtain ⟨p0, p1, p2, p3⟩ := phase (by omega) (d1 4 (by omega)) e1 h1 c1 c2 c3
  obtain ⟨q0, q1, q2, q3⟩ := phase (by omega) (d1 5 (by omega)) e1 h1 p1 p2 p3
  have fin : ∀ i, (runs g (0 + m1 + m1 + m2 + m1 + m1 + 1 + i)).finished = true := by
    intro i
    induction i with
    | zero =>
      show (run g (runs g (0 + m1 + m1 + m2 + m1 + m1))).finished = true
      have q6 : (runs g (0 + m1 + m1 + m2 + m1 + m1)).range = 6 := q2
      generalize runs g (0 + m1 + m1 + m2 + m1 + m1) = x at q1 q6
      unfold run
      simp [q1, q6]
    | succ i ih =>
      show (run g (runs g (0 + m1 + m1 + m2 + m1 + m1 + 1 + i))).finished = true
      unfold run
      simp only [ih, if_true]
  constructor
  · intro h
    by_contra hk
    have pick : ∀ a m, (∀ i, i < m → (runs g (a + i)).finished = false) → a ≤ k → k < a + m → False := by
      intro a m ha h1 h2
      have := ha (k - a) (by omega)
      rw [show a + (k - a) = k by omega, h] at this
      cases this
    by_cases z1 : k < 0 + m1
    · exact pick _ _ a0 (by omega) z1
    by_cases z2 : k < 0 + m1 + m1
    · exact pick _ _ b0 (by omega) z2
    by_cases z3 : k < 0 + m1 + m1 + m2
    · exact pick _ _ c0 (by omega) z3
    by_cases z4 : k < 0 + m1 + m1 + m2 + m1
    · exact pick _ _ p0 (by omega) z4
    by_cases z5 : k < 0 + m1 + m1 + m2 + m1 + m1
    · exact pick _ _ q0 (by omega) z5
    rw [show 0 + m1 + m1 + m2 + m1 + m1 = k by omega, h] at q1
    cases q1
  · intro hk
    have := fin (k - (4 * m1 + m2 + 1))
    rwa [show 0 + m1 + m1 + m2 + m1 + m1 + 1 + (k - (4 * m1 + m2 + 1)) = k by omega] at this

/-- Non-vacuity: with the sampling time 0.001, phases of 3900 samples are recognised. -/
example : Fine 62 Clock.dtMs 3900 11 := ⟨by norm_num [Clock.dtMs], .inr (by norm_num [epsM]), by norm_num [Clock.dtMs, epsM], by norm_num⟩

/-- A motion whose `dT2` is zero never finishes, for every sampling time of at least `1e-12` and every `dT1`. -/
theorem no_cruise_never_finishes_violated (g : Par) (h2 : g.D2 = 0) (hdt : IsDouble g.dt) (hs : small g.u g.dt = false) (k : Nat) : (runs g k).finished = false := by
  have key : ∀ k, (runs g k).finished = false ∧ 1 ≤ (runs g k).range ∧ (runs g k).range ≤ 3 := by
    intro k
    induction k with
    | zero => exact ⟨rfl, Nat.le_refl 1, show 1 ≤ 3 by omega⟩
    | succ k ih =>
      obtain ⟨a, b, c⟩ := ih
      show (run g (runs g k)).finished = false ∧ 1 ≤ (run g (runs g k)).range ∧ (run g (runs g k)).range ≤ 3
      by_cases hn : near g.u (rnd ((runs g k).t + g.dt)) (dur g (runs g k).range) = true
      · obtain ⟨x, y, -⟩ := run_next a ⟨b, by omega⟩ hn
        refine ⟨x, by omega, ?_⟩
        rw [y]
        by_contra h3
        have hr : (runs g k).range = 3 := by omega
        rw [hr] at hn
        simp only [dur, if_true, h2, near, Nat.sub_zero, Nat.zero_sub, Nat.add_zero] at hn
        have l1 : g.dt ≤ rnd ((runs g k).t + g.dt) := le_rnd hdt (Nat.le_add_left _ _)
        have l2 := le_rnd hdt l1
        simp only [small, decide_eq_true_eq, decide_eq_false_iff_not, not_lt] at hn hs
        have := Nat.mul_le_mul_right (2 ^ 92) l2
        omega
      · obtain ⟨x, y, -⟩ := run_stay a ⟨b, by omega⟩ (by simpa using hn)
        exact ⟨x, by omega, by omega⟩
  exact (key k).1

/-- Non-vacuity: 0.001 is a double and not below the tolerance. -/
example : IsDouble Clock.dtMs ∧ small 62 Clock.dtMs = false := ⟨⟨Clock.dtMs, 0, by norm_num [Clock.dtMs], by norm_num⟩, by decide +kernel⟩

theorem misses_runs {g : Par} (hu : g.u = 62) (f : Nat) : ∀ k, Clock.misses g.dt g.D1 f (runs g k).t = true → (runs g k).finished = false → (runs g k).range = 1 →
    (∀ i, i ≤ f → (runs g (k + i)).finished = false ∧ (runs g (k + i)).range = 1) ∧ g.D1 + 2 ^ 23 < (runs g (k + f)).t := by
  induction f with
  | zero =>
    intro k hm hf hr
    refine ⟨fun i hi => ?_, of_decide_eq_true hm⟩
    rw [show k + i = k by omega]; exact ⟨hf, hr⟩
  | succ f ih =>
    intro k hm hf hr
    have hs : ∃ t', rnd ((runs g k).t + g.dt) = t' ∧ near 62 t' g.D1 = false ∧ Clock.misses g.dt g.D1 f t' = true := by
      rw [Clock.misses] at hm
      cases ht : rnd ((runs g k).t + g.dt) with
      | zero => rw [ht] at hm; cases hm
      | succ t' =>
        rw [ht] at hm
        have hm' := (Bool.and_eq_true _ _).mp hm
        exact ⟨_, rfl, Bool.not_eq_true' _ |>.mp hm'.1, hm'.2⟩
    obtain ⟨t', ht, hn, hm'⟩ := hs
    have hd : dur g (runs g k).range = g.D1 := by rw [hr]; rfl
    obtain ⟨a, b, c, -⟩ := run_stay (g := g) hf (by rw [hr]; omega) (by rw [ht, hu, hd]; exact hn)
    have c' : (runs g (k + 1)).t = t' := by rw [← ht]; exact c
    obtain ⟨h1, h2⟩ := ih (k + 1) (by rw [c']; exact hm') a (b.trans hr)
    refine ⟨fun i hi => ?_, ?_⟩
    · by_cases h0 : i = 0
      · subst h0; exact ⟨hf, hr⟩
      · have := h1 (i - 1) (by omega)
        rwa [show k + 1 + (i - 1) = k + i by omega] at this
    · rwa [show k + 1 + f = k + (f + 1) by omega] at h2

theorem frozen {g : Par} (hu : g.u = 62) {N : Nat} (hf : (runs g N).finished = false) (hr : (runs g N).range = 1) (ht : g.D1 + 2 ^ 23 < (runs g N).t) (j : Nat) :
    (runs g (N + j)).finished = false ∧ (runs g (N + j)).range = 1 ∧ g.D1 + 2 ^ 23 < (runs g (N + j)).t ∧ (runs g (N + j)).shown = (runs g N).shown := by
  induction j with
  | zero => exact ⟨hf, hr, ht, rfl⟩
  | succ j ih =>
    obtain ⟨a, b, c, d⟩ := ih
    have hfar := lt_of_lt_of_le c (le_rnd (n := (runs g (N + j)).t + g.dt) (runs_double g _) (Nat.le_add_right _ _))
    have hd : dur g (runs g (N + j)).range = g.D1 := by rw [b]; rfl
    obtain ⟨a', b', c', d'⟩ := run_stay (g := g) a (by rw [b]; omega) (by rw [hd, hu]; exact Clock.far_not_near hfar)
    rw [hd] at d'
    refine ⟨a', b'.trans b, ?_, (d' (by have := Nat.le_add_right g.D1 (2 ^ 23); omega)).trans d⟩
    rw [show (runs g (N + (j + 1))).t = _ from c']; exact hfar

/-- `dT1` of 7981 samples of 0.001 seconds, any `dT2`. -/
def gMs (D2 : Nat) : Par := ⟨62, Clock.dtMs, rnd (7981 * Clock.dtMs), D2⟩

/-- With the sampling time 0.001 and `dT1` of 7981 samples (7.981 seconds) the motion stays in its first phase for ever, and its outputs are frozen. -/
theorem long_phase_never_finishes_violated (D2 k : Nat) :
    (runs (gMs D2) k).finished = false ∧ (7982 ≤ k → (runs (gMs D2) k).shown = (runs (gMs D2) 7982).shown) := by
  obtain ⟨h1, h2⟩ := misses_runs (g := gMs D2) rfl 7982 0 Clock.misses_ms rfl rfl
  rw [Nat.zero_add] at h2
  have h3 := h1 7982 (le_refl _)
  rw [Nat.zero_add] at h3
  have tail := frozen (g := gMs D2) rfl h3.1 h3.2 h2
  by_cases hk : k ≤ 7982
  · have := (h1 k hk).1
    rw [Nat.zero_add] at this
    refine ⟨this, fun h => ?_⟩
    rw [show k = 7982 by omega]
  · obtain ⟨j, rfl⟩ := Nat.exists_eq_add_of_le (not_le.1 hk).le
    exact ⟨(tail j).1, fun _ => (tail j).2.2.2⟩

end Verif.Planner.JerkClock
