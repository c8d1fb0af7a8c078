import Verif.Planner.ConstJerkProps
/-!
C273, C39, C77: all moves of the constant-jerk planner, also those too short to reach the maximum velocity (model: `Planner/ConstJerk.lean`, `includes/eeros/control/PathPlannerConstJerk.hpp`).
-/
namespace Verif.Planner.ConstJerk
open ConstAcc (Vec eps eps_pos minNorm ceilTo)
variable {n : Nat}

section
variable {g : Cfg n} {s : St n} {start end_ : Vec n} {m1 m2 : Nat}

/-- Position, velocity and jerk in phase `r + 1`. -/
theorem Started.bounded (h : Started g s start end_ m1 m2) (i : Fin (n + 1)) (b1 : W g.dt m1 m2 * |end_ i - start i| ≤ g.velMax i)
    (b2 : W g.dt m1 m2 / (m1 * g.dt) ^ 2 * |end_ i - start i| ≤ g.jerk i) (r : Nat) (hr : r ≤ 4) (hm : r ≤ 2 ∨ 1 ≤ m2) (j : Nat) (h1 : 1 ≤ j)
    (h2 : j ≤ len m1 m2 r) :
    (∃ L : ℝ, 0 ≤ L ∧ L ≤ 1 ∧ ((runs g.dt (j + off m1 m2 r) s).last i).pos = start i + L * (end_ i - start i)) ∧
    |((runs g.dt (j + off m1 m2 r) s).last i).vel| ≤ g.velMax i ∧ |((runs g.dt (j + off m1 m2 r) s).last i).jerk| ≤ g.jerk i := by
  obtain ⟨p1, p2, p3, p4⟩ := h.pos1
  rw [(h.out r hr hm j h1 h2).2]
  obtain ⟨e1, e2, e3, e4⟩ := h.jT i
  have hp := lt_of_lt_of_le eps_pos h.dt
  have hx : (j:ℝ) * g.dt ≤ ConstJerk.dur s.c (r + 1) := by
    rw [h.dur]
    have : (j:ℝ) ≤ (len m1 m2 r : ℝ) := by exact_mod_cast h2
    exact mul_le_mul_of_nonneg_right this hp.le
  obtain ⟨L, V, A, K, l0, l1, v0, v1, a1, k1, he⟩ := ph_bounds _ _ _ _ (j * g.dt) s.c i e1 e2 e3 e4 p1.le p2 r hr (by positivity) hx
  rw [he]
  generalize hT : (m1:ℝ) * g.dt = T at *
  generalize hU : (m2:ℝ) * g.dt = U at *
  generalize W g.dt m1 m2 = w at *
  have hT2 : 0 < T ^ 2 := by positivity
  refine ⟨⟨w * L / T ^ 2, by positivity, ?_, ?_⟩, ?_, ?_⟩
  · rw [div_le_one hT2]
    calc w * L ≤ w * (T ^ 2 * (U + 2 * T)) := mul_le_mul_of_nonneg_left l1 p3.le
      _ = (w * (U + 2 * T)) * T ^ 2 := by ring
      _ = T ^ 2 := by rw [p4, one_mul]
  · simp only; ring
  · have e : w * (end_ i - start i) / T ^ 2 * V = (w * (end_ i - start i)) * (V / T ^ 2) := by ring
    have v2 : V / T ^ 2 ≤ 1 := by rw [div_le_one hT2]; exact v1
    have v3 : 0 ≤ V / T ^ 2 := by positivity
    simp only
    rw [e, abs_mul, abs_mul, abs_of_pos p3, abs_of_nonneg v3]
    have h3 : 0 ≤ w * |end_ i - start i| := by positivity
    nlinarith
  · have e : w * (end_ i - start i) / T ^ 2 * K = (w / T ^ 2 * (end_ i - start i)) * K := by ring
    have h3 : 0 ≤ w / T ^ 2 := by positivity
    simp only
    rw [e, abs_mul, abs_mul, abs_of_nonneg h3]
    have h4 : 0 ≤ w / T ^ 2 * |end_ i - start i| := by positivity
    nlinarith [abs_nonneg K]

/-- The outputs at the end of the second phase: half of the way if there is no third one. -/
theorem Started.middle (h : Started g s start end_ m1 0) (i : Fin (n + 1)) : (runs g.dt (off m1 0 2) s).last i =
    ⟨(start i + end_ i) / 2, (end_ i - start i) / (2 * (m1 * g.dt)), 0, -((end_ i - start i) / (2 * (m1 * g.dt) ^ 3))⟩ := by
  have := (h.out 1 (by omega) (.inl (by omega)) (len m1 0 1) (h.len_pos (.inl (by omega))) (le_refl _)).2
  have ho : off m1 0 2 = len m1 0 1 + off m1 0 1 := rfl
  rw [ho, this]
  obtain ⟨e1, e2, e3, e4⟩ := h.jT i
  obtain ⟨p1, -, -, -⟩ := h.pos1
  have hl : ((len m1 0 1 : Nat) : ℝ) = m1 := by simp [len]
  have hw : W g.dt m1 0 = 1 / (2 * (m1 * g.dt)) := by unfold W; congr 1; push_cast; ring
  simp only [ph, poly, e1, e3, e4, hl, hw]
  generalize (m1 : ℝ) * g.dt = T at *
  have hT : T ≠ 0 := p1.ne'
  refine Y.mk.injEq .. |>.mpr ⟨?_, ?_, ?_, ?_⟩
  · field_simp; ring
  · field_simp; ring
  · ring
  · field_simp

theorem Started.same_half (h : Started g s start end_ m1 m2) (i : Fin (n + 1)) (r : Nat) (hr : r ≤ 1) (k : Nat)
    (hk : k ≤ len m1 m2 r) : Same (outs g.dt s start (k + off m1 m2 r) i) (ph s.c (r + 1) (k * g.dt) i) := by
  by_cases h0 : k = 0
  · subst h0
    cases r with
    | zero =>
      have : s.c.d1p = start := by rw [h.c]; rfl
      simp [Same, outs, off, ph, poly, this]
    | succ q =>
      have hl : 1 ≤ len m1 m2 q := h.len_pos (.inl (by omega))
      have := (h.out q (by omega) (.inl (by omega)) (len m1 m2 q) hl (le_refl _)).2
      rw [Nat.zero_add, off, outs, if_neg (by omega), this, Nat.cast_zero, zero_mul, ← h.dur q]
      exact ph_joins s.c q i (by omega)
  · rw [outs, if_neg (by omega), (h.out r (by omega) (.inl (by omega)) k (by omega) hk).2]
    exact ⟨rfl, rfl, rfl⟩

end

/-- **C273** (limits) At every run after every successful `move`, short or long, the position is on the straight line from `start` to `end`, and velocity and jerk do not exceed their maxima. -/
theorem within_limits (g : Cfg n) (s : St n) (start end_ : Vec n) (hdt : eps ≤ g.dt) (hv : ∀ i, 0 < g.velMax i) (hj : ∀ i, 0 < g.jerk i)
    (hf : s.finished = true) (hne : ∃ i, end_ i ≠ start i) (k : Nat) (hk : 1 ≤ k) (i : Fin (n + 1)) :
    (∃ L : ℝ, 0 ≤ L ∧ L ≤ 1 ∧ ((runs g.dt k (move g s start end_).1).last i).pos = start i + L * (end_ i - start i)) ∧
    |((runs g.dt k (move g s start end_).1).last i).vel| ≤ g.velMax i ∧ |((runs g.dt k (move g s start end_).1).last i).jerk| ≤ g.jerk i := by
  rcases lt_or_ge (4 * vn g start end_ ^ 3) (jn g start end_) with hl | hs
  · exact within_limits_partial g s start end_ hdt hv hj hf hne hl k hk i
  · obtain ⟨_, _, m1, m2, h, _, hz, hb⟩ := move_started g s start end_ hdt hv hj hf hne
    generalize (move g s start end_).1 = s0 at *
    have := hz hs
    subst this
    obtain ⟨b1, b2⟩ := hb i
    by_cases hk' : k ≤ off m1 0 2
    · obtain ⟨r, j, hr, h1, h2, rfl⟩ := locate m1 0 2 k hk hk'
      exact h.bounded i b1 b2 r (by omega) (.inl (by omega)) j h1 h2
    · have e := (h.stuck (k - off m1 0 2)).2
      rw [show k - off m1 0 2 + off m1 0 2 = k by omega] at e
      rw [e]
      exact h.bounded i b1 b2 1 (by omega) (.inl (by omega)) (len m1 0 1) (h.len_pos (.inl (by omega))) (le_refl _)

/-- **C273** (short moves) Every move too short to reach the maximum velocity stops half way: during the first `2 m` runs each output is the integral of the next derivative, and from
then on, for ever, the outputs are the middle between `start` and `end`, the velocity with which the whole way would be covered in the time of these runs, acceleration 0 and a jerk against the direction of
the motion. -/
theorem short_move_exact (g : Cfg n) (s : St n) (start end_ : Vec n) (hdt : eps ≤ g.dt) (hv : ∀ i, 0 < g.velMax i) (hj : ∀ i, 0 < g.jerk i)
    (hf : s.finished = true) (hne : ∃ i, end_ i ≠ start i) (hshort : jn g start end_ ≤ 4 * vn g start end_ ^ 3) :
    ∃ m : Nat, 1 ≤ m ∧ (∀ k < 2 * m, ∀ i, Integrates g.dt (outs g.dt (move g s start end_).1 start k i) (outs g.dt (move g s start end_).1 start (k + 1) i)) ∧
      ∀ k ≥ 2 * m, ∀ i, outs g.dt (move g s start end_).1 start k i =
        ⟨(start i + end_ i) / 2, (end_ i - start i) / (2 * (m * g.dt)), 0, -((end_ i - start i) / (2 * (m * g.dt) ^ 3))⟩ := by
  obtain ⟨_, _, m1, m2, h, _, hz, _⟩ := move_started g s start end_ hdt hv hj hf hne
  generalize (move g s start end_).1 = s0 at *
  have := hz hshort
  subst this
  have ho : off m1 0 2 = 2 * m1 := by simp [off, len]; omega
  have h1 := h.one
  refine ⟨m1, h1, fun k hk i => ?_, fun k hk i => ?_⟩
  · obtain ⟨r, j, hr, h1, h2, he⟩ := locate m1 0 2 (k + 1) (by omega) (by omega)
    obtain ⟨j, rfl⟩ : ∃ q, j = q + 1 := ⟨j - 1, by omega⟩
    have hkj : k = j + off m1 0 r := by omega
    refine integrates_of (hkj ▸ h.same_half i r (by omega) j (by omega)) ?_
    rw [outs, if_neg (by omega), he, (h.out r (by omega) (.inl (by omega)) (j + 1) h1 h2).2,
      show (((j + 1 : Nat) : ℝ)) * g.dt = j * g.dt + g.dt by push_cast; ring]
    exact ph_integrates s0.c r _ _ i (by omega)
  · have e := (h.stuck (k - off m1 0 2)).2
    rw [show k - off m1 0 2 + off m1 0 2 = k by omega] at e
    rw [outs, if_neg (by omega), e, h.middle i]

/-- **C77 violated**, for every short move: from some run on no output of a moving element is the integral of the next derivative any more; the position stands still while the velocity is not zero. -/
theorem short_inconsistent_violated (g : Cfg n) (s : St n) (start end_ : Vec n) (hdt : eps ≤ g.dt) (hv : ∀ i, 0 < g.velMax i) (hj : ∀ i, 0 < g.jerk i)
    (hf : s.finished = true) (hne : ∃ i, end_ i ≠ start i) (hshort : jn g start end_ ≤ 4 * vn g start end_ ^ 3) :
    ∃ N : Nat, ∀ k ≥ N, ∀ i, end_ i ≠ start i → ¬ Integrates g.dt (outs g.dt (move g s start end_).1 start k i) (outs g.dt (move g s start end_).1 start (k + 1) i) ∧
      (outs g.dt (move g s start end_).1 start k i).vel ≠ 0 ∧ (outs g.dt (move g s start end_).1 start (k + 1) i).pos = (outs g.dt (move g s start end_).1 start k i).pos := by
  obtain ⟨m, hm, -, h⟩ := short_move_exact g s start end_ hdt hv hj hf hne hshort
  have hp := lt_of_lt_of_le eps_pos hdt
  have hmp : (0:ℝ) < m := by exact_mod_cast hm
  refine ⟨2 * m, fun k hk i hi => ?_⟩
  have hd : end_ i - start i ≠ 0 := sub_ne_zero.2 hi
  rw [h k hk i, h (k + 1) (by omega) i]
  refine ⟨?_, ?_, rfl⟩
  · rintro ⟨ha, -, -⟩
    have hj3 : (2 * ((m:ℝ) * g.dt) ^ 3) ≠ 0 := by positivity
    replace ha : (0:ℝ) = 0 + -((end_ i - start i) / (2 * ((m:ℝ) * g.dt) ^ 3)) * g.dt := ha
    rw [zero_add] at ha
    exact mul_ne_zero (neg_ne_zero.2 (div_ne_zero hd hj3)) hp.ne' ha.symm
  · simp only
    exact div_ne_zero hd (by positivity)

/-- A move over distance 1 with limits 1 is short; it stops at 1/2. -/
example (s : St 0) (hf : s.finished = true) : ∃ m : Nat, ∀ k ≥ 2 * m, (outs cfgEx.dt (move cfgEx s (fun _ => 0) (fun _ => 1)).1 (fun _ => 0) k 0).pos = 1 / 2 := by
  obtain ⟨c, d⟩ := ex_norms 1 (by norm_num)
  obtain ⟨m, -, -, h⟩ := short_move_exact cfgEx s (fun _ => 0) (fun _ => 1) (by norm_num [cfgEx, eps]) (fun _ => by norm_num [cfgEx]) (fun _ => by norm_num [cfgEx]) hf ⟨0, by norm_num⟩
    (by rw [c, d]; norm_num)
  exact ⟨m, fun k hk => by rw [h k hk 0]; norm_num⟩

end Verif.Planner.ConstJerk
