import Verif.Planner.ConstAccProps
/-!
Exactly which moves of `PathPlannerConstAcc` (includes/eeros/control/PathPlannerConstAcc.hpp:73-222, model in ConstAcc.lean) have consistent outputs in all runs (C276), and the
violation of C38 for all other moves.
-/
namespace Verif.Planner.ConstAcc
variable {n : Nat}

/-- Specification: `x` is the smallest of the limits divided by the distances. -/
def Least (lim d : Vec n) (x : ℝ) : Prop := (∃ i, d i ≠ 0 ∧ x * |d i| = lim i) ∧ ∀ i, x * |d i| ≤ lim i

theorem least_eq {lim d : Vec n} {x : ℝ} (hl : ∀ i, 0 < lim i) (h : Least lim d x) : (minNorm lim d).untopD 0 = x := by
  obtain ⟨⟨i, hi, he⟩, hb⟩ := h
  obtain ⟨h0, h1⟩ := minNorm_spec lim d hl ⟨i, hi⟩
  obtain ⟨j, hj⟩ := minNorm_mem lim d
  apply le_antisymm
  · have := h1 i
    rw [← he] at this
    exact le_of_mul_le_mul_right this (abs_pos.2 hi)
  · by_cases hd : d j = 0
    · rw [hj, norm1, if_pos hd] at h0
      exact absurd h0 (lt_irrefl _)
    · rw [hj, norm1, if_neg hd, WithTop.untopD_coe, abs_div, abs_of_pos (hl j), le_div_iff₀ (abs_pos.2 hd)]
      exact hb j

theorem times_zero {v a d : ℝ} (hv : 0 < v) (ha : 0 < a) (hd : 0 < d) : (times v a d).2.1 = 0 ↔ 2 * (a * d) ≤ v ^ 2 * (a + d) := by
  have hs : 0 < 2 * (a * d) / (a + d) := by positivity
  have hq := Real.sq_sqrt hs.le
  have hp := Real.sqrt_pos.2 hs
  set w := Real.sqrt (2 * (a * d) / (a + d)) with hw
  have had : 0 < a + d := by positivity
  have hvw : v ≤ w ↔ v ^ 2 * (a + d) ≤ 2 * (a * d) := by
    rw [← le_div_iff₀ had, ← hq]
    exact (pow_le_pow_iff_left₀ hv.le hp.le (by norm_num)).symm
  have key : ∀ u : ℝ, 0 < u → (1 / u - (u / a + u / d) * 0.5) * (2 * u * (a * d)) = 2 * (a * d) - u ^ 2 * (a + d) := by
    intro u hu
    field_simp
    ring
  simp only [times, ← hw]
  by_cases h : v > w
  · simp only [h, if_true]
    have h0 : 1 / w - (w / a + w / d) * 0.5 = 0 := by
      have := key w hp
      rw [hq, div_mul_cancel₀ _ had.ne', sub_self] at this
      exact (mul_eq_zero.1 this).resolve_right (by positivity)
    rw [h0]
    simp only [lt_irrefl, if_false, true_iff]
    by_contra hc
    exact absurd (hvw.2 (not_le.1 hc).le) (not_le.2 h)
  · simp only [h, if_false]
    have k := key v hv
    have hm : 0 < 2 * v * (a * d) := by positivity
    have h2 := hvw.1 (not_lt.1 h)
    have hx : 0 ≤ 1 / v - (v / a + v / d) * 0.5 := by
      by_contra hc
      nlinarith [mul_neg_of_neg_of_pos (not_le.1 hc) hm]
    simp only [not_lt.2 hx, if_false]
    constructor
    · intro h0
      rw [h0] at k
      linarith
    · intro h3
      have : (1 / v - (v / a + v / d) * 0.5) * (2 * v * (a * d)) = 0 := by rw [k]; linarith
      exact (mul_eq_zero.1 this).resolve_right hm.ne'

/-- The middle phase is empty exactly if the maximum velocity is not exceeded by a move without it. -/
theorem middle_zero (g : Cfg n) (s : St n) (start end_ : Vec n) (hdt : eps ≤ g.dt)
    (hv : ∀ i, 0 < g.velMax i) (ha : ∀ i, 0 < g.acc i) (hd : ∀ i, 0 < g.dec i)
    (hf : s.finished = true) (hne : ∃ i, end_ i ≠ start i) (v a d : ℝ) (lv : Least g.velMax (fun i => end_ i - start i) v)
    (la : Least g.acc (fun i => end_ i - start i) a) (ld : Least g.dec (fun i => end_ i - start i) d) (m1 m2 m3 : Nat)
    (h : Started g (move g s start end_).1 start end_ m1 m2 m3) : m2 = 0 ↔ 2 * (a * d) ≤ v ^ 2 * (a + d) := by
  have hpos : 0 < g.dt := lt_of_lt_of_le eps_pos hdt
  have hnz : ¬ ∀ i, end_ i - start i = 0 := by
    intro hc
    obtain ⟨i, hi⟩ := hne
    exact hi (sub_eq_zero.1 (hc i))
  have hne' : ∃ i, (fun i => end_ i - start i) i ≠ 0 := by
    obtain ⟨i, hi⟩ := hne
    exact ⟨i, sub_ne_zero.2 hi⟩
  have pv := (minNorm_spec g.velMax _ hv hne').1
  have pa := (minNorm_spec g.acc _ ha hne').1
  have pd := (minNorm_spec g.dec _ hd hne').1
  have e2 : (move g s start end_).1.c.dT2 = ceilTo g.dt (times v a d).2.1 := by
    unfold move
    simp only [hf, Bool.not_true, Bool.false_eq_true, if_false, hnz, coef]
    rw [least_eq hv lv, least_eq ha la, least_eq hd ld]
  rw [least_eq hv lv] at pv
  rw [least_eq ha la] at pa
  rw [least_eq hd ld] at pd
  have e3 : (move g s start end_).1.c.dT2 = m2 * g.dt := by rw [h.c]; rfl
  obtain ⟨m, c1, c2, c3, c4, -⟩ := ceilTo_spec hpos (times_spec pv pa pd).2.1
  have hm : m = m2 := by
    have : (m : ℝ) * g.dt = m2 * g.dt := by rw [← c1, ← e2, e3]
    exact_mod_cast mul_right_cancel₀ hpos.ne' this
  subst hm
  rw [← times_zero pv pa pd]
  refine ⟨fun h0 => ?_, c4⟩
  by_contra hc
  have := c3 (lt_of_le_of_ne (times_spec pv pa pd).2.1 (Ne.symm hc))
  omega

/-- **C38, violated**, for every move which does not need the whole maximum velocity (`v`, `a`, `d`: the limits per distance of the slowest axes): the planner stands still for one run while
all axes move with a velocity which is not zero. -/
theorem stands_still_violated (g : Cfg n) (s : St n) (start end_ : Vec n) (hdt : eps ≤ g.dt)
    (hv : ∀ i, 0 < g.velMax i) (ha : ∀ i, 0 < g.acc i) (hd : ∀ i, 0 < g.dec i)
    (hf : s.finished = true) (hne : ∃ i, end_ i ≠ start i) (v a d : ℝ) (lv : Least g.velMax (fun i => end_ i - start i) v)
    (la : Least g.acc (fun i => end_ i - start i) a) (ld : Least g.dec (fun i => end_ i - start i) d) (hs : 2 * (a * d) ≤ v ^ 2 * (a + d)) :
    ∃ k, ∀ i, SamePV (outs g.dt (move g s start end_).1 start (k + 1) i) (outs g.dt (move g s start end_).1 start k i) ∧
      (end_ i ≠ start i → (outs g.dt (move g s start end_).1 start k i).vel ≠ 0) := by
  obtain ⟨_, _, m1, m2, m3, h, _⟩ := move_started g s start end_ hdt hv ha hd hf hne
  have h0 := (middle_zero g s start end_ hdt hv ha hd hf hne v a d lv la ld m1 m2 m3 h).2 hs
  subst h0
  refine ⟨m1, fun i => ⟨h.stands i, fun hi => ?_⟩⟩
  rw [(h.pv1 m1 (le_refl _) i).2, h.val1]
  obtain ⟨hW, _, p1, _, _⟩ := h.W_pos
  simp only
  rw [div_mul_cancel₀ _ p1.ne']
  exact mul_ne_zero (sub_ne_zero.2 hi) hW.ne'

/-- **C276.** The outputs are consistent in all runs (from each run to the next the velocity is the integral of the acceleration and the position that of the velocity) exactly
for the moves which need a phase with constant velocity. -/
theorem consistent_iff (g : Cfg n) (s : St n) (start end_ : Vec n) (hdt : eps ≤ g.dt)
    (hv : ∀ i, 0 < g.velMax i) (ha : ∀ i, 0 < g.acc i) (hd : ∀ i, 0 < g.dec i)
    (hf : s.finished = true) (hne : ∃ i, end_ i ≠ start i) (v a d : ℝ) (lv : Least g.velMax (fun i => end_ i - start i) v)
    (la : Least g.acc (fun i => end_ i - start i) a) (ld : Least g.dec (fun i => end_ i - start i) d) :
    (∀ k i, Integrates g.dt (outs g.dt (move g s start end_).1 start k i) (outs g.dt (move g s start end_).1 start (k + 1) i)) ↔
      v ^ 2 * (a + d) < 2 * (a * d) := by
  constructor
  · intro h
    by_contra hc
    obtain ⟨k, hk⟩ := stands_still_violated g s start end_ hdt hv ha hd hf hne v a d lv la ld (not_lt.1 hc)
    obtain ⟨i, hi⟩ := hne
    obtain ⟨⟨hp, hw⟩, hz⟩ := hk i
    obtain ⟨i1, i2⟩ := h k i
    have hpos : 0 < g.dt := lt_of_lt_of_le eps_pos hdt
    rw [hw, left_eq_add] at i1
    have h0 := (mul_eq_zero.1 i1).resolve_right hpos.ne'
    rw [hp, h0, zero_mul, zero_div, add_zero, left_eq_add] at i2
    exact hz hi ((mul_eq_zero.1 i2).resolve_right hpos.ne')
  · intro hs k i
    obtain ⟨_, _, m1, m2, m3, h, _⟩ := move_started g s start end_ hdt hv ha hd hf hne
    refine h.integrates k (fun hc => ?_) i
    exact absurd ((middle_zero g s start end_ hdt hv ha hd hf hne v a d lv la ld m1 m2 m3 h).1 hc.2) (not_le.2 hs)

/-- **C276** (one axis) With one axis: exactly the moves longer than the way needed to reach the maximum velocity and to stop from it. -/
theorem consistent_iff_long (g : Cfg 0) (s : St 0) (start end_ : Vec 0) (hdt : eps ≤ g.dt) (hv : 0 < g.velMax 0) (ha : 0 < g.acc 0) (hd : 0 < g.dec 0)
    (hf : s.finished = true) (hne : end_ 0 ≠ start 0) :
    (∀ k, Integrates g.dt (outs g.dt (move g s start end_).1 start k 0) (outs g.dt (move g s start end_).1 start (k + 1) 0)) ↔
      g.velMax 0 ^ 2 / (2 * g.acc 0) + g.velMax 0 ^ 2 / (2 * g.dec 0) < |end_ 0 - start 0| := by
  have hx : 0 < |end_ 0 - start 0| := abs_pos.2 (sub_ne_zero.2 hne)
  have one : ∀ i : Fin (0 + 1), i = 0 := fun i => Fin.ext (by omega)
  have L : ∀ lim : Vec 0, Least lim (fun i => end_ i - start i) (lim 0 / |end_ 0 - start 0|) := by
    intro lim
    refine ⟨⟨0, sub_ne_zero.2 hne, div_mul_cancel₀ _ hx.ne'⟩, fun i => ?_⟩
    rw [one i]
    exact (div_mul_cancel₀ _ hx.ne').le
  have h := consistent_iff g s start end_ hdt (fun i => by rw [one i]; exact hv) (fun i => by rw [one i]; exact ha) (fun i => by rw [one i]; exact hd) hf ⟨0, hne⟩
    _ _ _ (L g.velMax) (L g.acc) (L g.dec)
  have e : (g.velMax 0 / |end_ 0 - start 0|) ^ 2 * (g.acc 0 / |end_ 0 - start 0| + g.dec 0 / |end_ 0 - start 0|) < 2 * (g.acc 0 / |end_ 0 - start 0| * (g.dec 0 / |end_ 0 - start 0|)) ↔
      g.velMax 0 ^ 2 / (2 * g.acc 0) + g.velMax 0 ^ 2 / (2 * g.dec 0) < |end_ 0 - start 0| := by
    generalize |end_ 0 - start 0| = x at hx ⊢
    generalize g.velMax 0 = v at hv ⊢
    generalize g.acc 0 = a at ha ⊢
    generalize g.dec 0 = b at hd ⊢
    have e1 : (v / x) ^ 2 * (a / x + b / x) = (v ^ 2 * (a + b)) / x ^ 3 := by field_simp
    have e2 : 2 * (a / x * (b / x)) = (2 * (a * b) * x) / x ^ 3 := by field_simp
    have e3 : v ^ 2 / (2 * a) + v ^ 2 / (2 * b) = v ^ 2 * (a + b) / (2 * (a * b)) := by field_simp; ring
    rw [e1, e2, e3, div_lt_div_iff_of_pos_right (by positivity), div_lt_iff₀ (by positivity), mul_comm x]
  rw [← e, ← h]
  exact ⟨fun h k i => by rw [one i]; exact h k, fun h k => h k 0⟩

/-- With velocity 10 and accelerations 1 a move of 100 stands still once, a move of 101 does not. -/
example : (¬ (∀ k, Integrates cfgEx.dt (outs cfgEx.dt (move cfgEx stEx (fun _ => 0) (fun _ => 100)).1 (fun _ => 0) k 0)
      (outs cfgEx.dt (move cfgEx stEx (fun _ => 0) (fun _ => 100)).1 (fun _ => 0) (k + 1) 0))) ∧
    (∀ k, Integrates cfgEx.dt (outs cfgEx.dt (move cfgEx stEx (fun _ => 0) (fun _ => 101)).1 (fun _ => 0) k 0)
      (outs cfgEx.dt (move cfgEx stEx (fun _ => 0) (fun _ => 101)).1 (fun _ => 0) (k + 1) 0)) := by
  constructor
  · rw [consistent_iff_long cfgEx stEx _ _ ex_move.dt (by norm_num [cfgEx]) (by norm_num [cfgEx]) (by norm_num [cfgEx]) rfl (by norm_num)]
    norm_num [cfgEx]
  · rw [consistent_iff_long cfgEx stEx _ _ ex_move.dt (by norm_num [cfgEx]) (by norm_num [cfgEx]) (by norm_num [cfgEx]) rfl (by norm_num)]
    norm_num [cfgEx]

/-- Two axes: the second one has the longer way and decides. -/
example : Least (n := 1) (fun _ => 10) (fun i => if i = 0 then 1 else -5) 2 := by
  refine ⟨⟨1, by norm_num, by norm_num⟩, fun i => ?_⟩
  by_cases h : i = 0 <;> norm_num [h]

end Verif.Planner.ConstAcc
