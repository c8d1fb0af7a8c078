/-
C232: no motion on the straight line within the same limits is faster than that of `PathPlannerConstAcc`, up to four sampling times.

The planner is that of `Verif/Planner/ConstAcc.lean`.
-/
import Verif.Planner.ConstAccProps
import Mathlib.Analysis.Calculus.Deriv.MeanValue
import Mathlib.Analysis.Calculus.Deriv.Pow

namespace Verif.Planner.ConstAcc.Fast
open Set
variable {n : Nat}

/-! ### Specification -/

/-- A motion of length `T` from `start` to `end_` on the straight line: at time `t` the position is `start + σ t * (end_ - start)` and the velocity
`v t * (end_ - start)`.  It starts and ends with velocity zero, no element is faster than its maximum, and the speed of no element grows or decreases faster than
allowed. -/
structure Motion (g : Cfg n) (start end_ : Vec n) (T : ℝ) (σ v : ℝ → ℝ) : Prop where
  len : 0 ≤ T
  deriv : ∀ t ∈ Icc 0 T, HasDerivWithinAt σ (v t) (Icc 0 T) t
  first : σ 0 = 0
  last : σ T = 1
  rest0 : v 0 = 0
  restT : v T = 0
  vel : ∀ t ∈ Icc 0 T, ∀ i, |v t * (end_ i - start i)| ≤ g.velMax i
  acc : ∀ p ∈ Icc 0 T, ∀ q ∈ Icc 0 T, p ≤ q → ∀ i, |v q * (end_ i - start i)| - |v p * (end_ i - start i)| ≤ g.acc i * (q - p)
  dec : ∀ p ∈ Icc 0 T, ∀ q ∈ Icc 0 T, p ≤ q → ∀ i, |v p * (end_ i - start i)| - |v q * (end_ i - start i)| ≤ g.dec i * (q - p)

/-! ### Proof -/

theorem le_of_rate {f f' : ℝ → ℝ} {p q : ℝ} (hpq : p ≤ q) (hf : ∀ t ∈ Icc p q, HasDerivWithinAt f (f' t) (Icc p q) t) (h : ∀ t ∈ Ioo p q, 0 ≤ f' t) : f p ≤ f q := by
  have hm : MonotoneOn f (Icc p q) := by
    refine monotoneOn_of_deriv_nonneg (convex_Icc p q) (fun t ht => (hf t ht).continuousWithinAt) ?_ ?_
    · intro t ht
      rw [interior_Icc] at ht ⊢
      exact ((hf t (Ioo_subset_Icc_self ht)).hasDerivAt (Icc_mem_nhds ht.1 ht.2)).differentiableAt.differentiableWithinAt
    · intro t ht
      rw [interior_Icc] at ht
      rw [((hf t (Ioo_subset_Icc_self ht)).hasDerivAt (Icc_mem_nhds ht.1 ht.2)).deriv]
      exact h t ht
  exact hm (left_mem_Icc.2 hpq) (right_mem_Icc.2 hpq) hpq

/-- Way of a motion between two times with a velocity below `A t + B`. -/
theorem way_le {σ v : ℝ → ℝ} {T p q A B : ℝ} (hd : ∀ t ∈ Icc 0 T, HasDerivWithinAt σ (v t) (Icc 0 T) t) (h0 : 0 ≤ p) (hpq : p ≤ q) (hq : q ≤ T)
    (hv : ∀ t ∈ Icc p q, v t ≤ A * t + B) : σ q - σ p ≤ A * (q ^ 2 - p ^ 2) / 2 + B * (q - p) := by
  have := le_of_rate (f := fun t => A / 2 * t ^ 2 + B * t - σ t) (f' := fun t => A * t + B - v t) hpq (fun t ht => by
      have h1 : HasDerivAt (fun t : ℝ => A / 2 * t ^ 2 + B * t) (A * t + B) t := by
        have h2 := ((hasDerivAt_pow 2 t).const_mul (A / 2)).add ((hasDerivAt_id t).const_mul B)
        have e : A / 2 * (((2 : ℕ) : ℝ) * t ^ (2 - 1)) + B * 1 = A * t + B := by push_cast; ring
        rw [e] at h2
        exact h2
      exact h1.hasDerivWithinAt.sub ((hd t ⟨h0.trans ht.1, ht.2.trans hq⟩).mono (Icc_subset_Icc h0 hq)))
    (fun t ht => by have := hv t (Ioo_subset_Icc_self ht); linarith)
  linarith

/-- The time is at least that of acceleration to and deceleration from `u`. -/
theorem ramps {u a d T : ℝ} (ha : 0 < a) (hd : 0 < d) (hup : 0 < u) {σ v : ℝ → ℝ} (hT : 0 ≤ T) (hder : ∀ t ∈ Icc 0 T, HasDerivWithinAt σ (v t) (Icc 0 T) t)
    (h0 : σ 0 = 0) (h1 : σ T = 1) (hA : ∀ t ∈ Icc 0 T, v t ≤ a * t) (hD : ∀ t ∈ Icc 0 T, v t ≤ d * (T - t)) (hu2' : u ^ 2 * (a + d) ≤ 2 * (a * d)) :
    u / a + u / d ≤ T := by
  by_contra hlt
  rw [not_le] at hlt
  obtain ⟨τ, hτ⟩ : ∃ τ, τ = d * T / (a + d) := ⟨_, rfl⟩
  have hτ0 : 0 ≤ τ := by rw [hτ]; positivity
  have hτT : τ ≤ T := by
    rw [hτ, div_le_iff₀ (by positivity)]; nlinarith
  have w1 := way_le (A := a) (B := 0) hder le_rfl hτ0 hτT (fun t ht => by have := hA t ⟨ht.1, ht.2.trans hτT⟩; linarith)
  have w2 := way_le (A := -d) (B := d * T) hder hτ0 hτT le_rfl (fun t ht => by have := hD t ⟨hτ0.trans ht.1, ht.2⟩; linarith)
  have w3 : 1 ≤ a * τ ^ 2 / 2 + d * (T - τ) ^ 2 / 2 := by
    have e : d * (T - τ) ^ 2 / 2 = -d * (T ^ 2 - τ ^ 2) / 2 + d * T * (T - τ) := by ring
    rw [e]; linarith
  have w4 : a * τ ^ 2 / 2 + d * (T - τ) ^ 2 / 2 = a * d * T ^ 2 / (2 * (a + d)) := by
    rw [hτ]; field_simp; ring
  rw [w4, le_div_iff₀ (by positivity)] at w3
  have w5 : T * (a * d) < u * (a + d) := by
    have : u / a + u / d = u * (a + d) / (a * d) := by field_simp; ring
    rwa [this, lt_div_iff₀ (by positivity)] at hlt
  have w6 : (T * (a * d)) ^ 2 < (u * (a + d)) ^ 2 := pow_lt_pow_left₀ w5 (by positivity) two_ne_zero
  have w7 : (u * (a + d)) ^ 2 ≤ 2 * (a * d) * (a + d) := by
    have := mul_le_mul_of_nonneg_right hu2' (by positivity : 0 ≤ a + d)
    have e : (u * (a + d)) ^ 2 = u ^ 2 * (a + d) * (a + d) := by ring
    rw [e]; exact this
  have w8 : 2 * (a + d) * (a * d) ≤ (T * (a * d)) ^ 2 := by
    have := mul_le_mul_of_nonneg_right w3 (by positivity : 0 ≤ a * d)
    have e : (T * (a * d)) ^ 2 = a * d * T ^ 2 * (a * d) := by ring
    rw [e]; linarith
  linarith

/-- The same with a middle phase. -/
theorem cruise {u a d T : ℝ} (ha : 0 < a) (hd : 0 < d) (hup : 0 < u) {σ v : ℝ → ℝ} (hder : ∀ t ∈ Icc 0 T, HasDerivWithinAt σ (v t) (Icc 0 T) t)
    (h0 : σ 0 = 0) (h1 : σ T = 1) (hv : ∀ t ∈ Icc 0 T, v t ≤ u) (hA : ∀ t ∈ Icc 0 T, v t ≤ a * t) (hD : ∀ t ∈ Icc 0 T, v t ≤ d * (T - t))
    (key : u / a + u / d ≤ T) : 1 / u ≤ T - (u / a + u / d) / 2 := by
  obtain ⟨p, hp⟩ : ∃ p, p = u / a := ⟨_, rfl⟩
  obtain ⟨q, hq⟩ : ∃ q, q = u / d := ⟨_, rfl⟩
  have hpa : p * a = u := by rw [hp]; field_simp
  have hqd : q * d = u := by rw [hq]; field_simp
  have hp1 : 0 < p := by rw [hp]; positivity
  have hp3 : 0 < q := by rw [hq]; positivity
  rw [← hp, ← hq] at key ⊢
  have w1 := way_le (A := a) (B := 0) (p := 0) (q := p) hder le_rfl hp1.le (by linarith) (fun t ht => by
    have := hA t ⟨ht.1, ht.2.trans (by linarith)⟩; linarith)
  have w2 := way_le (A := 0) (B := u) (p := p) (q := T - q) hder hp1.le (by linarith) (by linarith) (fun t ht => by
    have := hv t ⟨hp1.le.trans ht.1, ht.2.trans (by linarith)⟩; linarith)
  have w3 := way_le (A := -d) (B := d * T) (p := T - q) (q := T) hder (by linarith) (by linarith) le_rfl (fun t ht => by
    have := hD t ⟨by linarith [ht.1], ht.2⟩; linarith)
  have w4 : a * (p ^ 2 - 0 ^ 2) / 2 + 0 * (p - 0) + (0 * ((T - q) ^ 2 - p ^ 2) / 2 + u * (T - q - p)) + (-d * (T ^ 2 - (T - q) ^ 2) / 2 + d * T * (T - (T - q))) =
      (p * a) * p / 2 + u * (T - q - p) + (q * d) * q / 2 := by ring
  have w5 : 1 ≤ (T - (p + q) / 2) * u := by
    rw [hpa, hqd] at w4
    have e : (T - (p + q) / 2) * u = u * p / 2 + u * (T - q - p) + u * q / 2 := by ring
    rw [e]; linarith
  rwa [div_le_iff₀ hup]

/-- The time of the planner before rounding is the shortest one. -/
theorem shortest {w a d T : ℝ} (hw : 0 < w) (ha : 0 < a) (hd : 0 < d) {σ v : ℝ → ℝ} (hT : 0 ≤ T) (hder : ∀ t ∈ Icc 0 T, HasDerivWithinAt σ (v t) (Icc 0 T) t)
    (h0 : σ 0 = 0) (h1 : σ T = 1) (hv : ∀ t ∈ Icc 0 T, v t ≤ w) (hA : ∀ t ∈ Icc 0 T, v t ≤ a * t) (hD : ∀ t ∈ Icc 0 T, v t ≤ d * (T - t)) :
    (times w a d).1 + (times w a d).2.1 + (times w a d).2.2 ≤ T := by
  obtain ⟨u, hu⟩ : ∃ u, u = if w > Real.sqrt (2 * (a * d) / (a + d)) then Real.sqrt (2 * (a * d) / (a + d)) else w := ⟨_, rfl⟩
  have hs : 0 < Real.sqrt (2 * (a * d) / (a + d)) := Real.sqrt_pos.2 (by positivity)
  have hup : 0 < u := by rw [hu]; split <;> assumption
  have hus : u ≤ Real.sqrt (2 * (a * d) / (a + d)) := by
    rw [hu]; split
    · exact le_refl _
    · rename_i h; exact not_lt.1 h
  have hsq : Real.sqrt (2 * (a * d) / (a + d)) ^ 2 = 2 * (a * d) / (a + d) := Real.sq_sqrt (by positivity)
  have e1 : (times w a d).1 = u / a := by rw [hu]; rfl
  have e3 : (times w a d).2.2 = u / d := by rw [hu]; rfl
  have e2 : (times w a d).2.1 = if 1 / u - (u / a + u / d) * 0.5 < 0 then 0 else 1 / u - (u / a + u / d) * 0.5 := by rw [hu]; rfl
  have hu2 : u ^ 2 ≤ 2 * (a * d) / (a + d) := by rw [← hsq]; exact pow_le_pow_left₀ hup.le hus 2
  have hu2' : u ^ 2 * (a + d) ≤ 2 * (a * d) := by rwa [le_div_iff₀ (by positivity)] at hu2
  have h2 : (times w a d).2.1 = 1 / u - (u / a + u / d) * 0.5 := by
    rw [e2, if_neg]
    rw [not_lt]
    have : 1 / u - (u / a + u / d) * 0.5 = (2 * (a * d) - u ^ 2 * (a + d)) / (2 * u * a * d) := by field_simp; ring
    rw [this]
    exact div_nonneg (by linarith) (by positivity)
  rw [e1, e3, h2]
  have key := ramps ha hd hup hT hder h0 h1 hA hD hu2'
  by_cases hc : w > Real.sqrt (2 * (a * d) / (a + d))
  · have hu' : u = Real.sqrt (2 * (a * d) / (a + d)) := by rw [hu, if_pos hc]
    have : 1 / u = (u / a + u / d) * 0.5 := by
      have h3 : u ^ 2 * (a + d) = 2 * (a * d) := by rw [hu', hsq]; field_simp
      have h4 : (u / a + u / d) * 0.5 = u ^ 2 * (a + d) / (2 * (a * d)) / u := by field_simp; ring
      rw [h4, h3]; field_simp
    linarith
  · have hu' : u = w := by rw [hu, if_neg hc]
    rw [← hu'] at hv
    have := cruise ha hd hup hder h0 h1 hv hA hD key
    linarith

theorem le_minNorm (lim d : Vec n) (hl : ∀ i, 0 < lim i) (hd : ∃ i, d i ≠ 0) (x : ℝ) (h : ∀ i, x * |d i| ≤ lim i) : x ≤ (minNorm lim d).untopD 0 := by
  obtain ⟨j, hj⟩ := hd
  obtain ⟨i0, h0⟩ := minNorm_mem lim d
  have hne : d i0 ≠ 0 := by
    intro hc
    have := minNorm_le lim d j
    rw [h0] at this
    simp [norm1, hc, hj] at this
  rw [h0, norm1, if_neg hne, WithTop.untopD_coe, abs_div, abs_of_pos (hl i0), le_div_iff₀ (abs_pos.2 hne)]
  exact h i0

/-- **C232.**  After a successful `move` the planner has finished after some number `N` of runs, and `N` sampling times are less than four sampling times longer than
any motion on the straight line which keeps the limits. -/
theorem no_faster_motion (g : Cfg n) (s : St n) (start end_ : Vec n) (hdt : eps ≤ g.dt) (hv : ∀ i, 0 < g.velMax i) (ha : ∀ i, 0 < g.acc i) (hd : ∀ i, 0 < g.dec i)
    (hf : s.finished = true) (hne : ∃ i, end_ i ≠ start i) :
    ∃ N : Nat, (∀ k < N, (runs g.dt k (move g s start end_).1).finished = false) ∧
      (∀ k ≥ N, (runs g.dt k (move g s start end_).1).finished = true ∧ (runs g.dt k (move g s start end_).1).last = fun i => ⟨end_ i, 0, 0⟩) ∧
      ∀ (T : ℝ) (σ v : ℝ → ℝ), Motion g start end_ T σ v → N * g.dt < T + 4 * g.dt := by
  have hpos : 0 < g.dt := lt_of_lt_of_le eps_pos hdt
  have hne' : ∃ i, (fun i => end_ i - start i) i ≠ 0 := by
    obtain ⟨i, hi⟩ := hne
    exact ⟨i, sub_ne_zero.2 hi⟩
  have hnz : ¬ ∀ i, end_ i - start i = 0 := by
    intro h
    obtain ⟨i, hi⟩ := hne'
    exact hi (h i)
  obtain ⟨pv, bv⟩ := minNorm_spec g.velMax (fun i => end_ i - start i) hv hne'
  obtain ⟨pa, ba⟩ := minNorm_spec g.acc (fun i => end_ i - start i) ha hne'
  obtain ⟨pd, bd⟩ := minNorm_spec g.dec (fun i => end_ i - start i) hd hne'
  obtain ⟨t1, t2, t3, tb⟩ := times_spec pv pa pd
  obtain ⟨m1, e1, l1, o1, _, u1⟩ := ceilTo_spec hpos t1.le
  obtain ⟨m2, e2, l2, _, z2, u2⟩ := ceilTo_spec hpos t2
  obtain ⟨m3, e3, l3, o3, _, u3⟩ := ceilTo_spec hpos t3.le
  have hm : move g s start end_ = ({ s with
      endPos := end_, finished := false, range := 1, t := 0,
      c := coef (m1 * g.dt) (m2 * g.dt) (m3 * g.dt) start (fun i => end_ i - start i) }, true) := by
    unfold move
    simp only [hf, Bool.not_true, Bool.false_eq_true, if_false, hnz]
    rw [← e1, ← e2, ← e3]
  have hs : Started g (move g s start end_).1 start end_ m1 m2 m3 := by
    rw [hm]; exact ⟨hdt, o1 t1, o3 t3, rfl, rfl, rfl, rfl, rfl⟩
  refine ⟨total m1 m2 m3, hs.busy, fun k hk => ?_, ?_⟩
  · have := hs.done (k - total m1 m2 m3)
    rwa [show k - total m1 m2 m3 + total m1 m2 m3 = k by omega] at this
  · intro T σ v M
    have h0m : (0 : ℝ) ∈ Icc 0 T := ⟨le_rfl, M.len⟩
    have hTm : T ∈ Icc (0 : ℝ) T := ⟨M.len, le_rfl⟩
    have bound := shortest pv pa pd M.len M.deriv M.first M.last
      (fun t ht => (le_abs_self _).trans (le_minNorm _ _ hv hne' _ fun i => by rw [← abs_mul]; exact M.vel t ht i))
      (fun t ht => by
        rcases ht.1.eq_or_lt with h | h
        · rw [← h, M.rest0, mul_zero]
        · have : |v t| / t ≤ (minNorm g.acc fun i => end_ i - start i).untopD 0 := le_minNorm _ _ ha hne' _ fun i => by
            have := M.acc 0 h0m t ht ht.1 i
            rw [M.rest0, zero_mul, abs_zero, sub_zero, sub_zero, abs_mul] at this
            rw [div_mul_eq_mul_div, div_le_iff₀ h]; exact this
          rw [div_le_iff₀ h] at this
          exact (le_abs_self _).trans this)
      (fun t ht => by
        rcases ht.2.eq_or_lt with h | h
        · rw [h, M.restT, sub_self, mul_zero]
        · have h' : 0 < T - t := by linarith
          have : |v t| / (T - t) ≤ (minNorm g.dec fun i => end_ i - start i).untopD 0 := le_minNorm _ _ hd hne' _ fun i => by
            have := M.dec t ht T hTm ht.2 i
            rw [M.restT, zero_mul, abs_zero, sub_zero, abs_mul] at this
            rw [div_mul_eq_mul_div, div_le_iff₀ h']; exact this
          rw [div_le_iff₀ h'] at this
          exact (le_abs_self _).trans this)
    have hN : ((total m1 m2 m3 : Nat) : ℝ) = 1 + (m3 + ((max m2 1 : Nat) + m1)) := by unfold total; push_cast; ring
    have hmax : ((max m2 1 : Nat) : ℝ) * g.dt ≤ (times ((minNorm g.velMax fun i => end_ i - start i).untopD 0) ((minNorm g.acc fun i => end_ i - start i).untopD 0)
        ((minNorm g.dec fun i => end_ i - start i).untopD 0)).2.1 + g.dt := by
      rcases Nat.eq_zero_or_pos m2 with h | h
      · rw [h]; simp; exact t2
      · rw [Nat.max_eq_left h]; exact u2.le
    rw [hN]
    nlinarith

/-- A way of 8 with velocity 2 and accelerations 1, sampled 10 times per second. -/
noncomputable def g8 : Cfg 0 := ⟨fun _ => 2, fun _ => 1, fun _ => 1, 1 / 10⟩

/-- The motion along a cubic polynomial in 10 s keeps the limits. -/
theorem cubic8 : Motion g8 (fun _ => 0) (fun _ => 8) 10 (fun t => 3 / 100 * t ^ 2 - 2 / 1000 * t ^ 3) (fun t => 6 / 100 * t - 6 / 1000 * t ^ 2) := by
  have hpos : ∀ t ∈ Icc (0 : ℝ) 10, 0 ≤ 6 / 100 * t - 6 / 1000 * t ^ 2 := fun t ht => by
    have := mul_nonneg ht.1 (sub_nonneg.2 ht.2); nlinarith
  have habs : ∀ t ∈ Icc (0 : ℝ) 10, |(6 / 100 * t - 6 / 1000 * t ^ 2) * ((8 : ℝ) - 0)| = (6 / 100 * t - 6 / 1000 * t ^ 2) * 8 := fun t ht => by
    rw [sub_zero, abs_of_nonneg (mul_nonneg (hpos t ht) (by norm_num))]
  refine ⟨by norm_num, ?_, by norm_num, by norm_num, by norm_num, by norm_num, ?_, ?_, ?_⟩
  · intro t _
    have h := ((hasDerivAt_pow 2 t).const_mul (3 / 100 : ℝ)).sub ((hasDerivAt_pow 3 t).const_mul (2 / 1000 : ℝ))
    have e : (3 / 100 : ℝ) * (((2 : ℕ) : ℝ) * t ^ (2 - 1)) - 2 / 1000 * (((3 : ℕ) : ℝ) * t ^ (3 - 1)) = 6 / 100 * t - 6 / 1000 * t ^ 2 := by push_cast; ring
    rw [e] at h
    exact h.hasDerivWithinAt
  · intro t ht i
    rw [habs t ht]
    simp only [g8]
    nlinarith [sq_nonneg (t - 5)]
  · intro p hp q hq hpq i
    rw [habs p hp, habs q hq]
    simp only [g8]
    nlinarith [mul_nonneg (sub_nonneg.2 hpq) (add_nonneg hp.1 hq.1), sub_nonneg.2 hpq]
  · intro p hp q hq hpq i
    rw [habs p hp, habs q hq]
    simp only [g8]
    nlinarith [mul_nonneg (sub_nonneg.2 hpq) (sub_nonneg.2 hp.2), mul_nonneg (sub_nonneg.2 hpq) (sub_nonneg.2 hq.2), sub_nonneg.2 hpq]

/-- Hence the planner needs at most 103 runs for this way. -/
example (s : St 0) (hf : s.finished = true) : ∃ N ≤ 103, ∀ k ≥ N, (runs g8.dt k (move g8 s (fun _ => 0) (fun _ => 8)).1).finished = true ∧
    (runs g8.dt k (move g8 s (fun _ => 0) (fun _ => 8)).1).last = fun _ => ⟨8, 0, 0⟩ := by
  obtain ⟨N, -, h, hN⟩ := no_faster_motion g8 s (fun _ => 0) (fun _ => 8) (by norm_num [g8, eps]) (by norm_num [g8]) (by norm_num [g8]) (by norm_num [g8]) hf
    ⟨0, by norm_num⟩
  refine ⟨N, ?_, h⟩
  have := hN _ _ _ cubic8
  have : (N : ℝ) < 104 := by norm_num [g8] at this; linarith
  have : N < 104 := by exact_mod_cast this
  omega

end Verif.Planner.ConstAcc.Fast
