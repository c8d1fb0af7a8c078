import Verif.Planner.CubicProps
/-!
C59: where the cubic planner ends, and what a move after `reset` does, for all tables (model: `Planner/Cubic.lean`,
`includes/eeros/control/PathPlannerCubic.hpp`).
-/
namespace Verif.Planner.Cubic
variable {K : Type} [Field K] [LinearOrder K] [IsStrictOrderedRing K]

/-- **C59 violated** (end), for every table: when the end is reported, and for ever after, the outputs are those of one sampling time before the end of the last row
`r`, of `m` samples; the values prescribed for the end are `seg r (m * dt)`. -/
theorem stops_short_violated (s : St K) (tab : List (Nat × Row K)) (m : Nat) (r : Row K) (p : K) (hdt : 0 < s.dt) (hf : s.finished = true)
    (hraw : s.raw = (tab ++ [(m, r)]).map Prod.snd) (ht : Timed s.dt (tab ++ [(m, r)])) :
    ∃ s1 s2, run s = some s1 ∧ moveRaw s1 p = some (s2, true) ∧
      ∀ k, samples (tab ++ [(m, r)]) < k → ∃ s', runs k s2 = some s' ∧ s'.finished = true ∧
        s'.out = some (seg { r with pos := r.pos + p } (((m - 1 : Nat) : K) * s.dt)) := by
  obtain ⟨s1, s2, h1, h2, -, h4⟩ := follows_table_partial s (tab ++ [(m, r)]) p hdt hf hraw (by simp) ht
  refine ⟨s1, s2, h1, h2, fun k hk => ?_⟩
  obtain ⟨s', a, b, c⟩ := h4 k (by rw [samples_shift]; exact hk)
  refine ⟨s', a, b, ?_⟩
  have e : shift p (tab ++ [(m, r)]) = shift p tab ++ [(m, { r with pos := r.pos + p })] := by simp [shift]
  rw [c, e, last_sample _ _ _ _ (ht (m, r) (by simp)).1]

/-- With a positive velocity and nothing else in the last row, the missing distance is the one of a sampling time. -/
example (r : Row ℚ) (m : Nat) (hm : 1 ≤ m) (dt : ℚ) (hr : r.jerk = 0 ∧ r.acc = 0) :
    (seg r (m * dt)).pos - (seg r (((m - 1 : Nat) : ℚ) * dt)).pos = r.vel * dt := by
  obtain ⟨j, a⟩ := hr
  simp only [seg, j, a, Nat.cast_sub hm]
  push_cast
  ring

example : Timed (1 : ℚ) ([] ++ [(10, (⟨10, 0, 0, 1, 0⟩ : Row ℚ))]) ∧ (seg (⟨10, 0, 0, 1, 0⟩ : Row ℚ) (((10 - 1 : Nat) : ℚ) * 1)).pos = 9 := by
  norm_num [Timed, seg]

/-- **C59 violated** (`reset`), for every state in the middle of a row: when the motion is stopped with `reset` and a move from `p` is started before the next run, the next
run continues from the old position, velocity and acceleration in the row of the old index; the start position `p` plays no role. -/
theorem resumes_violated (s : St K) (p t : K) (row : Row K) (ht : s.t = some t) (hi : t ≤ s.interval + s.dt / 2) (hrow : s.raw[s.index]? = some row) :
    ∃ s1 s2, moveRaw (reset s) p = some (s1, true) ∧ run s1 = some s2 ∧ s2.index = s.index ∧
      s2.out = some ⟨row.jerk, s.prevAcc + row.jerk * s.dt, s.prevVel + s.prevAcc * s.dt + row.jerk / 2 * s.dt * s.dt,
        s.prevPos + s.prevVel * s.dt + s.prevAcc / 2 * s.dt * s.dt + row.jerk / 6 * s.dt * s.dt * s.dt⟩ := by
  have hlen : s.index < s.raw.length := (List.getElem?_eq_some_iff.1 hrow).1
  have hne : s.raw.length ≠ 0 := by omega
  refine ⟨{ s with coef := s.raw.map (fun r => { r with pos := r.pos + p }), finished := false }, write { s with coef := s.raw.map (fun r => { r with pos := r.pos + p }), finished := false } t
    ⟨row.jerk, s.prevAcc + row.jerk * s.dt, s.prevVel + s.prevAcc * s.dt + row.jerk / 2 * s.dt * s.dt,
      s.prevPos + s.prevVel * s.dt + s.prevAcc / 2 * s.dt * s.dt + row.jerk / 6 * s.dt * s.dt * s.dt⟩, ?_, ?_, rfl, rfl⟩
  · simp [moveRaw, reset, hne]
  · rw [run, if_pos ⟨rfl, by simp; omega, by simpa using hlen⟩]
    simp only [ht, List.getElem?_map, hrow, Option.map_some]
    rw [if_pos hi]

/-- In the middle of the second of two rows (time 5 of the interval up to 5, position 3). -/
example : ((do let s1 ← run (init (new 1) [⟨2, 0, 0, 1, 0⟩, ⟨3, 0, 0, 1, 2⟩]); let (s2, _) ← moveRaw s1 0; runs 4 s2) : Option (St ℚ)).map
    (fun s => (s.t, s.interval, s.dt, s.raw[s.index]?, s.prevPos)) = some (some 5, 5, 1, some ⟨3, 0, 0, 1, 2⟩, 3) := by decide +kernel

end Verif.Planner.Cubic
