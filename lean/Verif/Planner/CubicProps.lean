/-
C59: the cubic planner follows its table.
-/
import Verif.Planner.Cubic
import Mathlib.Tactic.Linarith
import Mathlib.Tactic.FieldSimp
import Mathlib.Tactic.Ring
import Mathlib.Tactic.NormNum
import Mathlib.Tactic.Positivity
import Mathlib.Data.Rat.Floor

set_option linter.unusedSectionVars false

namespace Verif.Planner.Cubic
variable {K : Type} [Field K] [LinearOrder K] [IsStrictOrderedRing K]

/-! ### Specification -/

/-- Jerk, acceleration, velocity and position a time `x` after the beginning of a row. -/
def seg (r : Row K) (x : K) : Y K :=
  ⟨r.jerk, r.acc + r.jerk * x, r.vel + r.acc * x + r.jerk * x ^ 2 / 2,
    r.pos + r.vel * x + r.acc * x ^ 2 / 2 + r.jerk * x ^ 3 / 6⟩

/-- Sample `k` of a table of rows together with their numbers of samples: the row which contains it, at its time in the row. -/
def sample (dt : K) : List (Nat × Row K) → Nat → Option (Y K)
  | [], _ => none
  | (m, r) :: rest, k => if k < m then some (seg r (k * dt)) else sample dt rest (k - m)

/-- Number of samples of a table. -/
def samples (tab : List (Nat × Row K)) : Nat := (tab.map Prod.fst).sum

/-- The table has rows of at least one sample each. -/
def Timed (dt : K) (tab : List (Nat × Row K)) : Prop := ∀ p ∈ tab, 1 ≤ p.1 ∧ p.2.time = p.1 * dt

/-- The state of the planner when a move starts after at least one idle run. -/
structure Ready (s : St K) (rows : List (Row K)) : Prop where
  fin : s.finished = false
  t : s.t = some s.dt
  interval : s.interval = -s.dt
  index : s.index = 0
  first : s.first = true
  coef : s.coef = rows

theorem runs_succ' (k : Nat) (s : St K) : runs (k + 1) s = (run s).bind (runs k) := by
  induction k with
  | zero => simp [runs, Option.bind_fun_some]
  | succ k ih => rw [runs, ih, Option.bind_assoc]; rfl

theorem runs_add (j k : Nat) (s : St K) : runs (j + k) s = (runs k s).bind (runs j) := by
  induction j with
  | zero =>
    rw [Nat.zero_add]
    cases runs k s <;> rfl
  | succ j ih => rw [Nat.succ_add, runs, ih, Option.bind_assoc]; rfl

/-! ### Following the table -/

/-- In the middle of row `r` at index `done.length`, after sample `q` of this row. -/
structure At (s : St K) (dt : K) (done : List (Nat × Row K)) (m : Nat) (r : Row K) (rest : List (Nat × Row K)) (q : Nat) : Prop where
  hdt : s.dt = dt
  fin : s.finished = false
  coef : s.coef = (done.map Prod.snd) ++ r :: rest.map Prod.snd
  index : s.index = done.length
  first : s.first = false
  interval : s.interval = ((samples done + m : Nat) : K) * dt
  t : s.t = some (((samples done + q + 2 : Nat) : K) * dt)
  out : s.out = some (seg r (q * dt))
  acc : s.prevAcc = (seg r (q * dt)).acc
  vel : s.prevVel = (seg r (q * dt)).vel
  pos : s.prevPos = (seg r (q * dt)).pos
  jerk : s.prevJerk = some r.jerk

section
variable {s : St K} {dt : K} {done rest : List (Nat × Row K)} {m : Nat} {r : Row K} {q : Nat}

theorem At.idx (h : At s dt done m r rest q) : s.coef[s.index]? = some r ∧ s.index < s.coef.length := by
  rw [h.coef, h.index]
  simp

theorem At.next (h : At s dt done m r rest q) (hdt : 0 < dt) (hq : q + 1 < m) :
    ∃ s', run s = some s' ∧ At s' dt done m r rest (q + 1) ∧ s'.raw = s.raw := by
  obtain ⟨h1, h2⟩ := h.idx
  have hle : ((samples done + q + 2 : Nat) : K) * dt ≤ s.interval + s.dt / 2 := by
    rw [h.interval, h.hdt]
    have : ((samples done + q + 2 : Nat) : K) ≤ ((samples done + m : Nat) : K) := by exact_mod_cast (by omega)
    have := mul_le_mul_of_nonneg_right this hdt.le
    linarith
  have hrun : run s = some (write s (((samples done + q + 2 : Nat) : K) * dt)
        { jerk := r.jerk, acc := s.prevAcc + r.jerk * s.dt,
          vel := s.prevVel + s.prevAcc * s.dt + r.jerk / 2 * s.dt * s.dt,
          pos := s.prevPos + s.prevVel * s.dt + s.prevAcc / 2 * s.dt * s.dt + r.jerk / 6 * s.dt * s.dt * s.dt }) := by
    rw [run, if_pos ⟨h.fin, by omega, h2⟩, h.t, h1]; simp only; rw [if_pos hle]
  refine ⟨_, hrun, ?_, rfl⟩
  have e1 : s.prevAcc + r.jerk * s.dt = (seg r (((q + 1 : Nat) : K) * dt)).acc := by
    rw [h.acc, h.hdt]; simp only [seg]; push_cast; ring
  have e2 : s.prevVel + s.prevAcc * s.dt + r.jerk / 2 * s.dt * s.dt = (seg r (((q + 1 : Nat) : K) * dt)).vel := by
    rw [h.vel, h.acc, h.hdt]; simp only [seg]; push_cast; ring
  have e3 : s.prevPos + s.prevVel * s.dt + s.prevAcc / 2 * s.dt * s.dt + r.jerk / 6 * s.dt * s.dt * s.dt
      = (seg r (((q + 1 : Nat) : K) * dt)).pos := by
    rw [h.pos, h.vel, h.acc, h.hdt]; simp only [seg]; push_cast; ring
  refine ⟨h.hdt, h.fin, h.coef, h.index, h.first, h.interval, ?_, ?_, e1, e2, e3, rfl⟩
  · simp only [write, h.hdt]
    congr 1
    push_cast; ring
  · simp only [write]
    rw [e1, e2, e3]
    rfl

theorem At.step {m' : Nat} {r' : Row K} (h : At s dt done m r ((m', r') :: rest) q) (hdt : 0 < dt) (hq : q + 1 = m) (hm : r'.time = m' * dt) :
    ∃ s', run s = some s' ∧ At s' dt (done ++ [(m, r)]) m' r' rest 0 ∧ s'.raw = s.raw := by
  obtain ⟨h1, h2⟩ := h.idx
  have hgt : ¬ ((samples done + q + 2 : Nat) : K) * dt ≤ s.interval + s.dt / 2 := by
    rw [h.interval, h.hdt, ← hq]
    push_cast
    rw [not_le]
    nlinarith
  have h3 : s.coef[s.index + 1]? = some r' := by
    rw [h.coef, h.index]
    simp
  have h4 : s.index + 1 ≠ s.coef.length := by
    rw [h.coef, h.index]
    simp
  have hrun : run s = some (write { s with index := s.index + 1, interval := s.interval + r'.time }
      (((samples done + q + 2 : Nat) : K) * dt) ⟨r'.jerk, r'.acc, r'.vel, r'.pos⟩) := by
    rw [run, if_pos ⟨h.fin, by omega, h2⟩, h.t, h1]
    simp only
    rw [if_neg hgt, if_neg (by simp [h.first]), if_neg h4, h3]
  refine ⟨_, hrun, ?_, rfl⟩
  have hs : samples (done ++ [(m, r)]) = samples done + m := by simp [samples]
  have z : ((0 : Nat) : K) * dt = 0 := by simp
  refine ⟨h.hdt, h.fin, ?_, ?_, h.first, ?_, ?_, ?_, ?_, ?_, ?_, rfl⟩
  · simp [write, h.coef]
  · simp [write, h.index]
  · simp only [write, h.interval, hm, hs]
    push_cast; ring
  · simp only [write, h.hdt]
    rw [hs, ← hq]
    congr 1
    push_cast; ring
  · simp [write, seg]
  · simp [write, seg]
  · simp [write, seg]
  · simp [write, seg]

theorem At.last (h : At s dt done m r [] q) (hdt : 0 < dt) (hq : q + 1 = m) :
    run s = some { s with index := s.index + 1, finished := true } := by
  obtain ⟨h1, h2⟩ := h.idx
  have hgt : ¬ ((samples done + q + 2 : Nat) : K) * dt ≤ s.interval + s.dt / 2 := by
    rw [h.interval, h.hdt, ← hq]
    push_cast
    rw [not_le]
    nlinarith
  have h4 : s.index + 1 = s.coef.length := by
    rw [h.coef, h.index]
    simp
  rw [run, if_pos ⟨h.fin, by omega, h2⟩, h.t, h1]
  simp only
  rw [if_neg hgt, h.first]
  simp only [Bool.false_eq_true, if_false]
  rw [if_pos h4]

/-- The rest of the current row. -/
theorem At.row (h : At s dt done m r rest q) (hdt : 0 < dt) (j : Nat) (hj : q + j < m) :
    ∃ s', runs j s = some s' ∧ At s' dt done m r rest (q + j) ∧ s'.raw = s.raw := by
  induction j with
  | zero => exact ⟨s, rfl, h, rfl⟩
  | succ j ih =>
    obtain ⟨s1, h1, h2, h3⟩ := ih (by omega)
    obtain ⟨s2, h4, h5, h6⟩ := h2.next hdt (by omega)
    exact ⟨s2, by rw [runs, h1]; exact h4, h5, h6.trans h3⟩

end

/-- From the first sample of a row on. -/
theorem follow {dt : K} (hdt : 0 < dt) : ∀ (rest : List (Nat × Row K)) (done : List (Nat × Row K)) (m : Nat) (r : Row K) (s : St K),
    At s dt done m r rest 0 → 1 ≤ m → Timed dt rest →
    (∀ k, k < m + samples rest → ∃ s', runs k s = some s' ∧ s'.finished = false ∧ s'.out = sample dt ((m, r) :: rest) k) ∧
    ∃ s' y, runs (m + samples rest) s = some s' ∧ s'.finished = true ∧ s'.out = some y ∧
      s'.out = sample dt ((m, r) :: rest) (m + samples rest - 1) ∧ s'.prevAcc = y.acc ∧ s'.prevVel = y.vel ∧ s'.prevPos = y.pos ∧
      s'.prevJerk = some y.jerk ∧ s'.raw = s.raw := by
  intro rest
  induction rest with
  | nil =>
    intro done m r s h hm _
    have hrow : ∀ k, k < m → ∃ s', runs k s = some s' ∧ s'.finished = false ∧ s'.out = sample dt [(m, r)] k := by
      intro k hk
      obtain ⟨s', a, b, _⟩ := h.row hdt k (by omega)
      refine ⟨s', a, b.fin, ?_⟩
      rw [b.out, sample, if_pos hk, Nat.zero_add]
    refine ⟨fun k hk => hrow k (by simpa [samples] using hk), ?_⟩
    obtain ⟨s', a, b, c⟩ := h.row hdt (m - 1) (by omega)
    have hl := b.last hdt (by omega)
    refine ⟨{ s' with index := s'.index + 1, finished := true }, seg r (((0 + (m - 1) : Nat) : K) * dt), ?_, rfl, ?_, ?_, b.acc, b.vel, b.pos, b.jerk, c⟩
    · rw [show m + samples ([] : List (Nat × Row K)) = (m - 1) + 1 by simp [samples]; omega, runs, a]
      exact hl
    · exact b.out
    · simp only [b.out]
      rw [show m + samples ([] : List (Nat × Row K)) - 1 = m - 1 by simp [samples], sample, if_pos (by omega), Nat.zero_add]
  | cons p rest ih =>
    obtain ⟨m', r'⟩ := p
    intro done m r s h hm ht
    obtain ⟨h1, h2⟩ := ht (m', r') (List.mem_cons_self ..)
    obtain ⟨s1, a, b, c⟩ := h.row hdt (m - 1) (by omega)
    obtain ⟨s2, a2, b2, c2⟩ := b.step hdt (by omega) h2
    have hm2 : runs m s = some s2 := by
      rw [show m = (m - 1) + 1 by omega, runs, a]; exact a2
    obtain ⟨I1, s3, y, I2, I3, I4, I5, I6, I7, I8, I9, I10⟩ := ih (done ++ [(m, r)]) m' r' s2 b2 h1 (fun p hp => ht p (List.mem_cons_of_mem _ hp))
    have hs : samples ((m', r') :: rest) = m' + samples rest := by simp [samples]
    have hskip : ∀ k, m ≤ k → runs k s = runs (k - m) s2 := by
      intro k hk
      have := runs_add (k - m) m s
      rw [show k - m + m = k by omega, hm2] at this
      exact this
    refine ⟨fun k hk => ?_, ?_⟩
    · by_cases hkm : k < m
      · obtain ⟨s', a', b', _⟩ := h.row hdt k (by omega)
        refine ⟨s', a', b'.fin, ?_⟩
        rw [b'.out, sample, if_pos hkm, Nat.zero_add]
      · obtain ⟨s', a', b', c'⟩ := I1 (k - m) (by rw [hs] at hk; omega)
        refine ⟨s', by rw [hskip k (by omega)]; exact a', b', ?_⟩
        rw [c', sample.eq_def _ ((m, r) :: _)]
        simp only
        rw [if_neg hkm]
    · refine ⟨s3, y, ?_, I3, I4, ?_, I6, I7, I8, I9, I10.trans (c2.trans c)⟩
      · rw [hskip _ (by omega), hs, show m + (m' + samples rest) - m = m' + samples rest by omega]
        exact I2
      · rw [I5, hs, sample.eq_def _ ((m, r) :: _)]
        simp only
        rw [if_neg (by omega), show m + (m' + samples rest) - 1 - m = m' + samples rest - 1 by omega]

/-- The table with the start position added. -/
def shift (p : K) (tab : List (Nat × Row K)) : List (Nat × Row K) := tab.map (fun q => (q.1, { q.2 with pos := q.2.pos + p }))

theorem idle_keeps (s : St K) (y : Y K) (hf : s.finished = true) (ho : s.out = some y) (h1 : s.prevAcc = y.acc)
    (h2 : s.prevVel = y.vel) (h3 : s.prevPos = y.pos) (h4 : s.prevJerk = some y.jerk) (k : Nat) :
    ∃ s', runs k s = some s' ∧ s'.finished = true ∧ s'.out = some y := by
  suffices H : ∃ s', runs k s = some s' ∧ s'.finished = true ∧ s'.out = some y ∧ s'.prevAcc = y.acc ∧ s'.prevVel = y.vel ∧
      s'.prevPos = y.pos ∧ s'.prevJerk = some y.jerk by
    obtain ⟨s', a, b, c, _⟩ := H
    exact ⟨s', a, b, c⟩
  induction k with
  | zero => exact ⟨s, rfl, hf, ho, h1, h2, h3, h4⟩
  | succ k ih =>
    obtain ⟨s', a, b, c, d, e, f, g⟩ := ih
    refine ⟨write { s' with index := 0, interval := -s'.dt, first := true } 0 y, ?_, b, rfl, rfl, rfl, rfl, rfl⟩
    rw [runs, a]
    show run s' = _
    rw [run, if_neg (by simp [b]), d, e, f, g]
    rfl

theorem follow_ready (s2 : St K) (tab : List (Nat × Row K)) (hdt : 0 < s2.dt) (hne : tab ≠ []) (ht : Timed s2.dt tab)
    (h : Ready s2 (tab.map Prod.snd)) :
    (∀ k, 1 ≤ k → k ≤ samples tab → ∃ s', runs k s2 = some s' ∧ s'.finished = false ∧ s'.out = sample s2.dt tab (k - 1)) ∧
    (∀ k, samples tab < k → ∃ s', runs k s2 = some s' ∧ s'.finished = true ∧
      s'.out = sample s2.dt tab (samples tab - 1)) := by
  obtain ⟨⟨m, r⟩, rest, rfl⟩ := List.exists_cons_of_ne_nil hne
  obtain ⟨hm, hr⟩ := ht (m, r) (List.mem_cons_self ..)
  obtain ⟨q1, q2, q3, q4, q5, q6⟩ := h
  let s3 : St K := write { s2 with index := 0, interval := r.time, first := false } s2.dt ⟨r.jerk, r.acc, r.vel, r.pos⟩
  have h3 : run s2 = some s3 := by
    have hg : ¬ s2.dt ≤ s2.interval + s2.dt / 2 := by
      rw [q3, not_le]; linarith
    rw [run, if_pos ⟨q1, by simp [q6], by simp [q6, q4]⟩, q2, q4, q6]
    simp only [List.map_cons, List.getElem?_cons_zero]
    rw [if_neg hg, if_pos q5]
    simp [s3, q6, write]
  have hs : samples ((m, r) :: rest) = m + samples rest := by simp [samples]
  have hat : At s3 s2.dt [] m r rest 0 := by
    refine ⟨rfl, q1, ?_, rfl, rfl, ?_, ?_, ?_, ?_, ?_, ?_, rfl⟩
    · simp [s3, write, q6]
    · show r.time = _
      rw [hr]; simp [samples]
    · simp only [s3, write, samples, List.map_nil, List.sum_nil]
      congr 1
      push_cast; ring
    · simp [s3, write, seg]
    · simp [s3, write, seg]
    · simp [s3, write, seg]
    · simp [s3, write, seg]
  have hT : Timed s2.dt rest := fun q hq => ht q (List.mem_cons_of_mem _ hq)
  obtain ⟨F1, s4, y, F2, F3, F4, F5, F6, F7, F8, F9, _⟩ := follow hdt rest [] m r s3 hat hm hT
  have hstep : ∀ k, 1 ≤ k → runs k s2 = runs (k - 1) s3 := by
    intro k hk
    have := runs_add (k - 1) 1 s2
    rw [show k - 1 + 1 = k by omega] at this
    rw [this]
    show (Option.bind (run s2) _) = _
    rw [h3]
    rfl
  rw [hs]
  refine ⟨fun k hk1 hk2 => ?_, fun k hk => ?_⟩
  · rw [hstep k hk1]
    exact F1 (k - 1) (by omega)
  · obtain ⟨s', a, b, c⟩ := idle_keeps s4 y F3 F4 F6 F7 F8 F9 (k - 1 - (m + samples rest))
    refine ⟨s', ?_, b, ?_⟩
    · rw [hstep k (by omega)]
      have := runs_add (k - 1 - (m + samples rest)) (m + samples rest) s3
      rw [show k - 1 - (m + samples rest) + (m + samples rest) = k - 1 by omega, F2] at this
      rw [this]
      exact a
    · rw [c, ← F4, F5]

theorem idle_ready (s : St K) (hf : s.finished = true) :
    ∃ s1, run s = some s1 ∧ s1.dt = s.dt ∧ s1.finished = true ∧ s1.raw = s.raw ∧
      ∀ rows, Ready { s1 with coef := rows, finished := false } rows := by
  refine ⟨write { s with index := 0, interval := -s.dt, first := true } 0 ⟨s.prevJerk.getD 0, s.prevAcc, s.prevVel, s.prevPos⟩,
    by rw [run, if_neg (by simp [hf])], rfl, hf, rfl, fun rows => ⟨rfl, ?_, rfl, rfl, rfl, rfl⟩⟩
  simp [write]

theorem samples_shift (p : K) (tab : List (Nat × Row K)) : samples (shift p tab) = samples tab := by
  simp [samples, shift, Function.comp_def]

theorem Timed.shift {dt : K} {tab : List (Nat × Row K)} (h : Timed dt tab) (p : K) : Timed dt (shift p tab) := by
  intro q hq
  obtain ⟨q', hq', rfl⟩ := List.mem_map.1 hq
  exact h q' hq'

/-- The planner in state `s` is busy for as many runs as the table has samples, outputs sample `k - 1` in run `k`, and
afterwards reports the end and keeps the last sample. -/
def Follows (s : St K) (dt : K) (tab : List (Nat × Row K)) : Prop :=
  (∀ k, 1 ≤ k → k ≤ samples tab → ∃ s', runs k s = some s' ∧ s'.finished = false ∧ s'.out = sample dt tab (k - 1)) ∧
  (∀ k, samples tab < k → ∃ s', runs k s = some s' ∧ s'.finished = true ∧ s'.out = sample dt tab (samples tab - 1))

/-- **C59 (partial)** (following) Whatever happened before: if the planner is idle for at least one run and is then told to follow its table, the rows of
which last at least one sample each, it is busy for exactly as many runs as the table has samples, run `k` outputs sample `k - 1` of the table
(shifted by the start position), and from the run after that on it reports the end and keeps the last sample.
Missing: a move without an idle run before it (`reads_uninitialised`, `resumes_old_index`), rows rounded to zero samples (`empty_row_jumps`). -/
theorem follows_table_partial (s : St K) (tab : List (Nat × Row K)) (p : K) (hdt : 0 < s.dt) (hf : s.finished = true)
    (hraw : s.raw = tab.map Prod.snd) (hne : tab ≠ []) (ht : Timed s.dt tab) :
    ∃ s1 s2, run s = some s1 ∧ moveRaw s1 p = some (s2, true) ∧ Follows s2 s.dt (shift p tab) := by
  obtain ⟨s1, h1, h2, h3, h4, h5⟩ := idle_ready s hf
  have hr := h5 ((shift p tab).map Prod.snd)
  refine ⟨s1, { s1 with coef := (shift p tab).map Prod.snd, finished := false }, h1, ?_, ?_⟩
  · unfold moveRaw
    rw [if_neg (by simp [h3]), if_neg (by simp [h4, hraw, hne]), h4, hraw]
    simp [shift, Function.comp_def]
  · rw [← h2]
    exact follow_ready _ (shift p tab) (by rw [h2]; exact hdt) (by simp [shift, hne]) (by rw [h2]; exact ht.shift p) hr

/-! ### Continuity and the end point -/

/-- Each row begins with the state at the end of the row before. -/
def Joined (dt : K) : List (Nat × Row K) → Prop
  | [] => True
  | [_] => True
  | (m, r) :: (m', r') :: rest =>
    r'.acc = (seg r (m * dt)).acc ∧ r'.vel = (seg r (m * dt)).vel ∧ r'.pos = (seg r (m * dt)).pos ∧ Joined dt ((m', r') :: rest)

/-- From `y` to `y'` the motion has the constant jerk `y.jerk` for a time `dt`. -/
def Integrates (dt : K) (y y' : Y K) : Prop :=
  y'.acc = y.acc + y.jerk * dt ∧ y'.vel = y.vel + y.acc * dt + y.jerk * dt ^ 2 / 2 ∧
  y'.pos = y.pos + y.vel * dt + y.acc * dt ^ 2 / 2 + y.jerk * dt ^ 3 / 6

/-- **C59** (continuity) The samples of a joined table, hence by `follows_table_partial` the outputs, are continuous: from one run to the next
acceleration, velocity and position are the integrals of the jerk, across row boundaries too. -/
theorem samples_continuous (dt : K) (tab : List (Nat × Row K)) (hj : Joined dt tab) (hm : ∀ p ∈ tab, 1 ≤ p.1) (k : Nat)
    (hk : k + 1 < samples tab) :
    ∃ y y', sample dt tab k = some y ∧ sample dt tab (k + 1) = some y' ∧ Integrates dt y y' := by
  induction tab generalizing k with
  | nil => simp [samples] at hk
  | cons p rest ih =>
    obtain ⟨m, r⟩ := p
    have hs : samples ((m, r) :: rest) = m + samples rest := by simp [samples]
    rw [hs] at hk
    by_cases h1 : k + 1 < m
    · refine ⟨_, _, by rw [sample, if_pos (by omega)], by rw [sample, if_pos h1], ?_⟩
      simp only [Integrates, seg]
      push_cast
      refine ⟨by ring, by ring, by ring⟩
    · cases rest with
      | nil => simp [samples] at hk; omega
      | cons p' rest =>
        obtain ⟨m', r'⟩ := p'
        obtain ⟨j1, j2, j3, j4⟩ := hj
        by_cases h2 : k < m
        · have hkm : k + 1 = m := by omega
          have hm' : 1 ≤ m' := hm (m', r') (by simp)
          refine ⟨seg r (k * dt), seg r' 0, by rw [sample, if_pos h2], ?_, ?_⟩
          · rw [sample, if_neg h1, hkm, Nat.sub_self, sample, if_pos (by omega)]
            simp
          · rw [← hkm] at j1 j2 j3
            simp only [Integrates, seg] at *
            rw [j1, j2, j3]
            push_cast
            refine ⟨by ring, by ring, by ring⟩
        · obtain ⟨y, y', a, b, c⟩ := ih j4 (fun p hp => hm p (List.mem_cons_of_mem _ hp)) (k - m) (by omega)
          refine ⟨y, y', by rw [sample, if_neg h2]; exact a, ?_, c⟩
          rw [sample, if_neg (by omega), show k + 1 - m = k - m + 1 by omega]
          exact b

/-- The last sample of a table is the one before the end of its last row. -/
theorem last_sample (dt : K) (init : List (Nat × Row K)) (m : Nat) (r : Row K) (hm : 1 ≤ m) :
    sample dt (init ++ [(m, r)]) (samples (init ++ [(m, r)]) - 1) = some (seg r ((m - 1 : Nat) * dt)) := by
  induction init with
  | nil => simp [sample, samples]; omega
  | cons p init ih =>
    have hs : samples ((p :: init) ++ [(m, r)]) = p.1 + samples (init ++ [(m, r)]) := by simp [samples]
    have hp : 1 ≤ samples (init ++ [(m, r)]) := by simp [samples]; omega
    rw [hs, List.cons_append, sample, if_neg (by omega),
      show p.1 + samples (init ++ [(m, r)]) - 1 - p.1 = samples (init ++ [(m, r)]) - 1 by omega, ih]

/-- **C59 (partial)** (end) If the last row of the table rests (its jerk, acceleration and velocity are zero), the outputs end exactly there; see
`stops_short` for other tables. -/
theorem ends_at_rest_partial (dt : K) (init : List (Nat × Row K)) (m : Nat) (r : Row K) (hm : 1 ≤ m)
    (hr : r.jerk = 0 ∧ r.acc = 0 ∧ r.vel = 0) (p : K) :
    sample dt (shift p (init ++ [(m, r)])) (samples (init ++ [(m, r)]) - 1) = some ⟨0, 0, 0, r.pos + p⟩ := by
  have h1 : samples (init ++ [(m, r)]) = samples (shift p (init ++ [(m, r)])) := by simp [samples, shift, Function.comp_def]
  have h2 : shift p (init ++ [(m, r)]) = shift p init ++ [(m, { r with pos := r.pos + p })] := by simp [shift]
  rw [h1, h2, last_sample _ _ _ _ hm]
  simp [seg, hr]

example : sample (1 : ℚ) (shift 10 [(2, ⟨2, 6, 0, 0, 0⟩), (1, ⟨1, 0, 0, 0, 48⟩)]) (samples [(2, (⟨2, 6, 0, 0, 0⟩ : Row ℚ)), (1, ⟨1, 0, 0, 0, 48⟩)] - 1) = some ⟨0, 0, 0, 48 + 10⟩ :=
  ends_at_rest_partial 1 [(2, ⟨2, 6, 0, 0, 0⟩)] 1 ⟨1, 0, 0, 0, 48⟩ (le_refl _) ⟨rfl, rfl, rfl⟩ 10

/-! ### Scaled tables -/

/-- Total time of a table. -/
def total (raw : List (Row K)) : K := (raw.map Row.time).sum

theorem cround_nat [FloorRing K] (x : K) (h : 1 / 2 ≤ x) : ∃ m : Nat, 1 ≤ m ∧ cround x = m := by
  have h0 : 0 ≤ x := le_trans (by norm_num) h
  have h1 : (1 : ℤ) ≤ ⌊x + 1 / 2⌋ := by
    rw [Int.le_floor]
    push_cast
    linarith
  refine ⟨⌊x + 1 / 2⌋.toNat, by omega, ?_⟩
  rw [cround, if_pos h0]
  have : ((⌊x + 1 / 2⌋.toNat : ℤ) : K) = (⌊x + 1 / 2⌋ : K) := by
    rw [Int.toNat_of_nonneg (by omega)]
  rw [← this]
  norm_cast

theorem cround_self [FloorRing K] (m : Nat) : cround (m : K) = m := by
  rw [cround, if_pos (Nat.cast_nonneg m)]
  have : ⌊(m : K) + 1 / 2⌋ = (m : ℤ) := by
    rw [Int.floor_eq_iff]
    constructor
    · push_cast; linarith [show (0 : K) < 1 / 2 by norm_num]
    · push_cast; linarith [show (1 / 2 : K) < 1 by norm_num]
  rw [this]
  norm_cast

theorem integrate_times (l : List (K × K)) (a v p : K) : (integrate l a v p).map Row.time = l.map Prod.fst := by
  induction l generalizing a v p with
  | nil => rfl
  | cons q l ih => obtain ⟨t, j⟩ := q; simp [integrate, ih]

theorem joined_shift {dt : K} (p : K) {tab : List (Nat × Row K)} (h : Joined dt tab) : Joined dt (shift p tab) := by
  induction tab with
  | nil => trivial
  | cons q tab ih =>
    cases tab with
    | nil => trivial
    | cons q' tab =>
      obtain ⟨h1, h2, h3, h4⟩ := h
      refine ⟨h1, h2, ?_, ih h4⟩
      show q'.2.pos + p = _
      rw [h3]; simp only [seg]; ring

theorem integrate_joined (dt : K) (l : List (K × K)) (ht : ∀ q ∈ l, ∃ m : Nat, 1 ≤ m ∧ q.1 = m * dt) (a v p : K) :
    ∃ tab : List (Nat × Row K), tab.map Prod.snd = integrate l a v p ∧ Timed dt tab ∧ Joined dt tab ∧
      ∀ q ∈ tab.head?, q.2.acc = a ∧ q.2.vel = v ∧ q.2.pos = p := by
  induction l generalizing a v p with
  | nil => exact ⟨[], rfl, by simp [Timed], trivial, by simp⟩
  | cons q l ih =>
    obtain ⟨t, j⟩ := q
    obtain ⟨m, hm, hq⟩ := ht (t, j) (List.mem_cons_self ..)
    obtain ⟨tab, h1, h2, h3, h4⟩ := ih (fun q hq => ht q (List.mem_cons_of_mem _ hq)) (a + j * t) (v + a * t + j * t * t / 2)
      (p + v * t + a * t * t / 2 + j * t * t * t / 6)
    refine ⟨(m, ⟨t, j, a, v, p⟩) :: tab, by simp [integrate, h1], ?_, ?_, by simp⟩
    · intro q hq'
      rcases List.mem_cons.1 hq' with rfl | h
      · exact ⟨hm, hq⟩
      · exact h2 q h
    · cases tab with
      | nil => trivial
      | cons q' tab =>
        obtain ⟨e1, e2, e3⟩ := h4 q' rfl
        refine ⟨?_, ?_, ?_, h3⟩
        · rw [e1]; simp only [seg]; simp only at hq; rw [hq]
        · rw [e2]; simp only [seg]; simp only at hq; rw [hq]; ring
        · rw [e3]; simp only [seg]; simp only at hq; rw [hq]; ring

/-- **C59 (partial)** (scaled moves) Whatever happened before: if the planner is idle for at least one run and is then told to move a distance within a
time for which every row of the scaled table lasts at least half a sample, it follows a table which is joined, starts at the start position
at rest, has the rounded scaled times, and is continuous in the sense of `samples_continuous`.
Missing: shorter rows (`empty_row_jumps`) and the end position (`scaled_end_partial`, `scaled_misses`). -/
theorem follows_scaled_partial [FloorRing K] (s : St K) (time p d : K) (hdt : 0 < s.dt) (hf : s.finished = true) (hne : s.raw ≠ [])
    (ht : ∀ r ∈ s.raw, 1 / 2 ≤ r.time * (time / total s.raw) / s.dt) :
    ∃ s1 s2 tab, run s = some s1 ∧ moveScaled s1 time p d = some (s2, true) ∧ Follows s2 s.dt tab ∧
      Timed s.dt tab ∧ Joined s.dt tab ∧
      (∀ q ∈ tab.head?, q.2.acc = 0 ∧ q.2.vel = 0 ∧ q.2.pos = p) ∧
      tab.map (fun q => (q.1 : K)) = s.raw.map (fun r => cround (r.time * (time / total s.raw) / s.dt)) := by
  obtain ⟨s1, h1, h2, h3, h4, h5⟩ := idle_ready s hf
  let times := s.raw.map (fun r => cround (r.time * (time / total s.raw) / s.dt) * s.dt)
  let sc := times.sum / total s.raw
  let ps := d / (match s.raw.getLast? with | some r => r.pos | none => 0)
  let jerks := s.raw.map (fun r => r.jerk * ps / (sc * sc * sc))
  have hl : times.length = jerks.length := by simp [times, jerks]
  have hz : ∀ q ∈ times.zip jerks, ∃ m : Nat, 1 ≤ m ∧ q.1 = m * s.dt := by
    intro q hq
    have := (List.of_mem_zip hq).1
    obtain ⟨r, hr, e⟩ := List.mem_map.1 this
    obtain ⟨m, hm, hc⟩ := cround_nat _ (ht r hr)
    exact ⟨m, hm, by rw [← e, hc]⟩
  obtain ⟨tab, t1, t2, t3, t4⟩ := integrate_joined s.dt (times.zip jerks) hz 0 0 0
  have hsp : scalePath s.dt time d s.raw = tab.map Prod.snd := t1.symm
  have htne : tab ≠ [] := by
    rintro rfl
    cases hraw : s.raw with
    | nil => exact hne hraw
    | cons r rest => simp [times, jerks, hraw, integrate] at t1
  have hr := h5 ((shift p tab).map Prod.snd)
  refine ⟨s1, { s1 with coef := (shift p tab).map Prod.snd, finished := false }, shift p tab, h1, ?_, ?_, t2.shift p, ?_, ?_, ?_⟩
  · unfold moveScaled
    rw [if_neg (by simp [h3]), if_neg (by simp [h4, hne]), h4, h2, hsp]
    simp [shift, Function.comp_def]
  · rw [← h2]
    exact follow_ready _ (shift p tab) (by rw [h2]; exact hdt) (by simp [shift, htne]) (by rw [h2]; exact t2.shift p) hr
  · exact joined_shift p t3
  · intro q hq
    cases tab with
    | nil => exact absurd rfl htne
    | cons q' tab =>
      obtain ⟨e1, e2, e3⟩ := t4 q' rfl
      simp only [shift, List.map_cons, List.head?_cons, Option.mem_some] at hq
      subst hq
      exact ⟨e1, e2, by simp [e3]⟩
  · have e1 : tab.map (fun q => (q.1 : K) * s.dt) = times := by
      have : tab.map (fun q => (q.1 : K) * s.dt) = (tab.map Prod.snd).map Row.time := by
        rw [List.map_map]
        exact List.map_congr_left (fun q hq => (t2 q hq).2.symm)
      rw [this, t1, integrate_times, List.map_fst_zip (le_of_eq hl)]
    have e2 : tab.map (fun q => (q.1 : K)) = (tab.map (fun q => (q.1 : K) * s.dt)).map (· / s.dt) := by
      rw [List.map_map]
      exact List.map_congr_left (fun q _ => by simp [hdt.ne'])
    have e3 : (shift p tab).map (fun q => (q.1 : K)) = tab.map (fun q => (q.1 : K)) := by simp [shift, Function.comp_def]
    rw [e3, e2, e1, List.map_map]
    exact List.map_congr_left (fun r _ => by simp [hdt.ne'])

/-- Each row of the file begins with the state at the end of the row before. -/
def JoinedRows : List (Row K) → Prop
  | [] => True
  | [_] => True
  | r :: r' :: rest =>
    r'.acc = (seg r r.time).acc ∧ r'.vel = (seg r r.time).vel ∧ r'.pos = (seg r r.time).pos ∧ JoinedRows (r' :: rest)

/-- A row stretched by `c` in time and by `P` in position. -/
def stretch (c P : K) (r : Row K) : Row K :=
  ⟨r.time * c, r.jerk * P / c ^ 3, r.acc * P / c ^ 2, r.vel * P / c, r.pos * P⟩

theorem integrate_stretch (c P : K) (hc : c ≠ 0) (raw : List (Row K)) (a v p : K) (h : JoinedRows raw)
    (h0 : ∀ r ∈ raw.head?, r.acc = a ∧ r.vel = v ∧ r.pos = p) :
    integrate (raw.map (fun r => (r.time * c, r.jerk * P / (c * c * c)))) (a * P / c ^ 2) (v * P / c) (p * P)
      = raw.map (stretch c P) := by
  induction raw generalizing a v p with
  | nil => rfl
  | cons r rest ih =>
    obtain ⟨e1, e2, e3⟩ := h0 r rfl
    have hj : JoinedRows rest := by
      cases rest with
      | nil => trivial
      | cons r' rest => exact h.2.2.2
    have := ih (a + r.jerk * r.time) (v + a * r.time + r.jerk * r.time ^ 2 / 2)
      (p + v * r.time + a * r.time ^ 2 / 2 + r.jerk * r.time ^ 3 / 6) hj (by
        cases rest with
        | nil => simp
        | cons r' rest =>
          intro q hq
          simp only [List.head?_cons, Option.mem_some] at hq
          subst hq
          obtain ⟨i1, i2, i3, _⟩ := h
          rw [i1, i2, i3, ← e1, ← e2, ← e3]
          exact ⟨rfl, rfl, rfl⟩)
    rw [List.map_cons, List.map_cons, integrate, ← this]
    congr 1
    · simp only [stretch, e1, e2, e3, Row.mk.injEq, true_and, and_true]
      congr 1; ring
    · congr 1 <;> field_simp

/-- **C59 (partial)** (end of scaled moves) If the file's rows are joined, begin at rest in zero and end elsewhere, and if the desired time stretches every row
to a whole number of samples, the scaled table is the file's table stretched in time and position, and its last row begins at the desired distance.
Missing: times which are rounded (`scaled_misses`). -/
theorem scaled_end_partial [FloorRing K] (dt time d : K) (raw : List (Row K)) (last : Row K) (hdt : 0 < dt) (hj : JoinedRows raw)
    (h0 : ∀ r ∈ raw.head?, r.acc = 0 ∧ r.vel = 0 ∧ r.pos = 0) (hl : raw.getLast? = some last) (hp : last.pos ≠ 0)
    (htot : total raw ≠ 0) (htime : time ≠ 0) (hm : ∀ r ∈ raw, ∃ m : Nat, r.time * (time / total raw) = m * dt) :
    scalePath dt time d raw = raw.map (stretch (time / total raw) (d / last.pos)) ∧
    ∃ r, (scalePath dt time d raw).getLast? = some r ∧ r.pos = d := by
  have hc : time / total raw ≠ 0 := div_ne_zero htime htot
  have ht : raw.map (fun r => cround (r.time * (time / total raw) / dt) * dt) = raw.map (fun r => r.time * (time / total raw)) := by
    refine List.map_congr_left (fun r hr => ?_)
    obtain ⟨m, e⟩ := hm r hr
    rw [e, mul_div_assoc, div_self hdt.ne', mul_one, cround_self]
  have hs : (raw.map (fun r => r.time * (time / total raw))).sum = total raw * (time / total raw) := by
    generalize time / total raw = c
    rw [total]
    clear * -
    induction raw with
    | nil => simp
    | cons r raw ih => simp only [List.map_cons, List.sum_cons, ih]; ring
  have hsc : scalePath dt time d raw = raw.map (stretch (time / total raw) (d / last.pos)) := by
    have : scalePath dt time d raw = integrate ((raw.map (fun r => cround (r.time * (time / total raw) / dt) * dt)).zip
      (raw.map (fun r => r.jerk * (d / last.pos) /
        ((raw.map (fun r => cround (r.time * (time / total raw) / dt) * dt)).sum / total raw *
         ((raw.map (fun r => cround (r.time * (time / total raw) / dt) * dt)).sum / total raw) *
         ((raw.map (fun r => cround (r.time * (time / total raw) / dt) * dt)).sum / total raw))))) 0 0 0 := by
      simp only [scalePath, hl]; rfl
    rw [this, ht, hs, mul_div_assoc, mul_comm (total raw), div_mul_cancel₀ _ htot, List.zip_map']
    have := integrate_stretch (time / total raw) (d / last.pos) hc raw 0 0 0 hj h0
    simpa using this
  refine ⟨hsc, stretch (time / total raw) (d / last.pos) last, ?_, ?_⟩
  · rw [hsc, List.getLast?_map, hl]; rfl
  · show last.pos * (d / last.pos) = d
    field_simp

/-! ### The ways it goes wrong -/

/-- Sampling time 1, one idle run, a raw move from 0, then `k` runs: the flag `finished` and the outputs. -/
def started (rows : List (Row ℚ)) (k : Nat) : Option (Bool × Option (Y ℚ)) := do
  let s1 ← run (init (new 1) rows)
  let (s2, _) ← moveRaw s1 0
  let s3 ← runs k s2
  pure (s3.finished, s3.out)

/-- As `started`, then the motion is stopped with `reset`, restarted from 100 and run `j` times. -/
def restarted (rows : List (Row ℚ)) (k j : Nat) : Option (Bool × Option (Y ℚ)) := do
  let s1 ← run (init (new 1) rows)
  let (s2, _) ← moveRaw s1 0
  let s3 ← runs k s2
  let (s4, _) ← moveRaw (reset s3) 100
  let s5 ← runs j s4
  pure (s5.finished, s5.out)

/-- **C59 violated** (end): one row of 10 samples with velocity 1 and sampling time 1 should lead from 0 to 10; the planner reports the
end at position 9. -/
theorem stops_short :
    started [⟨10, 0, 0, 1, 0⟩] 11 = some (true, some ⟨0, 0, 1, 9⟩) ∧ (seg (⟨10, 0, 0, 1, 0⟩ : Row ℚ) 10).pos = 10 := by
  decide +kernel

/-- **C59 violated** (first run): a move before the first run reads a member which was never initialised. -/
theorem reads_uninitialised (dt : K) (r : Row K) (rows : List (Row K)) (p : K) :
    ∃ s, moveRaw (init (new dt) (r :: rows)) p = some (s, true) ∧ run s = none := by
  refine ⟨_, rfl, ?_⟩
  rw [run, if_pos ⟨rfl, by simp [init, new], by simp [init, new]⟩]
  rfl

/-- **C59 violated** (`reset`): when a motion is stopped with `reset` and a new move is started before the next run, the
planner carries on in the middle of the new table.  Two rows of 2 samples with velocity 1; after three runs the motion is stopped and restarted
from 100: the first output is 3, computed from the old position, and the end is reported after 2 runs. -/
theorem resumes_old_index :
    restarted [⟨2, 0, 0, 1, 0⟩, ⟨2, 0, 0, 1, 2⟩] 3 1 = some (false, some ⟨0, 0, 1, 3⟩) ∧
    restarted [⟨2, 0, 0, 1, 0⟩, ⟨2, 0, 0, 1, 2⟩] 3 2 = some (true, some ⟨0, 0, 1, 3⟩) := by
  decide +kernel

/-- **C59 violated** (empty rows): a row without samples takes a run nevertheless, after which the next row is left one sample
early; here the position jumps from 3 to 5 between two runs although the velocity is 1 everywhere. -/
theorem empty_row_jumps :
    started [⟨2, 0, 0, 1, 0⟩, ⟨0, 0, 0, 1, 2⟩, ⟨3, 0, 0, 1, 2⟩, ⟨2, 0, 0, 1, 5⟩] 5 = some (false, some ⟨0, 0, 1, 3⟩) ∧
    started [⟨2, 0, 0, 1, 0⟩, ⟨0, 0, 0, 1, 2⟩, ⟨3, 0, 0, 1, 2⟩, ⟨2, 0, 0, 1, 5⟩] 6 = some (false, some ⟨0, 0, 1, 5⟩) := by
  decide +kernel

/-- A table in a file: 6 up, 3 down, at rest in the end. -/
def fileTable : List (Row ℚ) := [⟨1, 6, 0, 0, 0⟩, ⟨2, -3, 6, 3, 1⟩, ⟨1, 0, 0, 9, 15⟩]

/-- **C59 violated** (rounding): with sampling time 1, the table `fileTable` scaled to the time 28/5 and the distance 15: the rows take 7/5, 14/5 and 7/5, which are
rounded to 1, 3 and 1, and the table ends at 1504/125 instead of 15. -/
theorem scaled_misses : JoinedRows fileTable ∧ ((scalePath 1 (28 / 5) 15 fileTable).map Row.time) = [1, 3, 1] ∧
    ((scalePath 1 (28 / 5) 15 fileTable).getLast?.map Row.pos) = some (1504 / 125) := by
  refine ⟨?_, by decide +kernel, by decide +kernel⟩
  simp only [fileTable, JoinedRows, seg]
  norm_num

/-- Non-vacuity of `scaled_end_partial`: twice the time. -/
example : total fileTable = 4 ∧ ∀ r ∈ fileTable, ∃ m : Nat, r.time * (8 / total fileTable) = m * 1 := by
  have h : total fileTable = 4 := by decide +kernel
  refine ⟨h, fun r hr => ?_⟩
  rw [h]
  simp only [fileTable, List.mem_cons, List.not_mem_nil, or_false] at hr
  rcases hr with rfl | rfl | rfl
  · exact ⟨2, by norm_num⟩
  · exact ⟨4, by norm_num⟩
  · exact ⟨2, by norm_num⟩

/-- Non-vacuity: a joined table with rows of 2, 2 and 1 samples which ends at rest. -/
example : let tab : List (Nat × Row ℚ) := [(2, ⟨2, 6, 0, 0, 0⟩), (2, ⟨2, -6, 12, 12, 8⟩), (1, ⟨1, 0, 0, 24, 48⟩)]
    Timed 1 tab ∧ Joined 1 tab ∧ samples tab = 5 := by
  refine ⟨?_, ?_, rfl⟩
  · intro p hp
    simp only [List.mem_cons, List.not_mem_nil, or_false] at hp
    rcases hp with rfl | rfl | rfl <;> norm_num
  · simp only [Joined, seg]
    norm_num

end Verif.Planner.Cubic
