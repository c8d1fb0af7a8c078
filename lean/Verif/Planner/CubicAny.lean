import Verif.Planner.CubicExact
/-!
C317: what the cubic planner outputs for a table with any numbers of samples in its rows, rows without samples included (model: `Planner/Cubic.lean`,
`includes/eeros/control/PathPlannerCubic.hpp` 95-146).
-/
namespace Verif.Planner.Cubic
variable {K : Type} [Field K] [LinearOrder K] [IsStrictOrderedRing K]

/-! ### Specification -/

/-- The rows as they are output: every row takes at least one run; `debt` runs which were taken too many so far are left out at the end of the rows which
follow, as far as these have more than one sample. -/
def taken : Nat → List (Nat × Row K) → List (Nat × Row K)
  | _, [] => []
  | debt, (m, r) :: rest => (max 1 (m - debt), r) :: taken (debt + max 1 (m - debt) - m) rest

/-! ### Proof -/

/-- In row `r` after its sample `q`; the rows before have taken `samples done` runs, the table has `N` samples up to the end of this row. -/
structure AtAny (s : St K) (dt : K) (done : List (Nat × Row K)) (r : Row K) (rest : List (Nat × Row K)) (N q : Nat) : Prop where
  hdt : s.dt = dt
  fin : s.finished = false
  coef : s.coef = (done.map Prod.snd) ++ r :: rest.map Prod.snd
  index : s.index = done.length
  first : s.first = false
  interval : s.interval = (N : K) * dt
  t : s.t = some (((samples done + q + 2 : Nat) : K) * dt)
  out : s.out = some (seg r (q * dt))
  acc : s.prevAcc = (seg r (q * dt)).acc
  vel : s.prevVel = (seg r (q * dt)).vel
  pos : s.prevPos = (seg r (q * dt)).pos
  jerk : s.prevJerk = some r.jerk

section
variable {s : St K} {dt : K} {done rest : List (Nat × Row K)} {r : Row K} {N q : Nat}

theorem AtAny.idx (h : AtAny s dt done r rest N q) : s.coef[s.index]? = some r ∧ s.index < s.coef.length := by
  rw [h.coef, h.index]
  simp

theorem AtAny.next (h : AtAny s dt done r rest N q) (hdt : 0 < dt) (hq : samples done + q + 2 ≤ N) :
    ∃ s', run s = some s' ∧ AtAny s' dt done r rest N (q + 1) := by
  obtain ⟨h1, h2⟩ := h.idx
  have hle : ((samples done + q + 2 : Nat) : K) * dt ≤ s.interval + s.dt / 2 := by
    rw [h.interval, h.hdt]
    have : ((samples done + q + 2 : Nat) : K) ≤ (N : K) := by exact_mod_cast hq
    have := mul_le_mul_of_nonneg_right this hdt.le
    linarith
  have hrun : run s = some (write s (((samples done + q + 2 : Nat) : K) * dt)
        { jerk := r.jerk, acc := s.prevAcc + r.jerk * s.dt,
          vel := s.prevVel + s.prevAcc * s.dt + r.jerk / 2 * s.dt * s.dt,
          pos := s.prevPos + s.prevVel * s.dt + s.prevAcc / 2 * s.dt * s.dt + r.jerk / 6 * s.dt * s.dt * s.dt }) := by
    rw [run, if_pos ⟨h.fin, by omega, h2⟩, h.t, h1]; simp only; rw [if_pos hle]
  refine ⟨_, hrun, ?_⟩
  have e1 : s.prevAcc + r.jerk * s.dt = (seg r (((q + 1 : Nat) : K) * dt)).acc := by
    rw [h.acc, h.hdt]; simp only [seg]; push_cast; ring
  have e2 : s.prevVel + s.prevAcc * s.dt + r.jerk / 2 * s.dt * s.dt = (seg r (((q + 1 : Nat) : K) * dt)).vel := by
    rw [h.vel, h.acc, h.hdt]; simp only [seg]; push_cast; ring
  have e3 : s.prevPos + s.prevVel * s.dt + s.prevAcc / 2 * s.dt * s.dt + r.jerk / 6 * s.dt * s.dt * s.dt
      = (seg r (((q + 1 : Nat) : K) * dt)).pos := by
    rw [h.pos, h.vel, h.acc, h.hdt]; simp only [seg]; push_cast; ring
  refine ⟨h.hdt, h.fin, h.coef, h.index, h.first, h.interval, ?_, ?_, e1, e2, e3, rfl⟩
  · simp only [write, h.hdt]
    congr 1
    push_cast; ring
  · simp only [write]
    rw [e1, e2, e3]
    rfl

theorem AtAny.late (h : AtAny s dt done r rest N q) (hdt : 0 < dt) (hq : N < samples done + q + 2) :
    ¬ ((samples done + q + 2 : Nat) : K) * dt ≤ s.interval + s.dt / 2 := by
  rw [h.interval, h.hdt, not_le]
  have : ((N + 1 : Nat) : K) ≤ ((samples done + q + 2 : Nat) : K) := by exact_mod_cast hq
  have := mul_le_mul_of_nonneg_right this hdt.le
  push_cast at this ⊢
  linarith

theorem AtAny.step {m' : Nat} {r' : Row K} (h : AtAny s dt done r ((m', r') :: rest) N q) (hdt : 0 < dt) (hq : N < samples done + q + 2) (hm : r'.time = m' * dt) :
    ∃ s', run s = some s' ∧ AtAny s' dt (done ++ [(q + 1, r)]) r' rest (N + m') 0 := by
  obtain ⟨h1, h2⟩ := h.idx
  have hgt := h.late hdt hq
  have h3 : s.coef[s.index + 1]? = some r' := by
    rw [h.coef, h.index]
    simp
  have h4 : s.index + 1 ≠ s.coef.length := by
    rw [h.coef, h.index]
    simp
  have hrun : run s = some (write { s with index := s.index + 1, interval := s.interval + r'.time }
      (((samples done + q + 2 : Nat) : K) * dt) ⟨r'.jerk, r'.acc, r'.vel, r'.pos⟩) := by
    rw [run, if_pos ⟨h.fin, by omega, h2⟩, h.t, h1]
    simp only
    rw [if_neg hgt, if_neg (by simp [h.first]), if_neg h4, h3]
  refine ⟨_, hrun, ?_⟩
  have hs : samples (done ++ [(q + 1, r)]) = samples done + (q + 1) := by simp [samples]
  refine ⟨h.hdt, h.fin, ?_, ?_, h.first, ?_, ?_, ?_, ?_, ?_, ?_, rfl⟩
  · simp [write, h.coef]
  · simp [write, h.index]
  · simp only [write, h.interval, hm]
    push_cast; ring
  · simp only [write, h.hdt]
    rw [hs]
    congr 1
    push_cast; ring
  · simp [write, seg]
  · simp [write, seg]
  · simp [write, seg]
  · simp [write, seg]

theorem AtAny.last (h : AtAny s dt done r [] N q) (hdt : 0 < dt) (hq : N < samples done + q + 2) :
    run s = some { s with index := s.index + 1, finished := true } := by
  obtain ⟨h1, h2⟩ := h.idx
  have h4 : s.index + 1 = s.coef.length := by
    rw [h.coef, h.index]
    simp
  rw [run, if_pos ⟨h.fin, by omega, h2⟩, h.t, h1]
  simp only
  rw [if_neg (h.late hdt hq), h.first]
  simp only [Bool.false_eq_true, if_false]
  rw [if_pos h4]

theorem AtAny.row (h : AtAny s dt done r rest N 0) (hdt : 0 < dt) (j : Nat) (hj : j < max 1 (N - samples done)) :
    ∃ s', runs j s = some s' ∧ AtAny s' dt done r rest N j := by
  induction j with
  | zero => exact ⟨s, rfl, h⟩
  | succ j ih =>
    obtain ⟨s1, h1, h2⟩ := ih (by omega)
    obtain ⟨s2, h4, h5⟩ := h2.next hdt (by omega)
    exact ⟨s2, by rw [runs, h1]; exact h4, h5⟩

end

theorem follow_any {dt : K} (hdt : 0 < dt) : ∀ (rest : List (Nat × Row K)) (done : List (Nat × Row K)) (r : Row K) (N a : Nat) (s : St K),
    AtAny s dt done r rest N 0 → a = max 1 (N - samples done) → (∀ p ∈ rest, p.2.time = p.1 * dt) →
    let T := taken (samples done + a - N) rest
    (∀ k, k < a + samples T → ∃ s', runs k s = some s' ∧ s'.finished = false ∧ s'.out = sample dt ((a, r) :: T) k) ∧
    ∃ s' y, runs (a + samples T) s = some s' ∧ s'.finished = true ∧ s'.out = some y ∧
      s'.out = sample dt ((a, r) :: T) (a + samples T - 1) ∧ s'.prevAcc = y.acc ∧ s'.prevVel = y.vel ∧ s'.prevPos = y.pos ∧
      s'.prevJerk = some y.jerk := by
  intro rest
  induction rest with
  | nil =>
    intro done r N a s h ha _ T
    have hT : samples T = 0 := rfl
    have hrow : ∀ k, k < a → ∃ s', runs k s = some s' ∧ s'.finished = false ∧ s'.out = sample dt ((a, r) :: T) k := by
      intro k hk
      obtain ⟨s', a', b'⟩ := h.row hdt k (by omega)
      refine ⟨s', a', b'.fin, ?_⟩
      rw [b'.out, sample, if_pos hk]
    rw [hT, Nat.add_zero]
    refine ⟨hrow, ?_⟩
    obtain ⟨s', a', b'⟩ := h.row hdt (a - 1) (by omega)
    have hl := b'.last hdt (by omega)
    refine ⟨{ s' with index := s'.index + 1, finished := true }, seg r (((a - 1 : Nat) : K) * dt), ?_, rfl, ?_, ?_, b'.acc, b'.vel, b'.pos, b'.jerk⟩
    · rw [show a = (a - 1) + 1 by omega, runs, a']
      exact hl
    · exact b'.out
    · simp only [b'.out]
      rw [sample, if_pos (by omega)]
  | cons p rest ih =>
    obtain ⟨m', r'⟩ := p
    intro done r N a s h ha ht T
    have h2 := ht (m', r') (List.mem_cons_self ..)
    obtain ⟨s1, a1, b1⟩ := h.row hdt (a - 1) (by omega)
    obtain ⟨s2, a2, b2⟩ := b1.step hdt (by omega) h2
    rw [show a - 1 + 1 = a by omega] at b2
    have hm2 : runs a s = some s2 := by
      rw [show a = (a - 1) + 1 by omega, runs, a1]; exact a2
    have hsd : samples (done ++ [(a, r)]) = samples done + a := by simp [samples]
    have IH := ih (done ++ [(a, r)]) r' (N + m') (max 1 (m' - (samples done + a - N))) s2 b2 (by rw [hsd]; omega)
      (fun p hp => ht p (List.mem_cons_of_mem _ hp))
    rw [hsd] at IH
    have hT : T = (max 1 (m' - (samples done + a - N)), r') ::
        taken (samples done + a + max 1 (m' - (samples done + a - N)) - (N + m')) rest := by
      show taken _ _ = _
      rw [taken]
      congr 2
      omega
    generalize samples done + a + max 1 (m' - (samples done + a - N)) - (N + m') = d' at IH hT
    generalize max 1 (m' - (samples done + a - N)) = a' at IH hT
    obtain ⟨I1, s3, y, I2, I3, I4, I5, I6, I7, I8, I9⟩ := IH
    rw [hT]
    have hs : samples ((a', r') :: taken d' rest) = a' + samples (taken d' rest) := by simp [samples]
    have hskip : ∀ k, a ≤ k → runs k s = runs (k - a) s2 := by
      intro k hk
      have := runs_add (k - a) a s
      rw [show k - a + a = k by omega, hm2] at this
      exact this
    rw [hs]
    have hcons : ∀ k, a ≤ k → sample dt ((a, r) :: (a', r') :: taken d' rest) k = sample dt ((a', r') :: taken d' rest) (k - a) := by
      intro k hk
      rw [sample, if_neg (by omega)]
    refine ⟨fun k hk => ?_, ?_⟩
    · by_cases hkm : k < a
      · obtain ⟨s', x1, x2⟩ := h.row hdt k (by omega)
        refine ⟨s', x1, x2.fin, ?_⟩
        rw [x2.out, sample, if_pos hkm]
      · obtain ⟨s', x1, x2, x3⟩ := I1 (k - a) (by omega)
        exact ⟨s', by rw [hskip k (by omega)]; exact x1, x2, by rw [x3, hcons k (by omega)]⟩
    · have ha' : 1 ≤ a' + samples (taken d' rest) := by
        rcases Nat.eq_zero_or_pos (a' + samples (taken d' rest)) with h0 | h0
        · rw [h0] at I2
          obtain rfl : s2 = s3 := by simpa [runs] using I2
          rw [b2.fin] at I3
          cases I3
        · exact h0
      refine ⟨s3, y, ?_, I3, I4, ?_, I6, I7, I8, I9⟩
      · rw [hskip _ (by omega), show a + (a' + samples (taken d' rest)) - a = a' + samples (taken d' rest) by omega]
        exact I2
      · rw [I5, hcons _ (by omega)]
        congr 1
        omega

theorem follow_ready_any (s2 : St K) (tab : List (Nat × Row K)) (hdt : 0 < s2.dt) (hne : tab ≠ []) (ht : ∀ p ∈ tab, p.2.time = p.1 * s2.dt)
    (h : Ready s2 (tab.map Prod.snd)) : Follows s2 s2.dt (taken 0 tab) := by
  obtain ⟨⟨m, r⟩, rest, rfl⟩ := List.exists_cons_of_ne_nil hne
  have hr := ht (m, r) (List.mem_cons_self ..)
  obtain ⟨q1, q2, q3, q4, q5, q6⟩ := h
  let s3 : St K := write { s2 with index := 0, interval := r.time, first := false } s2.dt ⟨r.jerk, r.acc, r.vel, r.pos⟩
  have h3 : run s2 = some s3 := by
    have hg : ¬ s2.dt ≤ s2.interval + s2.dt / 2 := by
      rw [q3, not_le]; linarith
    rw [run, if_pos ⟨q1, by simp [q6], by simp [q6, q4]⟩, q2, q4, q6]
    simp only [List.map_cons, List.getElem?_cons_zero]
    rw [if_neg hg, if_pos q5]
    simp [s3, q6, write]
  have hat : AtAny s3 s2.dt [] r rest m 0 := by
    refine ⟨rfl, q1, ?_, rfl, rfl, ?_, ?_, ?_, ?_, ?_, ?_, rfl⟩
    · simp [s3, write, q6]
    · show r.time = _
      rw [hr]
    · simp only [s3, write, samples, List.map_nil, List.sum_nil]
      congr 1
      push_cast; ring
    · simp [s3, write, seg]
    · simp [s3, write, seg]
    · simp [s3, write, seg]
    · simp [s3, write, seg]
  have hF := follow_any hdt rest [] r m (max 1 m) s3 hat (by simp [samples]) (fun q hq => ht q (List.mem_cons_of_mem _ hq))
  have hT : taken 0 ((m, r) :: rest) = (max 1 m, r) :: taken (0 + max 1 m - m) rest := rfl
  have h0 : samples ([] : List (Nat × Row K)) = 0 := rfl
  rw [h0] at hF
  obtain ⟨F1, s4, y, F2, F3, F4, F5, F6, F7, F8, F9⟩ := hF
  have hs : samples ((max 1 m, r) :: taken (0 + max 1 m - m) rest) = max 1 m + samples (taken (0 + max 1 m - m) rest) := by simp [samples]
  have hstep : ∀ k, 1 ≤ k → runs k s2 = runs (k - 1) s3 := by
    intro k hk
    have := runs_add (k - 1) 1 s2
    rw [show k - 1 + 1 = k by omega] at this
    rw [this]
    show (Option.bind (run s2) _) = _
    rw [h3]
    rfl
  unfold Follows
  rw [hT, hs]
  refine ⟨fun k hk1 hk2 => ?_, fun k hk => ?_⟩
  · rw [hstep k hk1]
    exact F1 (k - 1) (by omega)
  · obtain ⟨s', a, b, c⟩ := idle_keeps s4 y F3 F4 F6 F7 F8 F9 (k - 1 - (max 1 m + samples (taken (0 + max 1 m - m) rest)))
    refine ⟨s', ?_, b, ?_⟩
    · rw [hstep k (by omega)]
      have := runs_add (k - 1 - (max 1 m + samples (taken (0 + max 1 m - m) rest))) (max 1 m + samples (taken (0 + max 1 m - m) rest)) s3
      rw [show k - 1 - (max 1 m + samples (taken (0 + max 1 m - m) rest)) + (max 1 m + samples (taken (0 + max 1 m - m) rest)) = k - 1 by omega, F2] at this
      rw [this]
      exact a
    · rw [c, ← F4, F5]

theorem taken_shift (p : K) (d : Nat) (tab : List (Nat × Row K)) : taken d (shift p tab) = shift p (taken d tab) := by
  induction tab generalizing d with
  | nil => rfl
  | cons q tab ih =>
    show taken d ((q.1, { q.2 with pos := q.2.pos + p }) :: shift p tab) = _
    rw [taken, ih]
    rfl

/-- **C317** (raw moves) For every table with any numbers of samples in its rows, zero included, and whatever happened before: if the planner is idle for at least one run and is then told
to follow the table from `p` on, the outputs are sample by sample those of the rows `taken`. -/
theorem follows_any (s : St K) (tab : List (Nat × Row K)) (p : K) (hdt : 0 < s.dt) (hf : s.finished = true)
    (hraw : s.raw = tab.map Prod.snd) (hne : tab ≠ []) (ht : ∀ q ∈ tab, q.2.time = q.1 * s.dt) :
    ∃ s1 s2, run s = some s1 ∧ moveRaw s1 p = some (s2, true) ∧ Follows s2 s.dt (shift p (taken 0 tab)) := by
  obtain ⟨s1, h1, h2, h3, h4, h5⟩ := idle_ready s hf
  have hr := h5 ((shift p tab).map Prod.snd)
  refine ⟨s1, { s1 with coef := (shift p tab).map Prod.snd, finished := false }, h1, ?_, ?_⟩
  · unfold moveRaw
    rw [if_neg (by simp [h3]), if_neg (by simp [h4, hraw, hne]), h4, hraw]
    simp [shift, Function.comp_def]
  · rw [← h2, ← taken_shift]
    refine follow_ready_any _ (shift p tab) (by rw [h2]; exact hdt) (by simp [shift, hne]) ?_ hr
    intro q hq
    obtain ⟨q', hq', rfl⟩ := List.mem_map.1 hq
    show q'.2.time = _
    rw [ht q' hq']
    show _ = _ * s1.dt
    rw [h2]

/-- The second of four rows has no samples: it takes a run, and the third row is left a sample early. -/
example : (taken 0 [(2, (⟨2, 0, 0, 1, 0⟩ : Row ℚ)), (0, ⟨0, 0, 0, 1, 2⟩), (3, ⟨3, 0, 0, 1, 2⟩), (2, ⟨2, 0, 0, 1, 5⟩)]).map Prod.fst = [2, 1, 2, 2] := by decide

theorem taken_fst (tab : List (Nat × Row K)) (h : ∀ q ∈ tab, 1 ≤ q.1) : taken 0 tab = tab := by
  induction tab with
  | nil => rfl
  | cons q tab ih =>
    obtain ⟨m, r⟩ := q
    have hm := h (m, r) (by simp)
    simp only at hm
    rw [taken, show max 1 (m - 0) = m by omega, show 0 + m - m = 0 by omega, ih fun q hq => h q (List.mem_cons_of_mem _ hq)]

theorem taken_eq_iff_aux (d : Nat) (tab : List (Nat × Row K)) (h : taken d tab = tab) : ∀ q ∈ tab, 1 ≤ q.1 := by
  induction tab generalizing d with
  | nil => simp
  | cons q tab ih =>
    obtain ⟨m, r⟩ := q
    rw [taken] at h
    have h1 := (List.cons.inj h).1
    have h2 := (List.cons.inj h).2
    have hm : max 1 (m - d) = m := congrArg Prod.fst h1
    intro q hq
    rcases List.mem_cons.1 hq with rfl | hq
    · show 1 ≤ m
      omega
    · exact ih _ h2 q hq

/-- **C317** The rows are output with their own numbers of samples exactly if every row has a sample. -/
theorem taken_eq_iff (tab : List (Nat × Row K)) : taken 0 tab = tab ↔ ∀ q ∈ tab, 1 ≤ q.1 :=
  ⟨taken_eq_iff_aux 0 tab, taken_fst tab⟩

example : ¬ taken 0 [(0, (⟨0, 0, 0, 1, 2⟩ : Row ℚ)), (3, ⟨3, 0, 0, 1, 2⟩)] = [(0, (⟨0, 0, 0, 1, 2⟩ : Row ℚ)), (3, ⟨3, 0, 0, 1, 2⟩)] := by
  rw [taken_eq_iff]; decide

theorem samples_taken_le (tab : List (Nat × Row K)) : ∀ d, samples tab ≤ samples (taken d tab) + d := by
  induction tab with
  | nil => intro d; simp [samples]
  | cons q tab ih =>
    obtain ⟨m, r⟩ := q
    intro d
    have := ih (d + max 1 (m - d) - m)
    simp only [taken, samples, List.map_cons, List.sum_cons] at this ⊢
    omega

/-- **C317** (time) The motion never takes less time than the table, and at most one run more for each row without a sample. -/
theorem time_any (tab : List (Nat × Row K)) :
    samples tab ≤ samples (taken 0 tab) ∧ samples (taken 0 tab) ≤ samples tab + (tab.filter fun q => decide (q.1 = 0)).length := by
  refine ⟨by simpa using samples_taken_le tab 0, ?_⟩
  have H : ∀ (tab : List (Nat × Row K)) (d : Nat), samples (taken d tab) ≤ samples tab + (tab.filter fun q => decide (q.1 = 0)).length := by
    intro tab
    induction tab with
    | nil => intro d; simp [samples, taken]
    | cons q tab ih =>
      obtain ⟨m, r⟩ := q
      intro d
      have := ih (d + max 1 (m - d) - m)
      by_cases hm : m = 0
      · rw [List.filter_cons_of_pos (by simp [hm])]
        simp only [taken, samples, List.map_cons, List.sum_cons, List.length_cons] at this ⊢
        omega
      · rw [List.filter_cons_of_neg (by simp [hm])]
        simp only [taken, samples, List.map_cons, List.sum_cons] at this ⊢
        omega
  exact H tab 0

example : samples (taken 0 [(2, (⟨2, 0, 0, 1, 0⟩ : Row ℚ)), (0, ⟨0, 0, 0, 1, 2⟩)]) = 3 ∧ samples (taken 0 [(0, (⟨0, 0, 0, 1, 2⟩ : Row ℚ)), (2, ⟨2, 0, 0, 1, 2⟩)]) = 2 := by
  decide

theorem cround_nonneg [FloorRing K] (x : K) (h : 0 ≤ x) : ∃ m : Nat, cround x = m := by
  have h1 : (0 : ℤ) ≤ ⌊x + 1 / 2⌋ := by
    rw [Int.le_floor]
    push_cast
    linarith [show (0 : K) < 1 / 2 by norm_num]
  refine ⟨⌊x + 1 / 2⌋.toNat, ?_⟩
  rw [cround, if_pos h]
  have : ((⌊x + 1 / 2⌋.toNat : ℤ) : K) = (⌊x + 1 / 2⌋ : K) := by
    rw [Int.toNat_of_nonneg (by omega)]
  rw [← this]
  norm_cast

theorem counts (dt : K) (rows : List (Row K)) (h : ∀ r ∈ rows, ∃ m : Nat, r.time = m * dt) :
    ∃ tab : List (Nat × Row K), tab.map Prod.snd = rows ∧ ∀ q ∈ tab, q.2.time = q.1 * dt := by
  induction rows with
  | nil => exact ⟨[], rfl, by simp⟩
  | cons r rows ih =>
    obtain ⟨tab, h1, h2⟩ := ih fun r hr => h r (List.mem_cons_of_mem _ hr)
    obtain ⟨m, hm⟩ := h r (by simp)
    refine ⟨(m, r) :: tab, by simp [h1], ?_⟩
    intro q hq
    rcases List.mem_cons.1 hq with rfl | hq
    · exact hm
    · exact h2 q hq

/-- **C317** (scaled moves) The same for a move over a distance within a time, however short: the outputs are those of the rows `taken` of the scaled table. -/
theorem follows_scaled_any [FloorRing K] (s : St K) (time p d : K) (hdt : 0 < s.dt) (hf : s.finished = true) (hne : s.raw ≠ [])
    (ht : ∀ r ∈ s.raw, 0 ≤ r.time * (time / total s.raw)) :
    ∃ s1 s2 tab, run s = some s1 ∧ moveScaled s1 time p d = some (s2, true) ∧ tab.map Prod.snd = scalePath s.dt time d s.raw ∧
      (∀ q ∈ tab, q.2.time = q.1 * s.dt) ∧ Follows s2 s.dt (shift p (taken 0 tab)) := by
  obtain ⟨s1, h1, h2, h3, h4, h5⟩ := idle_ready s hf
  obtain ⟨tab, t1, t2⟩ := counts s.dt (scalePath s.dt time d s.raw) (by
    intro r hr
    have hm : r.time ∈ (scalePath s.dt time d s.raw).map Row.time := List.mem_map_of_mem hr
    unfold scalePath at hm
    rw [integrate_times, List.map_fst_zip (by simp)] at hm
    obtain ⟨x, hx, e⟩ := List.mem_map.1 hm
    obtain ⟨m, hm⟩ := cround_nonneg (x.time * (time / total s.raw) / s.dt) (div_nonneg (ht x hx) hdt.le)
    exact ⟨m, by rw [← e, ← hm]; rfl⟩)
  have htne : tab ≠ [] := by
    rintro rfl
    cases hraw : s.raw with
    | nil => exact hne hraw
    | cons r rest => simp [scalePath, hraw, integrate] at t1
  have hr := h5 ((shift p tab).map Prod.snd)
  refine ⟨s1, { s1 with coef := (shift p tab).map Prod.snd, finished := false }, tab, h1, ?_, t1, t2, ?_⟩
  · unfold moveScaled
    rw [if_neg (by simp [h3]), if_neg (by simp [h4, hne]), h4, h2, ← t1]
    simp [shift, Function.comp_def]
  · rw [← h2, ← taken_shift]
    refine follow_ready_any _ (shift p tab) (by rw [h2]; exact hdt) (by simp [shift, htne]) ?_ hr
    intro q hq
    obtain ⟨q', hq', rfl⟩ := List.mem_map.1 hq
    show q'.2.time = _
    rw [t2 q' hq']
    show _ = _ * s1.dt
    rw [h2]

/-- `fileTable` in 6/5 sampling times: the rows take 3/10, 6/10 and 3/10, rounded to 0, 1 and 0. -/
example : (scalePath 1 (6 / 5) 15 fileTable).map Row.time = [0, 1, 0] := by decide +kernel

theorem taken_app (pre post : List (Nat × Row K)) (h : ∀ q ∈ pre, 1 ≤ q.1) : taken 0 (pre ++ post) = pre ++ taken 0 post := by
  induction pre with
  | nil => rfl
  | cons q pre ih =>
    obtain ⟨m, r⟩ := q
    have hm := h (m, r) (by simp)
    simp only at hm
    rw [List.cons_append, taken, show max 1 (m - 0) = m by omega, show 0 + m - m = 0 by omega, ih fun q hq => h q (List.mem_cons_of_mem _ hq)]
    rfl

theorem sample_app (dt : K) (pre post : List (Nat × Row K)) (k : Nat) : sample dt (pre ++ post) (samples pre + k) = sample dt post k := by
  induction pre with
  | nil => simp [samples]
  | cons q pre ih =>
    obtain ⟨m, r⟩ := q
    have hs : samples ((m, r) :: pre) = m + samples pre := by simp [samples]
    rw [List.cons_append, sample, hs, if_neg (by omega), show m + samples pre + k - m = samples pre + k by omega, ih]

/-- **C59, C317 violated** (empty rows), for every table with one row `r1` without samples followed by a row `r2` of at least two samples and a row `r3`: two consecutive
outputs are `r2` two sampling times before its end, and the beginning of `r3`; the sample between them is left out. -/
theorem empty_row_jumps_violated (dt : K) (pre post : List (Nat × Row K)) (h : ∀ q ∈ pre, 1 ≤ q.1) (r1 r2 r3 : Row K) (m m3 : Nat) (hm : 2 ≤ m) :
    let T := taken 0 (pre ++ (0, r1) :: (m, r2) :: (m3, r3) :: post)
    sample dt T (samples pre + (m - 1)) = some (seg r2 ((m - 2 : Nat) * dt)) ∧ sample dt T (samples pre + m) = some ⟨r3.jerk, r3.acc, r3.vel, r3.pos⟩ := by
  intro T
  have hT : T = pre ++ (1, r1) :: (m - 1, r2) :: (max 1 m3, r3) :: taken (max 1 m3 - m3) post := by
    show taken _ _ = _
    rw [taken_app _ _ h, taken, taken, taken, show max 1 (0 - 0) = 1 by omega, show 0 + 1 - 0 = 1 by omega, show max 1 (m - 1) = m - 1 by omega,
      show 1 + (m - 1) - m = 0 by omega, Nat.sub_zero, Nat.zero_add]
  rw [hT, sample_app, sample_app]
  constructor
  · rw [sample, if_neg (by omega), sample, if_pos (by omega), show m - 1 - 1 = m - 2 by omega]
  · rw [sample, if_neg (by omega), sample, if_neg (by omega), sample, if_pos (by omega), show m - 1 - (m - 1) = 0 by omega]
    simp [seg]

/-- Constant velocity 1, joined rows: 3 is followed by 5. -/
example : (sample (1 : ℚ) (taken 0 ([(2, ⟨2, 0, 0, 1, 0⟩)] ++ (0, ⟨0, 0, 0, 1, 2⟩) :: (3, ⟨3, 0, 0, 1, 2⟩) :: (2, ⟨2, 0, 0, 1, 5⟩) :: [])) (2 + (3 - 1))).map Y.pos = some 3 ∧
    (sample (1 : ℚ) (taken 0 ([(2, ⟨2, 0, 0, 1, 0⟩)] ++ (0, ⟨0, 0, 0, 1, 2⟩) :: (3, ⟨3, 0, 0, 1, 2⟩) :: (2, ⟨2, 0, 0, 1, 5⟩) :: [])) (2 + 3)).map Y.pos = some 5 := by
  obtain ⟨h1, h2⟩ := empty_row_jumps_violated (1 : ℚ) [(2, ⟨2, 0, 0, 1, 0⟩)] [] (by simp) ⟨0, 0, 0, 1, 2⟩ ⟨3, 0, 0, 1, 2⟩ ⟨2, 0, 0, 1, 5⟩ 3 2 (by norm_num)
  have hs : samples [(2, (⟨2, 0, 0, 1, 0⟩ : Row ℚ))] = 2 := rfl
  rw [hs] at h1 h2
  rw [h1, h2]
  norm_num [seg]

end Verif.Planner.Cubic
