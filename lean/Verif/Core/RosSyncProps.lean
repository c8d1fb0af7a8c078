import Verif.Core.RosSync
import Mathlib.Tactic.SplitIfs
import Mathlib.Tactic.NormNum
namespace Verif.Core.RosSync

/-! ### C102: an executor which is synchronised with a topic -/
namespace Topic

theorem run_append (s : St) (a b : List Step) : run s (a ++ b) = run (run s a) b := by simp [run]

/-- Wake-ups in an execution. -/
def wakes (l : List Step) : Nat := l.count .message + l.count .spurious + l.count .stopNotify

/-- **C102.** There is never more than one cycle per message (or wake-up without reason, or call of `stop`). -/
theorem cycles_le_messages (l : List Step) : (run init l).cycles ≤ wakes l := by
  suffices ∀ (l : List Step) (s : St),
      (run s l).cycles + (if (run s l).pc = .cycle then 1 else 0) ≤ s.cycles + (if s.pc = .cycle then 1 else 0) + wakes l by
    have := this l init
    have h0 : init.cycles + (if init.pc = Pc.cycle then 1 else 0) = 0 := by decide
    omega
  intro l
  induction l with
  | nil => intro s; simp only [run, wakes, List.foldl_nil, List.count_nil, Nat.add_zero]; exact le_refl _
  | cons a l ih =>
    intro s
    have h := ih (step s a)
    have e : run s (a :: l) = run (step s a) l := rfl
    rw [e]
    refine le_trans h ?_
    have hw : wakes (a :: l) = wakes l + (if a = .message then 1 else 0) + (if a = .spurious then 1 else 0) +
        (if a = .stopNotify then 1 else 0) := by
      unfold wakes; cases a <;> simp <;> omega
    rw [hw]
    obtain ⟨r, pc, c, sh, jo, ex⟩ := s
    cases a <;> cases pc <;> cases r <;> cases sh <;> cases jo <;> simp [step, notify] <;> omega

/-- **C102, partial.** A message which finds the executor waiting is followed by exactly one cycle, after which the executor waits again.
Missing: messages which come at another time (`message_lost`). -/
theorem message_runs_partial (s : St) (hr : s.running = true) (hs : s.shutdown = false) (hp : s.pc = .asleep) :
    let t := run s [.message, .exec, .exec, .exec]
    t.pc = .asleep ∧ t.cycles = s.cycles + 1 := by
  obtain ⟨r, pc, c, sh, jo, ex⟩ := s
  simp only at hr hs hp
  subst hr hs hp
  simp [run, step, notify]

example : (run init [.exec, .exec]).pc = .asleep := by decide

/-- **C102, violation.** Any number of messages which come while the executor is not waiting, for instance during a cycle, has no effect
at all. -/
theorem message_lost (s : St) (h : s.pc ≠ .asleep) (n : Nat) : run s (List.replicate n .message) = s := by
  induction n with
  | zero => rfl
  | succ n ih =>
    have : step s .message = s := by simp [step, notify, h]
    have e : run s (List.replicate (n + 1) .message) = run (step s .message) (List.replicate n .message) := rfl
    rw [e, this, ih]

/-- Two messages, one cycle; the executor waits again and does not run for the second message. -/
example : run init [.exec, .exec, .message, .message, .exec, .exec, .exec, .exec, .exec] = ⟨true, .asleep, 1, false, true, false⟩ := by decide

/-- Only the executor's own steps. -/
def execs (n : Nat) : List Step := List.replicate n .exec

theorem done_stays (s : St) (h : s.pc = .done) (n : Nat) : (run s (execs n)).pc = .done := by
  induction n with
  | zero => exact h
  | succ n ih =>
    have : step s .exec = s := by obtain ⟨r, pc, c, sh, jo, ex⟩ := s; simp only at h; subst h; rfl
    have e : run s (execs (n + 1)) = run (step s .exec) (execs n) := rfl
    rw [e, this, ih]

/-- **C102, partial.** The first call of `stop` ends the executor, after at most one more cycle, if at the moment of the notification
the executor is not between the test of `running` and the waiting.
Missing: that window (`stop_lost`). -/
theorem stop_ends_partial (s : St) (hr : s.running = false) (hj : s.joinable = true) (hp : s.pc ≠ .beforeWait) (n : Nat) (hn : 2 ≤ n) :
    let t := run (step s .stopNotify) (execs n)
    t.pc = .done ∧ t.cycles ≤ s.cycles + 1 := by
  obtain ⟨m, rfl⟩ : ∃ m, n = 2 + m := ⟨n - 2, by omega⟩
  have e : execs (2 + m) = execs 2 ++ execs m := by simp only [execs]; rw [List.replicate_append_replicate]
  intro t
  have key : ∀ u : St, u.pc = .done → (run u (execs m)) = u := by
    intro u hu
    clear t e hn
    induction m with
    | zero => rfl
    | succ k ih =>
      have : step u .exec = u := by obtain ⟨r, pc, c, sh, jo, ex⟩ := u; simp only at hu; subst hu; rfl
      have e : run u (execs (k + 1)) = run (step u .exec) (execs k) := rfl
      rw [e, this, ih]
  have ht : t = run (run (step s .stopNotify) (execs 2)) (execs m) := by
    show run _ _ = _
    rw [e, run_append]
  obtain ⟨r, pc, c, sh, jo, ex⟩ := s
  simp only at hr hj hp
  subst hr hj
  have h2 : (run (step ⟨false, pc, c, sh, true, ex⟩ .stopNotify) (execs 2)).pc = .done ∧
      (run (step ⟨false, pc, c, sh, true, ex⟩ .stopNotify) (execs 2)).cycles ≤ c + 1 := by
    cases pc <;> simp_all [run, step, notify, execs]
  rw [ht, key _ h2.1]
  exact h2

example : (run init [.exec, .exec, .stopFlag, .stopNotify, .exec, .exec]).pc = .done := by decide

/-- **C102, violation.** If `stop` comes between the test of `running` and the waiting, the executor sleeps for ever: no message arrives
any more, and every later call of `stop` throws an exception before it notifies. -/
theorem stop_lost (s : St) (hj : s.joinable = true) (hp : s.pc = .beforeWait) (l : List Step) (hl : .spurious ∉ l) :
    let t := run (run s [.stopFlag, .stopNotify]) l
    t.pc ≠ .done ∧ t.cycles = s.cycles := by
  have h0 : (run s [.stopFlag, .stopNotify]) = { s with running := false, shutdown := true, joinable := false } := by
    simp [run, step, hj, notify, hp]
  rw [h0]
  suffices ∀ (l : List Step) (u : St), .spurious ∉ l → u.running = false → u.shutdown = true → u.joinable = false →
      (u.pc = .beforeWait ∨ u.pc = .asleep) → (run u l).pc ≠ .done ∧ (run u l).cycles = u.cycles by
    exact this l _ hl rfl rfl rfl (Or.inl hp)
  intro l
  induction l with
  | nil =>
    intro u _ _ _ _ hu
    rcases hu with h | h <;> simp [run, h]
  | cons a l ih =>
    intro u hl h1 h2 h3 h4
    have hl' : .spurious ∉ l := fun h => hl (by simp [h])
    have ha : a ≠ .spurious := fun h => hl (by simp [h])
    have e : run u (a :: l) = run (step u a) l := rfl
    rw [e]
    have hc : (step u a).cycles = u.cycles ∧ (step u a).running = false ∧ (step u a).shutdown = true ∧ (step u a).joinable = false ∧
        ((step u a).pc = .beforeWait ∨ (step u a).pc = .asleep) := by
      obtain ⟨r, pc, c, sh, jo, ex⟩ := u
      simp only at h1 h2 h3 h4
      subst h1 h2 h3
      rcases h4 with rfl | rfl <;> cases a <;> simp_all [step]
    have := ih (step u a) hl' hc.2.1 hc.2.2.1 hc.2.2.2.1 hc.2.2.2.2
    rw [hc.1] at this
    exact this

example : (run init [.exec]).pc = .beforeWait := by decide

/-- **C102, violation.** A second call of `stop` throws. -/
theorem second_stop_throws (s : St) (h : s.joinable = false) : (run s [.stopFlag, .stopNotify]).exception = true := by
  simp [run, step, h]

example : (run init [.stopFlag, .stopNotify]).joinable = false := by decide

end Topic

/-! ### C103: an executor which is synchronised with the ROS time -/
namespace Time

theorem invariant_of {p : Nat} {s0 : St} {P : St → Prop} (h0 : P s0) (hs : ∀ s a, P s → P (step p s a)) (l : List Step) :
    P (run p s0 l) := by
  induction l generalizing s0 with
  | nil => exact h0
  | cons a l ih => exact ih (hs s0 a h0)

/-- **C103.** The plan does not drift: after `n` cycles the next one is planned for `start + (n + 1) · p`, whatever the clock did. -/
theorem plan (p t0 : Nat) (l : List Step) : let s := run p (init p t0) l
    s.next = t0 + (s.log.length + 1) * p := by
  refine invariant_of (P := fun s => s.next = t0 + (s.log.length + 1) * p) (by simp [init]) ?_ l
  intro s a h
  obtain ⟨r, pc, nx, lg, la⟩ := s
  simp only at h
  subst h
  cases a with
  | stop => simp [step]
  | exec now =>
    cases pc <;> simp only [step] <;> (try split_ifs) <;> simp [Nat.add_mul] <;> omega

/-- **C103.** No cycle is early: as long as the executor has not been stopped, the `k`-th cycle runs at `start + k · p` or later (the log
is newest first). -/
theorem not_early (p t0 : Nat) (l : List Step) (hl : .stop ∉ l) :
    let s := run p (init p t0) l
    ∀ k, (h : k < s.log.length) → t0 + (s.log.length - k) * p ≤ s.log[k] := by
  suffices ∀ (l : List Step) (s : St), .stop ∉ l → s.running = true →
      (s.next = t0 + (s.log.length + 1) * p ∧ (s.pc = .cycle → s.next ≤ s.last) ∧
        ∀ k, (h : k < s.log.length) → t0 + (s.log.length - k) * p ≤ s.log[k]) →
      ∀ k, (h : k < (run p s l).log.length) → t0 + ((run p s l).log.length - k) * p ≤ (run p s l).log[k] by
    exact this l (init p t0) hl rfl ⟨by simp [init], by simp [init], by simp [init]⟩
  intro l
  induction l with
  | nil => intro s _ _ h; exact h.2.2
  | cons a l ih =>
    intro s hl hr ⟨h1, h2, h3⟩
    have hl' : .stop ∉ l := fun h => hl (by simp [h])
    refine ih (step p s a) hl' ?_ ?_
    · cases a with
      | stop => simp at hl
      | exec now => cases hpc : s.pc <;> simp [step, hpc, hr] <;> split_ifs <;> simp [hr]
    · obtain ⟨r, pc, nx, lg, la⟩ := s
      simp only at hr h1 h2 h3
      subst hr h1
      cases a with
      | stop => simp at hl
      | exec now =>
        cases pc with
        | test => exact ⟨by simp [step], by simp [step], by simpa [step] using h3⟩
        | wait =>
          simp only [step]
          split_ifs with g
          · exact ⟨rfl, by simp, h3⟩
          · refine ⟨rfl, ?_, h3⟩
            intro _
            simp at g
            simpa using g
        | cycle =>
          refine ⟨?_, by simp [step], ?_⟩
          · simp [step, Nat.add_mul]; omega
          · intro k hk
            have h2' := h2 rfl
            simp only [step] at hk ⊢
            cases k with
            | zero => simpa using h2'
            | succ k =>
              have := h3 k (by simpa using hk)
              have e : (la :: lg).length - (k + 1) = lg.length - k := by simp
              rw [e]
              simpa using this
        | done => exact ⟨rfl, by simp [step], by simpa [step] using h3⟩

/-- Three cycles with a period of 10 which starts at 100; the second one is late. -/
example : (run 10 (init 10 100) [.exec 0, .exec 103, .exec 110, .exec 0, .exec 0, .exec 135, .exec 0, .exec 0, .exec 136, .exec 0]).log =
    [136, 135, 110] := by decide

/-- **C103.** Delays are made up for: whenever the planned time has already passed, the next cycle runs without waiting. -/
theorem catches_up (p : Nat) (s : St) (now : Nat) (hr : s.running = true) (hp : s.pc = .test) (h : s.next ≤ now) (x y : Nat) :
    (run p s [.exec x, .exec now, .exec y]).log = now :: s.log := by
  obtain ⟨r, pc, nx, lg, la⟩ := s
  simp only at hr hp h
  subst hr hp
  have : ¬ now < nx := by omega
  simp [run, step, this]


/-- The wake-up of 110 is handled at 135. -/
example : (run 10 ⟨true, .test, 110, [], 100⟩ [.exec 0, .exec 135, .exec 0]).log = [135] := catches_up 10 ⟨true, .test, 110, [], 100⟩ 135 rfl rfl (by decide) 0 0

/-- **C103.** `stop` ends the loop: at most one more cycle is run, whatever the clock shows. -/
theorem stop_ends (p : Nat) (s : St) (hr : s.running = false) (x : Nat → Nat) (n : Nat) (hn : 3 ≤ n) :
    let t := run p s ((List.range n).map fun i => .exec (x i))
    t.pc = .done ∧ t.log.length ≤ s.log.length + 1 := by
  obtain ⟨m, rfl⟩ : ∃ m, n = m + 3 := ⟨n - 3, by omega⟩
  clear hn
  induction m with
  | zero =>
    obtain ⟨r, pc, nx, lg, la⟩ := s
    simp only at hr
    subst hr
    cases pc <;> simp [run, step, List.range_succ]
  | succ m ih =>
    have e : (List.range (m + 1 + 3)).map (fun i => Step.exec (x i)) =
        (List.range (m + 3)).map (fun i => Step.exec (x i)) ++ [.exec (x (m + 3))] := by
      rw [show m + 1 + 3 = (m + 3) + 1 by omega, List.range_succ]; simp
    rw [e]
    have hrun : ∀ a b, run p s (a ++ b) = run p (run p s a) b := by intro a b; simp [run]
    rw [hrun]
    simp only at ih ⊢
    generalize run p s ((List.range (m + 3)).map fun i => Step.exec (x i)) = u at ih ⊢
    obtain ⟨r, pc, nx, lg, la⟩ := u
    obtain ⟨h1, h2⟩ := ih
    simp only at h1 h2
    subst h1
    exact ⟨rfl, h2⟩

example : (run 10 (init 10 100) [.exec 0, .stop]).running = false := by decide

/-- **C103, violation.** If the ROS time is set back (a simulation is restarted), nothing is run until the old time is reached again. -/
theorem clock_set_back (p : Nat) (s : St) (hr : s.running = true) (hp : s.pc = .wait) (nows : List Nat) (h : ∀ t ∈ nows, t < s.next) :
    (run p s (nows.map .exec)).log = s.log := by
  suffices (run p s (nows.map .exec)).log = s.log ∧ (run p s (nows.map .exec)).pc = .wait ∧ (run p s (nows.map .exec)).running = true ∧
      (run p s (nows.map .exec)).next = s.next from this.1
  induction nows generalizing s with
  | nil => exact ⟨rfl, hp, hr, rfl⟩
  | cons t l ih =>
    have ht := h t (by simp)
    have e : run p s ((t :: l).map .exec) = run p (step p s (.exec t)) (l.map .exec) := rfl
    have hs : step p s (.exec t) = { s with last := t } := by simp [step, hp, ht, hr]
    rw [e, hs]
    exact ih { s with last := t } hr hp (fun t' ht' => h t' (by simp [ht']))

example : (run 10 (init 10 1000000) [.exec 0]).pc = .wait := by decide

/-- **C103, partial.** The period in nanoseconds is the one which was set, up to one nanosecond and the rounding of a double.
Missing: the nearest number of nanoseconds (`period_cut`). -/
theorem period_partial (period : ℚ) (h : 0 < period) :
    |(periodNs period : ℚ) - period * 1000000000| ≤ 1 + period * 1000000000 / 2 ^ 52 := by
  have hx : 0 < period * 1000000000 := by positivity
  unfold periodNs
  generalize period * 1000000000 = x at hx
  have he := Common.Round.fl_error hx
  obtain ⟨h1, -⟩ := Common.Round.log_bounds hx
  have hu : Common.Round.ulp x / 2 ≤ x / 2 ^ 52 := by
    have := (Common.Round.scaled hx).1
    have hp := Common.Round.ulp_pos x
    rw [le_div_iff₀ hp] at this
    rw [le_div_iff₀ (by positivity)]
    nlinarith
  rw [abs_le] at he ⊢
  have hpos : 0 ≤ ⌊Common.Round.fl x⌋ := by
    apply Int.floor_nonneg.mpr
    rw [Common.Round.fl, if_neg (not_le.2 hx)]
    have hn : 0 ≤ Common.Round.nearest (x / Common.Round.ulp x) := by
      have h0 : (0:ℤ) = Common.Round.nearest 0 := by simpa using (Common.Round.nearest_int 0).symm
      rw [h0]
      exact Common.Round.nearest_mono (by have := Common.Round.ulp_pos x; positivity)
    have := Common.Round.ulp_pos x
    have hn' : (0:ℚ) ≤ Common.Round.nearest (x / Common.Round.ulp x) := by exact_mod_cast hn
    positivity
  have hc : ((⌊Common.Round.fl x⌋.toNat : ℕ) : ℚ) = (⌊Common.Round.fl x⌋ : ℚ) := by
    have : ((⌊Common.Round.fl x⌋.toNat : ℕ) : ℤ) = ⌊Common.Round.fl x⌋ := Int.toNat_of_nonneg hpos
    exact_mod_cast this
  rw [hc]
  have f1 := Int.floor_le (Common.Round.fl x)
  have f2 := Int.lt_floor_add_one (Common.Round.fl x)
  constructor <;> linarith


example : |(periodNs (1 / 1000 : ℚ) : ℚ) - 1 / 1000 * 1000000000| ≤ 1 + 1 / 1000 * 1000000000 / 2 ^ 52 := period_partial (1 / 1000) (by norm_num)

/-- **C103, violation.** A period of 15.7 ms becomes 15.699999 ms, because the product of the doubles is less than 15700000 and the rest
is cut off. -/
theorem period_cut : periodNs (Common.Round.fl (157 / 10000)) = 15699999 := by
  decide +kernel

/-- A period of one millisecond is exact. -/
example : periodNs (Common.Round.fl (1 / 1000)) = 1000000 := by decide +kernel

end Time
end Verif.Core.RosSync
