import Verif.Hal.DeviceThread
namespace Verif.Hal.DeviceThread

/-! ### C91: the destructor of a device returns -/

/-- A schedule in which, after some step of the device, the owner gets another turn. -/
def fair (sched : List Who) : Prop := ∃ a b c, sched = a ++ .worker :: b ++ .main :: c

theorem run_append (c : Bool) (s : St) (a b : List Who) : run c s (a ++ b) = run c (run c s a) b := List.foldl_append

theorem done_stays (c : Bool) (s : St) (sched : List Who) (h : s.main = .done) : (run c s sched).main = .done := by
  induction sched generalizing s with
  | nil => exact h
  | cons w l ih =>
    apply ih
    cases w with
    | main => simp [step, stepMain, h]
    | worker => simp only [step, stepWorker]; split <;> (try split) <;> exact h

/-- What holds once the destructor has cleared the flag while the thread is in its loop. -/
def Stopping (s : St) : Prop :=
  (s.main = .joining ∨ s.main = .done) ∧ ((s.worker = .loop ∧ s.running = false) ∨ s.worker = .exited)

theorem stopping_step (c : Bool) (s : St) (w : Who) (h : Stopping s) : Stopping (step c s w) := by
  obtain ⟨m, wk, st, rn⟩ := s
  obtain ⟨h1 | h1, ⟨h2, h3⟩ | h2⟩ := h <;> simp only at h1 h2 <;> subst h1 h2 <;> cases w <;> simp_all [step, stepMain, stepWorker, Stopping]

theorem stopping_run (c : Bool) (s : St) (l : List Who) (h : Stopping s) : Stopping (run c s l) := by
  induction l generalizing s with
  | nil => exact h
  | cons w l ih => exact ih _ (stopping_step c s w h)

theorem exited_run (c : Bool) (s : St) (l : List Who) (h : s.worker = .exited) : (run c s l).worker = .exited := by
  induction l generalizing s with
  | nil => exact h
  | cons w l ih =>
    apply ih
    cases w with
    | worker => simp [step, stepWorker, h]
    | main => simp only [step, stepMain]; split <;> (try split) <;> exact h

/-- **C91 (partial).** If the destructor clears `running` when the thread is in its loop, it returns, whatever the schedule is, as soon as
the thread and then the owner get a turn.  Missing: devices which are not connected (`not_connected_violated`) and devices which are
destroyed before their thread has come to its loop (`early_violated`). -/
theorem returns_partial (c : Bool) (s : St) (hm : s.main = .alive) (hw : s.worker = .loop) (sched : List Who) (hf : fair sched) :
    (run c (stepMain c s) sched).main = .done := by
  obtain ⟨a, b, d, rfl⟩ := hf
  have h0 : Stopping (stepMain c s) := by simp [stepMain, hm, Stopping, hw]
  rw [run_append, run_append]
  have h1 := stopping_run c _ a h0
  generalize run c (stepMain c s) a = t at h1
  have h2 : (run c t (.worker :: b)).worker = .exited := by
    refine exited_run c (step c t .worker) b ?_
    rcases h1.2 with ⟨e1, e2⟩ | e
    · simp [step, stepWorker, e1, e2]
    · simp [step, stepWorker, e]
  have h3 := stopping_run c _ (.worker :: b) h1
  generalize run c t (.worker :: b) = u at h2 h3
  refine done_stays c (step c u .main) d ?_
  rcases h3.1 with e | e <;> simp [step, stepMain, e, h2]

/-- The hypotheses of `returns_partial` are met on ordinary runs of both kinds of devices. -/
example : let s := run true (init true) [.main, .worker, .worker]; s.main = .alive ∧ s.worker = .loop := by decide
example : let s := run true (init false) [.main, .worker]; s.main = .alive ∧ s.worker = .loop := by decide

/-- **C91, violated.** If the device was not found, the thread waits for ever for the end of the constructor, which has already
returned, and the destructor never returns, whatever the schedule is. -/
theorem not_connected_violated (sched : List Who) :
    (run false (init true) sched).main ≠ .done ∧ (run false (init true) sched).worker = .waiting := by
  have : ∀ (l : List Who) (s : St), s.worker = .waiting → s.starting = true → s.main ≠ .done →
      (run false s l).worker = .waiting ∧ (run false s l).starting = true ∧ (run false s l).main ≠ .done := by
    intro l
    induction l with
    | nil => intro s h1 h2 h3; exact ⟨h1, h2, h3⟩
    | cons w l ih =>
      intro s h1 h2 h3
      cases w with
      | worker => exact ih _ (by simp [step, stepWorker, h1, h2]) (by simp [step, stepWorker, h1, h2]) (by simp [step, stepWorker, h1, h2, h3])
      | main =>
        obtain ⟨m, wk, st, rn⟩ := s
        simp only at h1 h2 h3
        subst h1 h2
        cases m <;> first | exact absurd rfl h3 | exact ih _ (by simp [step, stepMain]) (by simp [step, stepMain]) (by simp [step, stepMain])
  have h := this sched (init true) rfl rfl (by decide)
  exact ⟨h.2.2, h.1⟩

/-- **C91, violated.** If the destructor clears `running` before the thread has set it, the thread sets it afterwards and runs for ever;
the destructor never returns, whatever the schedule is. -/
theorem early_violated (c : Bool) (s : St) (hm : s.main = .alive) (hw : s.worker = .waiting ∨ s.worker = .set) (sched : List Who) :
    (run c (stepMain c s) sched).main ≠ .done := by
  have : ∀ (l : List Who) (s : St), s.main = .joining →
      (s.worker = .waiting ∨ s.worker = .set ∨ (s.worker = .loop ∧ s.running = true)) → (run c s l).main = .joining := by
    intro l
    induction l with
    | nil => intro s h1 _; exact h1
    | cons w l ih =>
      intro s h1 h2
      obtain ⟨m, wk, st, rn⟩ := s
      simp only at h1 h2
      subst h1
      have hne : wk ≠ .exited := by rcases h2 with h | h | h <;> simp [h]
      cases w with
      | main =>
        have e : step c ⟨.joining, wk, st, rn⟩ .main = ⟨.joining, wk, st, rn⟩ := by simp [step, stepMain, hne]
        show (run c (step c _ .main) l).main = _
        rw [e]
        exact ih _ rfl h2
      | worker =>
        apply ih
        · simp only [step, stepWorker]; split <;> (try split) <;> rfl
        · rcases h2 with rfl | rfl | ⟨rfl, rfl⟩
          · cases st <;> simp [step, stepWorker]
          · simp [step, stepWorker]
          · simp [step, stepWorker]
  rw [this sched (stepMain c s) (by simp [stepMain, hm]) (by rcases hw with h | h <;> simp [stepMain, hm, h])]
  decide

/-- Such states are reached: the owner destroys the device before its thread got a turn. -/
example : let s := run true (init true) [.main]; s.main = .alive ∧ s.worker = .waiting := by decide
example : let s := run true (init false) [.main]; s.main = .alive ∧ s.worker = .set := by decide

/-- **C91.** The three theorems cover all executions: when the destructor starts, either the device was connected and the thread is in
its loop, or it has not reached it. -/
theorem cases_complete (c h : Bool) (sched : List Who) (s : St) (hs : s = run c (init h) sched) (hm : s.main = .alive) :
    s.worker = .waiting ∨ s.worker = .set ∨ (s.worker = .loop ∧ s.running = true) := by
  subst hs
  have : ∀ (l : List Who) (s : St), ((s.main = .constructing ∨ s.main = .alive) →
      (s.worker = .waiting ∨ s.worker = .set ∨ (s.worker = .loop ∧ s.running = true))) →
      ((run c s l).main = .constructing ∨ (run c s l).main = .alive) →
      ((run c s l).worker = .waiting ∨ (run c s l).worker = .set ∨ ((run c s l).worker = .loop ∧ (run c s l).running = true)) := by
    intro l
    induction l with
    | nil => intro s h1; exact h1
    | cons w l ih =>
      intro s h1
      apply ih
      obtain ⟨m, wk, st, rn⟩ := s
      cases w <;> cases m <;> cases wk <;> cases st <;> cases rn <;> simp_all [step, stepMain, stepWorker]
  exact this sched (init h) (by cases h <;> simp [init]) (.inr hm)

/-- Case of `cases_complete`: all three situations occur when the destructor may start. -/
example : (run true (init false) [.main]).main = .alive ∧ (run true (init false) [.main]).worker = .set ∧
    (run true (init false) [.main, .worker]).main = .alive ∧ (run true (init false) [.main, .worker]).worker = .loop ∧
    (run true (init false) [.main, .worker]).running = true := by decide

end Verif.Hal.DeviceThread
