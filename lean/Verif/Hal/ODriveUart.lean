/-!
Model of the commands of `hal::ODriveUART` (includes/eeros/hal/ODriveUART.hpp) in every interleaving of its owner (constructor 39-48, destructor 52-65)
with its thread (`run`, 228-240), and C308.

The function `setSpeed` (108) is declared but not defined anywhere in the repository; it is taken to send the set point it is called with.
`nofaxis_odrive` is 1 (20).  The reads of the velocities (182-223) are modelled in Verif.Hal.ODrive; here they are a request on the line.
Variables are sequentially consistent.
-/
namespace Verif.Hal.ODriveUart

/-- What goes over the line. -/
inductive Cmd where
  /-- `w axis<i>.requested_state <v>` -/
  | state (axis value : Nat)
  | speed (axis value : Nat)
  /-- `r axis<i>.encoder.vel_estimate` -/
  | ask (axis : Nat)
deriving DecidableEq, Repr

/-- The owner: the constructor, the life, the destructor. -/
inductive Main where
  /-- 42: before `calibrate_motors` -/
  | calibrate
  /-- 44 -/
  | closeLoop
  /-- 46: `starting = false` -/
  | release
  | alive
  /-- 54 -/
  | zero
  /-- 56-60 -/
  | idle
  /-- 62: `running = false` -/
  | stop
  /-- 63: `closeTty` -/
  | close
  /-- `~Thread` -/
  | join
  | done
deriving DecidableEq, Repr

inductive Worker where
  /-- 229 -/
  | wait
  /-- 230 -/
  | enter
  /-- 232 -/
  | test
  /-- 233 -/
  | speed
  /-- 234 -/
  | ask0
  /-- 235 -/
  | ask1
  | exited
deriving DecidableEq, Repr

structure St where
  main : Main := .calibrate
  worker : Worker := .wait
  starting : Bool := true
  running : Bool := false
  opened : Bool := true
  /-- what reached the line, oldest first -/
  line : List Cmd := []
deriving DecidableEq, Repr

/-- `write`: fails on a closed descriptor. -/
def send (c : Cmd) (s : St) : St := if s.opened then { s with line := s.line ++ [c] } else s

/-- A step of the owner; the step from `alive` is the begin of the destructor. -/
def stepMain (s : St) : St :=
  match s.main with
  | .calibrate => { send (.state 0 3) s with main := .closeLoop }
  | .closeLoop => { send (.state 0 8) s with main := .release }
  | .release => { s with main := .alive, starting := false }
  | .alive => { s with main := .zero }
  | .zero => { send (.speed 0 0) s with main := .idle }
  | .idle => { send (.state 0 1) s with main := .stop }
  | .stop => { s with main := .close, running := false }
  | .close => { s with main := .join, opened := false }
  | .join => if s.worker = .exited then { s with main := .done } else s
  | .done => s

def stepWorker (s : St) : St :=
  match s.worker with
  | .wait => if s.starting then s else { s with worker := .enter }
  | .enter => { s with worker := .test, running := true }
  | .test => if s.running then { s with worker := .speed } else { s with worker := .exited }
  | .speed => { send (.speed 0 10000) s with worker := .ask0 }
  | .ask0 => { send (.ask 0) s with worker := .ask1 }
  | .ask1 => { send (.ask 1) s with worker := .test }
  | .exited => s

/-- A schedule: `true`: the owner moves, `false`: the thread. -/
def run (s : St) (l : List Bool) : St := l.foldl (fun s b => if b then stepMain s else stepWorker s) s

/-! ### C308 -/

/-- The commands which may go over the line. -/
def Known (c : Cmd) : Prop :=
  c = .state 0 3 ∨ c = .state 0 8 ∨ c = .state 0 1 ∨ c = .speed 0 0 ∨ c = .speed 0 10000 ∨ c = .ask 0 ∨ c = .ask 1

theorem send_known (c : Cmd) (s : St) (hc : Known c) (h : ∀ x ∈ s.line, Known x) : ∀ x ∈ (send c s).line, Known x := by
  unfold send
  split
  · intro x hx
    rcases List.mem_append.mp hx with hx | hx
    · exact h x hx
    · rw [List.mem_singleton.mp hx]; exact hc
  · exact h

theorem main_known (s : St) (h : ∀ x ∈ s.line, Known x) : ∀ x ∈ (stepMain s).line, Known x := by
  unfold stepMain
  cases s.main with
  | calibrate => exact send_known _ _ (by unfold Known; decide) h
  | closeLoop => exact send_known _ _ (by unfold Known; decide) h
  | release => exact h
  | alive => exact h
  | zero => exact send_known _ _ (by unfold Known; decide) h
  | idle => exact send_known _ _ (by unfold Known; decide) h
  | stop => exact h
  | close => exact h
  | join => simp only []; split <;> exact h
  | done => exact h

theorem worker_known (s : St) (h : ∀ x ∈ s.line, Known x) : ∀ x ∈ (stepWorker s).line, Known x := by
  unfold stepWorker
  cases s.worker with
  | wait => simp only []; split <;> exact h
  | enter => exact h
  | test => simp only []; split <;> exact h
  | speed => exact send_known _ _ (by unfold Known; decide) h
  | ask0 => exact send_known _ _ (by unfold Known; decide) h
  | ask1 => exact send_known _ _ (by unfold Known; decide) h
  | exited => exact h

theorem run_known (l : List Bool) (s : St) (h : ∀ x ∈ s.line, Known x) : ∀ x ∈ (run s l).line, Known x := by
  induction l generalizing s with
  | nil => exact h
  | cons b l ih =>
    have : run s (b :: l) = run (if b then stepMain s else stepWorker s) l := rfl
    rw [this]
    refine ih _ ?_
    cases b
    · exact worker_known s h
    · exact main_known s h

/-- **C308 violated**: in every execution each set point is 0 or 10000 and for motor 0: no set point of the application ever reaches the drive. -/
theorem setpoints_violated (l : List Bool) (axis value : Nat) (h : Cmd.speed axis value ∈ (run {} l).line) : axis = 0 ∧ (value = 0 ∨ value = 10000) := by
  rcases run_known l {} (by intro x hx; cases hx) _ h with h | h | h | h | h | h | h
  · cases h
  · cases h
  · cases h
  · injection h with h1 h2; exact ⟨h1, .inl h2⟩
  · injection h with h1 h2; exact ⟨h1, .inr h2⟩
  · cases h
  · cases h

/-- **C308 violated**: axis 1, whose velocity is read, is neither calibrated nor switched on or off in any execution. -/
theorem axis1_violated (l : List Bool) (value : Nat) : Cmd.state 1 value ∉ (run {} l).line ∧ Cmd.speed 1 value ∉ (run {} l).line := by
  constructor <;> intro h <;> rcases run_known l {} (by intro x hx; cases hx) _ h with h | h | h | h | h | h | h <;> cases h

/-- The order of the owner's progress. -/
def Main.rank : Main → Nat
  | .calibrate => 0 | .closeLoop => 1 | .release => 2 | .alive => 3 | .zero => 4 | .idle => 5 | .stop => 6 | .close => 7 | .join => 8 | .done => 9

/-- The line as long as the constructor runs, and the thread's state. -/
def Early (s : St) : Prop :=
  (s.main.rank ≤ 2 → s.worker = .wait ∧ s.starting = true) ∧ (s.opened = false → 8 ≤ s.main.rank) ∧
  (s.main = .calibrate → s.line = []) ∧ (s.main = .closeLoop → s.line = [.state 0 3]) ∧ (3 ≤ s.main.rank ∨ s.main = .release → [Cmd.state 0 3, .state 0 8] <+: s.line)

theorem send_prefix (p : List Cmd) (c : Cmd) (s : St) (h : p <+: s.line) : p <+: (send c s).line := by
  unfold send
  split
  · exact h.trans (List.prefix_append _ _)
  · exact h

theorem early_late (t : St) (m : Main) (hm : t.main = m) (hr : 3 ≤ m.rank) (ho : t.opened = false → 8 ≤ m.rank) (hp : [Cmd.state 0 3, .state 0 8] <+: t.line) :
    Early t := by
  subst hm
  refine ⟨fun h => ?_, ho, fun h => ?_, fun h => ?_, fun _ => hp⟩
  · omega
  · rw [h] at hr; exact absurd hr (by decide)
  · rw [h] at hr; exact absurd hr (by decide)

theorem early_step (s : St) (b : Bool) (h : Early s) : Early (if b then stepMain s else stepWorker s) := by
  obtain ⟨h1, h2, h3, h4, h5⟩ := h
  have hopen : s.main.rank < 8 → s.opened = true := by
    intro hr
    cases ho : s.opened
    · exact absurd (h2 ho) (by omega)
    · rfl
  cases b
  · simp only [Bool.false_eq_true, if_false]
    have hkeep : (stepWorker s).main = s.main ∧ (stepWorker s).opened = s.opened ∧ (stepWorker s).starting = s.starting := by
      unfold stepWorker
      cases s.worker <;> simp only [] <;> (try split) <;> (try (unfold send; split)) <;> simp
    have hline : ∀ p : List Cmd, p <+: s.line → p <+: (stepWorker s).line := by
      intro p hp
      unfold stepWorker
      cases s.worker with
      | wait => simp only []; split <;> exact hp
      | enter => exact hp
      | test => simp only []; split <;> exact hp
      | speed => exact send_prefix p _ s hp
      | ask0 => exact send_prefix p _ s hp
      | ask1 => exact send_prefix p _ s hp
      | exited => exact hp
    have hstay : s.main.rank ≤ 2 → stepWorker s = s := by
      intro hr
      obtain ⟨hw, hs⟩ := h1 hr
      unfold stepWorker
      rw [hw]; simp only []; rw [hs]; rfl
    refine ⟨?_, ?_, ?_, ?_, ?_⟩
    · rw [hkeep.1]; intro hr; rw [hstay hr]; exact h1 hr
    · rw [hkeep.1, hkeep.2.1]; exact h2
    · rw [hkeep.1]; intro hm; rw [hstay (by rw [hm]; decide)]; exact h3 hm
    · rw [hkeep.1]; intro hm; rw [hstay (by rw [hm]; decide)]; exact h4 hm
    · rw [hkeep.1]; intro hm; exact hline _ (h5 hm)
  · simp only [if_true]
    unfold stepMain
    cases hm : s.main with
    | calibrate =>
      have ho := hopen (by rw [hm]; decide)
      have := h1 (by rw [hm]; decide)
      simp [Early, send, ho, h3 hm, this, Main.rank]
    | closeLoop =>
      have ho := hopen (by rw [hm]; decide)
      have := h1 (by rw [hm]; decide)
      simp [Early, send, ho, h4 hm, this, Main.rank]
    | release =>
      have ho := hopen (by rw [hm]; decide)
      have := h5 (by rw [hm]; decide)
      exact early_late _ .alive rfl (by decide) (fun h => absurd h (by simp [ho])) (this)
    | alive =>
      have ho := hopen (by rw [hm]; decide)
      have := h5 (by rw [hm]; decide)
      exact early_late _ .zero rfl (by decide) (fun h => absurd h (by simp [ho])) (this)
    | zero =>
      have ho := hopen (by rw [hm]; decide)
      have := h5 (by rw [hm]; decide)
      exact early_late _ .idle rfl (by decide) (fun h => absurd h (by simp [send, ho])) (send_prefix _ _ _ this)
    | idle =>
      have ho := hopen (by rw [hm]; decide)
      have := h5 (by rw [hm]; decide)
      exact early_late _ .stop rfl (by decide) (fun h => absurd h (by simp [send, ho])) (send_prefix _ _ _ this)
    | stop =>
      have ho := hopen (by rw [hm]; decide)
      have := h5 (by rw [hm]; decide)
      exact early_late _ .close rfl (by decide) (fun h => absurd h (by simp [ho])) (this)
    | close =>
      have := h5 (by rw [hm]; decide)
      exact early_late _ .join rfl (by decide) (fun _ => by decide) this
    | join =>
      have := h5 (by rw [hm]; decide)
      simp only []
      split
      · exact early_late _ .done rfl (by decide) (fun _ => by decide) this
      · exact ⟨h1, h2, h3, h4, h5⟩
    | done => exact ⟨h1, h2, h3, h4, h5⟩

theorem early_run (l : List Bool) : Early (run {} l) := by
  have : ∀ (l : List Bool) (s : St), Early s → Early (run s l) := by
    intro l
    induction l with
    | nil => intro s h; exact h
    | cons b l ih => intro s h; exact ih _ (early_step s b h)
  exact this l {} ⟨fun _ => ⟨rfl, rfl⟩, fun h => (by cases h), fun _ => rfl, fun h => (by cases h), fun h => by
    rcases h with h | h
    · exact absurd h (by decide)
    · cases h⟩

/-- **C308** Axis 0 is calibrated and then put into closed loop control before anything else goes over the line. -/
theorem calibrated_first_partial (l : List Bool) (n : Nat) (h : n < 2) (hl : n < (run {} l).line.length) :
    (run {} l).line[n]? = ([Cmd.state 0 3, .state 0 8])[n]? := by
  obtain ⟨-, -, h3, h4, h5⟩ := early_run l
  cases hm : (run {} l).main with
  | calibrate => rw [h3 hm] at hl; exact absurd hl (by simp)
  | closeLoop =>
    rw [h4 hm] at hl ⊢
    obtain rfl : n = 0 := by simp at hl; omega
    rfl
  | release => obtain ⟨t, ht⟩ := h5 (.inr hm); rw [← ht]; exact List.getElem?_append_left h
  | alive => obtain ⟨t, ht⟩ := h5 (.inl (by rw [hm]; decide)); rw [← ht]; exact List.getElem?_append_left h
  | zero => obtain ⟨t, ht⟩ := h5 (.inl (by rw [hm]; decide)); rw [← ht]; exact List.getElem?_append_left h
  | idle => obtain ⟨t, ht⟩ := h5 (.inl (by rw [hm]; decide)); rw [← ht]; exact List.getElem?_append_left h
  | stop => obtain ⟨t, ht⟩ := h5 (.inl (by rw [hm]; decide)); rw [← ht]; exact List.getElem?_append_left h
  | close => obtain ⟨t, ht⟩ := h5 (.inl (by rw [hm]; decide)); rw [← ht]; exact List.getElem?_append_left h
  | join => obtain ⟨t, ht⟩ := h5 (.inl (by rw [hm]; decide)); rw [← ht]; exact List.getElem?_append_left h
  | done => obtain ⟨t, ht⟩ := h5 (.inl (by rw [hm]; decide)); rw [← ht]; exact List.getElem?_append_left h

example : 5 < (run {} ([true, true, true] ++ List.replicate 9 false)).line.length ∧
    (run {} ([true, true, true] ++ List.replicate 9 false)).line[1]? = some (.state 0 8) := by decide

/-- One pass of the thread. -/
theorem one_pass (s : St) (hw : s.worker = .test) (hr : s.running = true) (ho : s.opened = true) :
    run s [false, false, false, false] = { s with line := s.line ++ [.speed 0 10000, .ask 0, .ask 1] } := by
  obtain ⟨m, w, st, r, o, l⟩ := s
  simp only at hw hr ho
  subst hw hr ho
  simp [run, stepWorker, send]

theorem run_append (s : St) (a b : List Bool) : run s (a ++ b) = run (run s a) b := List.foldl_append

theorem many_passes (n : Nat) (s : St) (hw : s.worker = .test) (hr : s.running = true) (ho : s.opened = true) :
    ∃ l, run s l = { s with line := s.line ++ (List.replicate n [Cmd.speed 0 10000, .ask 0, .ask 1]).flatten } := by
  induction n generalizing s with
  | zero => exact ⟨[], by simp [run]⟩
  | succ n ih =>
    obtain ⟨l, hl⟩ := ih { s with line := s.line ++ [.speed 0 10000, .ask 0, .ask 1] } hw hr ho
    refine ⟨[false, false, false, false] ++ l, ?_⟩
    rw [run_append, one_pass s hw hr ho, hl]
    simp [List.replicate_succ]

/-- **C308 violated**: after any number of passes, `n` before and `k` after the destructor has set the speed to zero, the destructor completes and the
last set point which the drive got is 10000. -/
theorem last_setpoint_violated (n k : Nat) :
    ∃ l, (run {} l).main = .done ∧ ∃ before, (run {} l).line = before ++
      [Cmd.speed 0 0, .state 0 1] ++ (List.replicate k [Cmd.speed 0 10000, .ask 0, .ask 1]).flatten ++ [.speed 0 10000] ∧
      n ≤ before.count (.speed 0 10000) := by
  -- the constructor, then the thread enters its loop
  have h0 : run {} [true, true, true, false, false] = { main := .alive, worker := .test, starting := false, running := true, opened := true, line := [.state 0 3, .state 0 8] } := by decide
  obtain ⟨l1, h1⟩ := many_passes n { main := .alive, worker := .test, starting := false, running := true, opened := true, line := [.state 0 3, .state 0 8] } rfl rfl rfl
  simp only at h1
  generalize hb : [Cmd.state 0 3, .state 0 8] ++ (List.replicate n [Cmd.speed 0 10000, .ask 0, .ask 1]).flatten = before at h1
  have h2 : run { main := .alive, worker := .test, starting := false, running := true, opened := true, line := before } [true, true, true] =
      { main := .stop, worker := .test, starting := false, running := true, opened := true, line := before ++ [.speed 0 0, .state 0 1] } := by
    simp [run, stepMain, send]
  obtain ⟨l3, h3⟩ := many_passes k { main := .stop, worker := .test, starting := false, running := true, opened := true, line := before ++ [.speed 0 0, .state 0 1] } rfl rfl rfl
  simp only at h3
  generalize hc : before ++ [Cmd.speed 0 0, .state 0 1] ++ (List.replicate k [Cmd.speed 0 10000, .ask 0, .ask 1]).flatten = mid at h3
  have h4 : run { main := .stop, worker := .test, starting := false, running := true, opened := true, line := mid }
      [false, true, false, true, false, false, false, true] =
      { main := .done, worker := .exited, starting := false, running := false, opened := false, line := mid ++ [.speed 0 10000] } := by
    simp [run, stepMain, stepWorker, send]
  refine ⟨[true, true, true, false, false] ++ l1 ++ [true, true, true] ++ l3 ++ [false, true, false, true, false, false, false, true], ?_, before, ?_, ?_⟩
  · rw [run_append, run_append, run_append, run_append, h0, h1, h2, h3, h4]
  · rw [run_append, run_append, run_append, run_append, h0, h1, h2, h3, h4, ← hc]
  · rw [← hb, List.count_append]
    have : ∀ m : Nat, (List.replicate m [Cmd.speed 0 10000, .ask 0, .ask 1]).flatten.count (.speed 0 10000) = m := by
      intro m
      induction m with
      | zero => rfl
      | succ m ih => rw [List.replicate_succ, List.flatten_cons, List.count_append, ih]; simp; omega
    rw [this n]; omega

example : ∃ l, (run {} l).main = .done ∧ (run {} l).line.getLast? = some (.speed 0 10000) := by
  obtain ⟨l, h, b, hb, -⟩ := last_setpoint_violated 3 2
  exact ⟨l, h, by rw [hb]; simp⟩

end Verif.Hal.ODriveUart
