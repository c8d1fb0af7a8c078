import Mathlib.Data.List.Induction
import Mathlib.Order.Basic
import Mathlib.Tactic.ByContra
/-!
C226: the loop of `Executor::run` which is synchronised with a topic of ROS 1, as with the simulator Gazebo (src/core/Executor.cpp:313-342).

Simplified: a cycle together with `callAvailable` (334-340) is one step; `running` is read and written atomically (a plain `bool`, Executor.hpp:182); the times of
ROS are integers; the queue is a number of messages, only this loop takes messages from it.
-/
namespace Verif.Core.RosTopic1

inductive Pc where
  /-- 320 -/
  | test
  /-- 322-325 -/
  | first
  /-- 329 -/
  | waitMsg
  /-- 330-333 -/
  | waitTime
  /-- the loop has been left -/
  | done
deriving DecidableEq, Repr

structure St where
  running : Bool
  pc : Pc
  /-- the static variable `first` -/
  first : Bool
  timeOld : Int
  timeNew : Int
  /-- the time ROS publishes -/
  now : Int
  queue : Nat
  /-- the cycles so far, the last one first: the time of the cycle and the number of messages delivered just before -/
  cycles : List (Int × Nat)
deriving DecidableEq, Repr

/-- Lines 317-319, `first` is false if `run` was called before. -/
def init (f : Bool) (old new : Int) : St := ⟨true, .test, f, old, new, new, 0, []⟩

inductive Step where
  /-- the executor makes a step -/
  | exec
  /-- a message arrives in the queue -/
  | message
  /-- ROS publishes a time -/
  | clock (t : Int)
  /-- `Executor::stop`, 197 -/
  | stop
deriving DecidableEq, Repr

/-- The executor. -/
def exec (s : St) : St :=
  match s.pc with
  | .test => if s.running then { s with pc := if s.first then .first else .waitMsg } else { s with pc := .done }
  | .first => if s.timeOld = s.timeNew ∧ s.running then { s with timeNew := s.now } else { s with first := false, timeOld := s.timeNew, pc := .waitMsg }
  | .waitMsg => if s.queue = 0 ∧ s.running then s else { s with pc := .waitTime }
  | .waitTime =>
    if s.timeOld = s.timeNew ∧ s.running then { s with timeNew := s.now }
    else { s with timeOld := s.timeNew, queue := 0, cycles := (s.timeNew, s.queue) :: s.cycles, pc := .test }
  | .done => s

def step (s : St) : Step → St
  | .exec => exec s
  | .message => { s with queue := s.queue + 1 }
  | .clock t => { s with now := t }
  | .stop => { s with running := false }

def run (s : St) (l : List Step) : St := l.foldl step s

/-- Messages which arrived. -/
def messages (l : List Step) : Nat := l.countP (· = .message)

/-- Messages delivered in cycles. -/
def delivered (s : St) : Nat := (s.cycles.map Prod.snd).sum

theorem run_snoc (s : St) (l : List Step) (x : Step) : run s (l ++ [x]) = step (run s l) x := by simp [run]

theorem run_append (s : St) (l1 l2 : List Step) : run s (l1 ++ l2) = run (run s l1) l2 := by simp [run]

theorem run_running (s : St) (l : List Step) : (run s l).running = (s.running && decide (.stop ∉ l)) := by
  induction l using List.reverseRecOn with
  | nil => simp [run]
  | append_singleton l x ih =>
    rw [run_snoc]
    cases x with
    | exec =>
      have : (step (run s l) .exec).running = (run s l).running := by
        simp only [step, exec]
        split <;> (try split) <;> rfl
      rw [this, ih]; simp
    | message => show (run s l).running = _; rw [ih]; simp
    | clock t => show (run s l).running = _; rw [ih]; simp
    | stop => simp [step]

/-- **No message is lost:** all messages are delivered in a cycle or still in the queue. -/
theorem none_lost (f : Bool) (old new : Int) (l : List Step) : delivered (run (init f old new) l) + (run (init f old new) l).queue = messages l := by
  induction l using List.reverseRecOn with
  | nil => simp [run, init, delivered, messages]
  | append_singleton l x ih =>
    rw [run_snoc]
    cases x with
    | exec =>
      have : messages (l ++ [.exec]) = messages l := by simp [messages]
      rw [this, ← ih]
      simp only [step, exec]
      split <;> (try split) <;> simp [delivered] <;> omega
    | message =>
      have : messages (l ++ [.message]) = messages l + 1 := by simp [messages]
      rw [this, ← ih]
      simp [step, delivered]; omega
    | clock t =>
      have : messages (l ++ [.clock t]) = messages l := by simp [messages]
      rw [this, ← ih]; rfl
    | stop =>
      have : messages (l ++ [.stop]) = messages l := by simp [messages]
      rw [this, ← ih]; rfl

/-- While the executor is not stopped: the message seen in line 329 is still in the queue, the last cycle was at `timeOld`. -/
structure Inv (s : St) : Prop where
  msg : s.running = true → s.pc = .waitTime → 0 < s.queue
  some : s.running = true → ∀ c ∈ s.cycles, 0 < c.2
  last : s.running = true → ∀ c ∈ s.cycles.head?, c.1 = s.timeOld ∧ s.first = false
  chain : s.running = true → (s.cycles.map Prod.fst).IsChain (· ≠ ·)
  pcf : s.running = true → s.pc = .first → s.first = true
  pcw : s.running = true → s.pc = .waitMsg ∨ s.pc = .waitTime → s.first = false

theorem inv_step {s : St} (h : Inv s) (x : Step) : Inv (step s x) := by
  obtain ⟨h1, h2, h3, h4, h5, h6⟩ := h
  cases x with
  | message => exact ⟨fun a b => by simp [step], h2, h3, h4, h5, h6⟩
  | clock t => exact ⟨h1, h2, h3, h4, h5, h6⟩
  | stop => exact ⟨by simp [step], by simp [step], by simp [step], by simp [step], by simp [step], by simp [step]⟩
  | exec =>
    simp only [step, exec]
    cases hp : s.pc with
    | test =>
      by_cases hr : s.running = true
      · simp only [hr, if_true]
        refine ⟨?_, fun _ => h2 hr, fun _ => h3 hr, fun _ => h4 hr, ?_, ?_⟩
        · intro _ a; cases hf : s.first <;> simp [hf] at a
        · intro _ a; cases hf : s.first <;> simp [hf] at a ⊢
        · intro _ a; cases hf : s.first <;> simp [hf] at a ⊢
      · simp only [hr]
        refine ⟨?_, ?_, ?_, ?_, ?_, ?_⟩ <;> intro a <;> exact absurd a (by simp [hr])
    | first =>
      by_cases hr : s.running = true
      · by_cases ht : s.timeOld = s.timeNew
        · simp only [ht, hr, and_self, if_true]
          refine ⟨?_, fun _ => h2 hr, ?_, fun _ => h4 hr, fun _ _ => h5 hr hp, ?_⟩
          · intro _ a; simp only [hp, reduceCtorEq] at a
          · intro _ c hc; have := h3 hr c hc; exact ⟨this.1.trans ht, this.2⟩
          · intro _ a; rcases a with a | a <;> simp only [hp, reduceCtorEq] at a
        · simp only [ht, false_and, if_false]
          refine ⟨?_, fun _ => h2 hr, ?_, fun _ => h4 hr, ?_, fun _ _ => rfl⟩
          · intro _ a; cases a
          · intro _ c hc
            exact absurd (h3 hr c hc).2 (by simp [h5 hr hp])
          · intro _ a; cases a
      · simp only [hr]
        refine ⟨?_, ?_, ?_, ?_, ?_, ?_⟩ <;> intro a <;> exact absurd a (by simp [hr])
    | waitMsg =>
      by_cases hc : s.queue = 0 ∧ s.running = true
      · simp only [hc, and_self, if_true]
        exact ⟨h1, h2, h3, h4, h5, h6⟩
      · simp only [hc, if_false]
        refine ⟨?_, h2, h3, h4, ?_, fun a _ => h6 a (Or.inl hp)⟩
        · intro a _
          simp only at a
          have : s.queue ≠ 0 := fun hq => hc ⟨hq, a⟩
          show 0 < s.queue
          omega
        · intro a b; cases b
    | waitTime =>
      by_cases hr : s.running = true
      · by_cases ht : s.timeOld = s.timeNew
        · simp only [ht, hr, and_self, if_true]
          refine ⟨fun _ _ => h1 hr hp, fun _ => h2 hr, ?_, fun _ => h4 hr, ?_, fun _ _ => h6 hr (Or.inr hp)⟩
          · intro _ c hc; have := h3 hr c hc; exact ⟨this.1.trans ht, this.2⟩
          · intro _ a; simp only [hp, reduceCtorEq] at a
        · simp only [ht, false_and, if_false]
          refine ⟨?_, ?_, ?_, ?_, ?_, ?_⟩
          · intro _ a; cases a
          · intro _ c hc
            rcases List.mem_cons.1 hc with rfl | hc
            · exact h1 hr hp
            · exact h2 hr c hc
          · intro _ c hc
            simp only [List.head?_cons, Option.mem_def, Option.some.injEq] at hc
            subst hc
            exact ⟨rfl, h6 hr (Or.inr hp)⟩
          · intro _
            simp only [List.map_cons]
            cases hcs : s.cycles with
            | nil => simp
            | cons c cs =>
              have hch := h4 hr
              rw [hcs] at hch
              have hl := (h3 hr c (by simp [hcs])).1
              simp only [List.map_cons] at hch ⊢
              refine List.IsChain.cons_cons ?_ hch
              rw [hl]
              exact Ne.symm ht
          · intro _ a; cases a
          · intro _ a; rcases a with a | a <;> cases a
      · simp only [hr]
        refine ⟨?_, ?_, ?_, ?_, ?_, ?_⟩ <;> intro a <;> exact absurd a (by simp [hr])
    | done => exact ⟨h1, h2, h3, h4, h5, h6⟩

theorem inv_run {s : St} (h : Inv s) (l : List Step) : Inv (run s l) := by
  induction l using List.reverseRecOn with
  | nil => exact h
  | append_singleton l x ih => rw [run_snoc]; exact inv_step ih x

theorem inv_init (f : Bool) (old new : Int) : Inv (init f old new) := by
  refine ⟨?_, ?_, ?_, ?_, ?_, ?_⟩ <;> simp [init]

/-- **C226, the part which holds.** Until `stop` is called, each cycle comes after at least one message which no other cycle had, and at another ROS time than the
cycle before. -/
theorem cycles_synchronised_partial (f : Bool) (old new : Int) (l : List Step) (h : .stop ∉ l) :
    (∀ c ∈ (run (init f old new) l).cycles, 0 < c.2) ∧ ((run (init f old new) l).cycles.map Prod.fst).IsChain (· ≠ ·) ∧
      (run (init f old new) l).cycles.length ≤ messages l := by
  have hv := inv_run (inv_init f old new) l
  have hr : (run (init f old new) l).running = true := by rw [run_running]; simp [init, h]
  refine ⟨hv.some hr, hv.chain hr, ?_⟩
  have hn := none_lost f old new l
  have key : ∀ cs : List (Int × Nat), (∀ c ∈ cs, 0 < c.2) → cs.length ≤ (cs.map Prod.snd).sum := by
    intro cs
    induction cs with
    | nil => intro _; simp
    | cons c cs ih =>
      intro hc
      have := ih (fun c' h' => hc c' (List.mem_cons_of_mem _ h'))
      have h0 := hc c (by simp)
      simp only [List.length_cons, List.map_cons, List.sum_cons]
      omega
  have := key _ (hv.some hr)
  unfold delivered at hn
  omega

/-- Case: two messages at one time make one cycle, the next cycle waits for the next time. -/
example : (run (init false 0 0) [.exec, .message, .message, .exec, .clock 5, .exec, .exec, .exec, .message, .exec, .exec, .exec, .clock 6, .exec, .exec]).cycles =
    [(6, 1), (5, 2)] := by decide

/-- **Progress.** A message in the queue and a time other than that of the last cycle lead to a cycle within four steps of the executor. -/
theorem cycle_follows (s : St) (hr : s.running = true) (hp : s.pc = .test ∨ s.pc = .waitMsg ∨ s.pc = .waitTime) (hf : s.first = false) (hq : 0 < s.queue)
    (ht : s.now ≠ s.timeOld) : ∃ n ≤ 4, (run s (List.replicate n .exec)).cycles.length = s.cycles.length + 1 := by
  -- waiting for the time
  have k1 : ∀ s : St, s.running = true → s.pc = .waitTime → s.now ≠ s.timeOld → ∃ n ≤ 2, (run s (List.replicate n .exec)).cycles.length = s.cycles.length + 1 := by
    intro s hr hp ht
    by_cases he : s.timeOld = s.timeNew
    · refine ⟨2, by omega, ?_⟩
      have ht' : ¬ s.timeNew = s.now := by rw [← he]; exact Ne.symm ht
      simp [run, List.replicate, step, exec, hp, hr, he, ht']
    · refine ⟨1, by omega, ?_⟩
      simp [run, List.replicate, step, exec, hp, he]
  have k2 : ∀ s : St, s.running = true → s.pc = .waitMsg → 0 < s.queue → s.now ≠ s.timeOld →
      ∃ n ≤ 3, (run s (List.replicate n .exec)).cycles.length = s.cycles.length + 1 := by
    intro s hr hp hq ht
    have e : exec s = { s with pc := .waitTime } := by
      have : ¬ s.queue = 0 := by omega
      simp [exec, hp, this]
    obtain ⟨n, h1, h2⟩ := k1 (exec s) (by rw [e]; exact hr) (by rw [e]) (by rw [e]; exact ht)
    refine ⟨n + 1, by omega, ?_⟩
    rw [List.replicate_succ]
    have : run s (.exec :: List.replicate n .exec) = run (exec s) (List.replicate n .exec) := rfl
    rw [this, h2, e]
  rcases hp with hp | hp | hp
  · have e : exec s = { s with pc := .waitMsg } := by simp [exec, hp, hr, hf]
    obtain ⟨n, h1, h2⟩ := k2 (exec s) (by rw [e]; exact hr) (by rw [e]) (by rw [e]; exact hq) (by rw [e]; exact ht)
    refine ⟨n + 1, by omega, ?_⟩
    rw [List.replicate_succ]
    have : run s (.exec :: List.replicate n .exec) = run (exec s) (List.replicate n .exec) := rfl
    rw [this, h2, e]
  · obtain ⟨n, h1, h2⟩ := k2 s hr hp hq ht
    exact ⟨n, by omega, h2⟩
  · obtain ⟨n, h1, h2⟩ := k1 s hr hp ht
    exact ⟨n, by omega, h2⟩
example : ∃ n ≤ 4, (run (⟨true, .waitMsg, false, 3, 3, 4, 1, []⟩ : St) (List.replicate n .exec)).cycles.length = 1 :=
  cycle_follows ⟨true, .waitMsg, false, 3, 3, 4, 1, []⟩ rfl (by decide) rfl (by decide) (by decide)

/-- **Stopping.** After `stop` at most one more cycle is begun, whatever happens. -/
theorem stop_one_more (s : St) (l : List Step) (hr : s.running = false) : (run s l).cycles.length ≤ s.cycles.length + 1 := by
  have key : ∀ l, (run s l).running = false ∧ (run s l).cycles.length + (if (run s l).pc = .test ∨ (run s l).pc = .done then 0 else 1) ≤ s.cycles.length + 1 := by
    intro l
    induction l using List.reverseRecOn with
    | nil => refine ⟨hr, ?_⟩; simp only [run, List.foldl_nil]; by_cases h : s.pc = .test ∨ s.pc = .done <;> simp [h]
    | append_singleton l x ih =>
      rw [run_snoc]
      obtain ⟨i1, i2⟩ := ih
      generalize run s l = t at i1 i2
      cases x with
      | message => exact ⟨i1, i2⟩
      | clock u => exact ⟨i1, i2⟩
      | stop => exact ⟨rfl, i2⟩
      | exec =>
        cases hp : t.pc <;> simp [hp] at i2 <;> simp [step, exec, hp, i1] <;> omega
  exact Nat.le_of_add_right_le (key l).2

/-- ... and the loop ends after at most four more steps of the executor. -/
theorem stop_ends (s : St) (hr : s.running = false) : ∃ n ≤ 4, (run s (List.replicate n .exec)).pc = .done := by
  cases hp : s.pc with
  | test => exact ⟨1, by omega, by simp [run, List.replicate, step, exec, hp, hr]⟩
  | first => exact ⟨4, by omega, by simp [run, List.replicate, step, exec, hp, hr]⟩
  | waitMsg => exact ⟨3, by omega, by simp [run, List.replicate, step, exec, hp, hr]⟩
  | waitTime => exact ⟨2, by omega, by simp [run, List.replicate, step, exec, hp, hr]⟩
  | done => exact ⟨0, by omega, hp⟩
example : (run (init false 0 0) [.exec, .exec, .stop, .exec, .exec, .exec]).pc = .done ∧
    (run (init false 0 0) [.exec, .exec, .stop, .exec, .exec, .exec]).cycles = [(0, 0)] := by decide

/-- **C226, violated.** If `stop` finds the executor waiting for a message, a cycle without message follows, and if no time was published since the last cycle, at
the same time as the last one. -/
theorem stop_extra_cycle_violated (s : St) (hp : s.pc = .waitMsg) (hq : s.queue = 0) :
    (run s [.stop, .exec, .exec]).cycles = (s.timeNew, 0) :: s.cycles := by
  simp [run, step, exec, hp, hq]
/-- Case: after the cycle at time 5 the program is stopped while it waits for the next message. -/
example : (run (init false 0 0) [.message, .exec, .exec, .clock 5, .exec, .exec, .exec, .stop, .exec, .exec]).cycles = [(5, 0), (5, 1)] := by decide

/-! ### The first cycle -/

/-- Number of times which ROS published. -/
def clocks (l : List Step) : Nat := l.countP (fun x => match x with | .clock _ => true | _ => false)

/-- **The first cycle of a program waits for two new times**: with `first` set, no cycle is executed before ROS has published two times after the start, how many
messages ever have arrived. -/
theorem first_waits_twice (t : Int) (l : List Step) (h : .stop ∉ l) (hc : (run (init true t t) l).cycles ≠ []) : 2 ≤ clocks l := by
  have key : ∀ l, .stop ∉ l → let s := run (init true t t) l
      (s.pc = .test ∧ s.first = true ∨ s.pc = .first → s.timeOld = t ∧ s.cycles = [] ∧ (s.timeNew = t → s.now ≠ t → 1 ≤ clocks l) ∧
        (s.timeNew ≠ t → 1 ≤ clocks l ∧ (s.now ≠ s.timeNew → 2 ≤ clocks l))) ∧
      (s.pc = .waitMsg ∨ s.pc = .waitTime ∨ s.pc = .test ∧ s.first = false → 1 ≤ clocks l ∧
        ((s.timeNew ≠ s.timeOld ∨ s.now ≠ s.timeOld ∨ s.cycles ≠ []) → 2 ≤ clocks l)) ∧ s.pc ≠ .done ∧ (s.pc = .first → s.first = true) ∧
          (s.pc = .waitMsg ∨ s.pc = .waitTime → s.first = false) := by
    intro l
    induction l using List.reverseRecOn with
    | nil => intro _; simp [run, init]
    | append_singleton l x ih =>
      intro hn
      have hn' : .stop ∉ l := by simp at hn; exact hn.1
      have hr : (run (init true t t) l).running = true := by rw [run_running]; simp [init, hn']
      have ih := ih hn'
      rw [run_snoc]
      revert ih hr
      generalize run (init true t t) l = s
      intro hr ih
      obtain ⟨i1, i2, i3, i4, i5⟩ := ih
      cases x with
      | stop => simp at hn
      | message =>
        have : clocks (l ++ [.message]) = clocks l := by simp [clocks]
        rw [this]
        exact ⟨i1, i2, i3, i4, i5⟩
      | clock u =>
        have : clocks (l ++ [.clock u]) = clocks l + 1 := by simp [clocks]
        rw [this]
        refine ⟨?_, ?_, i3, i4, i5⟩
        · intro a
          obtain ⟨j1, j2, j3, j4⟩ := i1 a
          refine ⟨j1, j2, fun _ _ => by omega, fun b => ⟨by omega, fun _ => ?_⟩⟩
          have := (j4 b).1
          omega
        · intro a
          obtain ⟨j1, -⟩ := i2 a
          exact ⟨by omega, fun _ => by omega⟩
      | exec =>
        have : clocks (l ++ [.exec]) = clocks l := by simp [clocks]
        rw [this]
        simp only [step]
        have hcases : s.pc = .test ∨ s.pc = .first ∨ s.pc = .waitMsg ∨ s.pc = .waitTime := by
          cases hp : s.pc <;> simp_all
        rcases hcases with hp | hp | hp | hp
        · cases hf : s.first with
          | true =>
            obtain ⟨j1, j2, j3, j4⟩ := i1 (Or.inl ⟨hp, hf⟩)
            have e : exec s = { s with pc := .first } := by simp [exec, hp, hr, hf]
            rw [e]
            exact ⟨fun _ => ⟨j1, j2, j3, j4⟩, by simp, by simp, fun _ => hf, by simp⟩
          | false =>
            obtain ⟨j1, j2⟩ := i2 (Or.inr (Or.inr ⟨hp, hf⟩))
            have e : exec s = { s with pc := .waitMsg } := by simp [exec, hp, hr, hf]
            rw [e]
            exact ⟨by simp, fun _ => ⟨j1, j2⟩, by simp, by simp, fun _ => hf⟩
        · obtain ⟨j1, j2, j3, j4⟩ := i1 (Or.inr hp)
          by_cases he : s.timeOld = s.timeNew
          · have e : exec s = { s with timeNew := s.now } := by simp [exec, hp, hr, he]
            rw [e]
            refine ⟨fun _ => ⟨j1, j2, ?_, ?_⟩, ?_, i3, i4, i5⟩
            · intro a b; exact absurd a b
            · intro a
              exact ⟨j3 (by rw [← he]; exact j1) a, fun b => absurd rfl b⟩
            · intro a; rcases a with a | a | ⟨a, -⟩ <;> simp only [hp, reduceCtorEq] at a
          · have e : exec s = { s with first := false, timeOld := s.timeNew, pc := .waitMsg } := by simp [exec, hp, he]
            rw [e]
            have hnt : s.timeNew ≠ t := by rw [← j1]; exact Ne.symm he
            obtain ⟨j5, j6⟩ := j4 hnt
            refine ⟨?_, ?_, by simp, by simp, fun _ => rfl⟩
            · intro a; rcases a with ⟨a, -⟩ | a <;> cases a
            · intro _
              refine ⟨j5, ?_⟩
              intro a
              rcases a with a | a | a
              · exact absurd rfl a
              · exact j6 a
              · exact absurd j2 a
        · obtain ⟨j1, j2⟩ := i2 (Or.inl hp)
          by_cases hq : s.queue = 0
          · have e : exec s = s := by simp [exec, hp, hq, hr]
            rw [e]
            exact ⟨i1, i2, i3, i4, i5⟩
          · have e : exec s = { s with pc := .waitTime } := by simp [exec, hp, hq]
            rw [e]
            exact ⟨by simp, fun _ => ⟨j1, j2⟩, by simp, by simp, fun _ => i5 (Or.inl hp)⟩
        · obtain ⟨j1, j2⟩ := i2 (Or.inr (Or.inl hp))
          by_cases he : s.timeOld = s.timeNew
          · have e : exec s = { s with timeNew := s.now } := by simp [exec, hp, hr, he]
            rw [e]
            refine ⟨?_, ?_, i3, i4, i5⟩
            · intro a; rcases a with ⟨a, -⟩ | a <;> simp only [hp, reduceCtorEq] at a
            · intro _
              refine ⟨j1, ?_⟩
              intro a
              rcases a with a | a | a
              · exact j2 (Or.inr (Or.inl a))
              · exact j2 (Or.inr (Or.inl a))
              · exact j2 (Or.inr (Or.inr a))
          · have e : exec s = { s with timeOld := s.timeNew, queue := 0, cycles := (s.timeNew, s.queue) :: s.cycles, pc := .test } := by simp [exec, hp, he]
            rw [e]
            have h2 := j2 (Or.inl (Ne.symm he))
            have hf := i5 (Or.inr hp)
            refine ⟨?_, fun _ => ⟨j1, fun _ => h2⟩, by simp, by simp, by simp⟩
            intro a; rcases a with ⟨-, a⟩ | a
            · exact absurd (hf.symm.trans a) (by decide)
            · cases a
  obtain ⟨k1, k2, k3, k4, k5⟩ := key l h
  revert k1 k2 k3 k4 k5 hc
  generalize run (init true t t) l = s
  intro hc k1 k2 k3 k4 k5
  cases hp : s.pc with
  | test =>
    cases hf : s.first with
    | true => exact absurd (k1 (Or.inl ⟨hp, hf⟩)).2.1 hc
    | false => exact (k2 (Or.inr (Or.inr ⟨hp, hf⟩))).2 (Or.inr (Or.inr hc))
  | first => exact absurd (k1 (Or.inr hp)).2.1 hc
  | waitMsg => exact (k2 (Or.inl hp)).2 (Or.inr (Or.inr hc))
  | waitTime => exact (k2 (Or.inr (Or.inl hp))).2 (Or.inr (Or.inr hc))
  | done => exact absurd hp k3
/-- Case: a message and the time 5 are not enough, the time 6 starts the first cycle. -/
example : (run (init true 0 0) ([.message, .exec, .clock 5] ++ List.replicate 100 .exec)).cycles = [] ∧
    (run (init true 0 0) ([.message, .exec, .clock 5] ++ List.replicate 100 .exec ++ [.clock 6, .exec, .exec])).cycles = [(6, 1)] := by decide +kernel

end Verif.Core.RosTopic1
