import Verif.Core.Startup
import Mathlib.Tactic.Tauto
set_option linter.unusedSectionVars false
namespace Verif.Core.Startup

variable {M : Type} [DecidableEq M]

/-! ### Specification -/

/-- The steps of the constructor before the thread is started. -/
def beforeSpawn : List (CStep M) → List (CStep M)
  | [] => []
  | .spawn :: _ => []
  | c :: cs => c :: beforeSpawn cs

/-- The thread is safe whatever the schedule. -/
def Safe (ctor : List (CStep M)) (worker : List (WStep M)) : Prop :=
  ∀ sched, (run (start ctor worker) sched).bad = []

/-! ### C85 -/

theorem run_ctor (pre rest : List (CStep M)) (s : St M) (h : s.ctor = pre ++ rest) :
    ∃ f, run s (List.replicate pre.length true) = f ∧ f.ctor = rest ∧ f.worker = s.worker ∧ f.bad = s.bad ∧
      (∀ m, m ∈ f.ready ↔ m ∈ s.ready ∨ .init m ∈ pre) ∧
      (f.isDerived = true ↔ s.isDerived = true ∨ .derived ∈ pre) ∧
      (f.spawned = true ↔ s.spawned = true ∨ .spawn ∈ pre) := by
  induction pre generalizing s with
  | nil => exact ⟨s, rfl, by simpa using h, rfl, rfl, by simp, by simp, by simp⟩
  | cons c pre ih =>
    obtain ⟨ctor, worker, ready, spawned, isDerived, bad⟩ := s
    simp only [List.cons_append] at h
    subst h
    cases c with
    | init m =>
      obtain ⟨f, h1, h2, h3, h4, h5, h6, h7⟩ := ih ⟨pre ++ rest, worker, m :: ready, spawned, isDerived, bad⟩ rfl
      exact ⟨f, h1, h2, h3, h4, by
        intro x; rw [h5 x]; simp only [List.mem_cons, CStep.init.injEq]; tauto, by simpa using h6, by simpa using h7⟩
    | derived =>
      obtain ⟨f, h1, h2, h3, h4, h5, h6, h7⟩ := ih ⟨pre ++ rest, worker, ready, spawned, true, bad⟩ rfl
      exact ⟨f, h1, h2, h3, h4, by simpa using h5, by simpa using h6, by simpa using h7⟩
    | spawn =>
      obtain ⟨f, h1, h2, h3, h4, h5, h6, h7⟩ := ih ⟨pre ++ rest, worker, ready, true, isDerived, bad⟩ rfl
      exact ⟨f, h1, h2, h3, h4, by simpa using h5, by simpa using h6, by simpa using h7⟩

/-- The invariant of a safe program: while no thread exists the remaining constructor makes everything ready in time. -/
structure Inv (s : St M) : Prop where
  bad : s.bad = []
  uses : ∀ m, .use m ∈ s.worker → m ∈ s.ready ∨ (s.spawned = false ∧ .init m ∈ beforeSpawn s.ctor)
  disp : .dispatch ∈ s.worker → s.isDerived = true ∨ (s.spawned = false ∧ .derived ∈ beforeSpawn s.ctor)

theorem inv_step (s : St M) (h : Inv s) (b : Bool) : Inv (step s b) := by
  obtain ⟨ctor, worker, ready, spawned, isDerived, bad⟩ := s
  obtain ⟨h1, h2, h3⟩ := h
  simp only at h1 h2 h3
  subst h1
  cases b with
  | true =>
    cases ctor with
    | nil => exact ⟨rfl, h2, h3⟩
    | cons c ctor =>
      cases c with
      | init m =>
        refine ⟨rfl, ?_, ?_⟩
        · intro x hx
          rcases h2 x hx with h | ⟨h, h'⟩
          · left; simp [step, h]
          · simp only [beforeSpawn, List.mem_cons, CStep.init.injEq] at h'
            rcases h' with rfl | h'
            · left; simp [step]
            · right; exact ⟨h, h'⟩
        · intro hd
          rcases h3 hd with h | ⟨h, h'⟩
          · exact Or.inl h
          · right; refine ⟨h, ?_⟩; simpa [beforeSpawn, step] using h'
      | derived =>
        refine ⟨rfl, ?_, fun _ => Or.inl rfl⟩
        intro x hx
        rcases h2 x hx with h | ⟨h, h'⟩
        · exact Or.inl h
        · right; refine ⟨h, ?_⟩; simpa [beforeSpawn, step] using h'
      | spawn =>
        refine ⟨rfl, ?_, ?_⟩
        · intro x hx
          rcases h2 x hx with h | ⟨_, h'⟩
          · exact Or.inl h
          · simp [beforeSpawn] at h'
        · intro hd
          rcases h3 hd with h | ⟨_, h'⟩
          · exact Or.inl h
          · simp [beforeSpawn] at h'
  | false =>
    cases spawned with
    | false => exact ⟨rfl, h2, h3⟩
    | true =>
      cases worker with
      | nil => exact ⟨rfl, h2, h3⟩
      | cons w worker =>
        cases w with
        | use m =>
          have hm : m ∈ ready := by
            rcases h2 m (by simp) with h | ⟨h, _⟩
            · exact h
            · simp at h
          refine ⟨by simp [step, hm], ?_, ?_⟩
          · intro x hx; exact h2 x (List.mem_cons_of_mem _ hx)
          · intro hd; exact h3 (List.mem_cons_of_mem _ hd)
        | dispatch =>
          have hd : isDerived = true := by
            rcases h3 (by simp) with h | ⟨h, _⟩
            · exact h
            · simp at h
          subst hd
          refine ⟨by simp [step], ?_, fun _ => Or.inl (by simp [step])⟩
          intro x hx
          have hx' : WStep.use x ∈ worker := by simpa [step] using hx
          rcases h2 x (List.mem_cons_of_mem _ hx') with h | ⟨h, _⟩
          · left; simpa [step] using h
          · simp at h

theorem inv_run (s : St M) (h : Inv s) (sched : List Bool) : Inv (run s sched) := by
  induction sched generalizing s with
  | nil => exact h
  | cons b sched ih => exact ih _ (inv_step s h b)

/-- Split of the constructor at the start of the thread. -/
theorem split_spawn (ctor : List (CStep M)) (h : .spawn ∈ ctor) :
    ∃ rest, ctor = beforeSpawn ctor ++ .spawn :: rest := by
  induction ctor with
  | nil => simp at h
  | cons c ctor ih =>
    cases c with
    | spawn => exact ⟨ctor, rfl⟩
    | init m => obtain ⟨r, hr⟩ := ih (by simpa using h); exact ⟨r, by simp only [beforeSpawn, List.cons_append]; rw [← hr]⟩
    | derived => obtain ⟨r, hr⟩ := ih (by simpa using h); exact ⟨r, by simp only [beforeSpawn, List.cons_append]; rw [← hr]⟩

theorem spawn_notMem (ctor : List (CStep M)) : CStep.spawn ∉ beforeSpawn ctor := by
  induction ctor with
  | nil => simp [beforeSpawn]
  | cons c ctor ih => cases c <;> simp [beforeSpawn, ih]

theorem run_append (s : St M) (a b : List Bool) : run s (a ++ b) = run (run s a) b := by simp [run, List.foldl_append]

/-- Something bad stays. -/
theorem bad_mono (s : St M) (h : s.bad ≠ []) (b : Bool) : (step s b).bad ≠ [] := by
  obtain ⟨ctor, worker, ready, spawned, isDerived, bad⟩ := s
  cases b with
  | true => cases ctor with
    | nil => exact h
    | cons c ctor => cases c <;> exact h
  | false => cases spawned with
    | false => exact h
    | true => cases worker with
      | nil => exact h
      | cons w worker => cases w with
        | use m => simp only [step, if_true]; split
                   · exact h
                   · simp
        | dispatch => cases isDerived with
          | true => exact h
          | false => simp [step]

theorem run_bad (s : St M) (h : s.bad ≠ []) (l : List Bool) : (run s l).bad ≠ [] := by
  induction l generalizing s with
  | nil => exact h
  | cons b l ih => exact ih _ (bad_mono s h b)

/-- If the thread runs alone, with what is ready now, and something of it is missing, something bad happens. -/
theorem worker_bad (s : St M) (hs : s.spawned = true)
    (h : (∃ m, .use m ∈ s.worker ∧ m ∉ s.ready) ∨ (.dispatch ∈ s.worker ∧ s.isDerived = false)) :
    (run s (List.replicate s.worker.length false)).bad ≠ [] := by
  obtain ⟨ctor, worker, ready, spawned, isDerived, bad⟩ := s
  simp only at hs h
  subst hs
  induction worker generalizing bad with
  | nil => simp at h
  | cons w worker ih =>
    cases w with
    | use m =>
      by_cases hm : m ∈ ready
      · have e : step ⟨ctor, .use m :: worker, ready, true, isDerived, bad⟩ false =
            ⟨ctor, worker, ready, true, isDerived, bad⟩ := by simp [step, hm]
        have h' : (∃ m, .use m ∈ worker ∧ m ∉ ready) ∨ (.dispatch ∈ worker ∧ isDerived = false) := by
          rcases h with ⟨x, hx, hx'⟩ | ⟨hx, hx'⟩
          · left; refine ⟨x, ?_, hx'⟩
            simp only [List.mem_cons, WStep.use.injEq] at hx
            rcases hx with rfl | hx
            · exact absurd hm hx'
            · exact hx
          · right; exact ⟨by simpa using hx, hx'⟩
        have := ih bad h'
        simp only [List.length_cons, List.replicate_succ, run, List.foldl_cons, e]
        exact this
      · simp only [List.length_cons, List.replicate_succ]
        exact run_bad (step ⟨ctor, .use m :: worker, ready, true, isDerived, bad⟩ false) (by simp [step, hm]) _
    | dispatch =>
      cases hd : isDerived with
      | false =>
        simp only [List.length_cons, List.replicate_succ]
        exact run_bad (step ⟨ctor, .dispatch :: worker, ready, true, false, bad⟩ false) (by simp [step]) _
      | true =>
        subst hd
        have h' : (∃ m, .use m ∈ worker ∧ m ∉ ready) ∨ (.dispatch ∈ worker ∧ true = false) := by
          rcases h with ⟨x, hx, hx'⟩ | ⟨_, hx'⟩
          · left; exact ⟨x, by simpa using hx, hx'⟩
          · simp at hx'
        have := ih bad h'
        simp only [List.length_cons, List.replicate_succ, run, List.foldl_cons, step, if_true]
        exact this

/-- **C85.** For every constructor which starts a thread and every thread: no schedule lets the thread see an unfinished object
if and only if everything the thread uses is constructed before the thread is started, and so is the base class part if the
thread makes a virtual call. -/
theorem safe_iff (ctor : List (CStep M)) (worker : List (WStep M)) (hs : .spawn ∈ ctor) :
    Safe ctor worker ↔
      (∀ m, .use m ∈ worker → .init m ∈ beforeSpawn ctor) ∧ (.dispatch ∈ worker → .derived ∈ beforeSpawn ctor) := by
  constructor
  · intro hsafe
    obtain ⟨rest, hr⟩ := split_spawn ctor hs
    obtain ⟨f, h1, h2, h3, h4, h5, h6, h7⟩ := run_ctor (beforeSpawn ctor) (.spawn :: rest) (start ctor worker) hr
    have e : run (start ctor worker) (List.replicate (beforeSpawn ctor).length true ++ [true]) =
        { f with ctor := rest, spawned := true } := by
      rw [run_append, h1]; simp [run, step, h2]
    by_cases hgood : (∀ m, .use m ∈ worker → .init m ∈ beforeSpawn ctor) ∧ (.dispatch ∈ worker → .derived ∈ beforeSpawn ctor)
    · exact hgood
    · exfalso
      have hb := worker_bad ({ f with ctor := rest, spawned := true } : St M) rfl (by
        simp only [h3, start]
        by_cases hu : ∀ m, .use m ∈ worker → .init m ∈ beforeSpawn ctor
        · right
          have hd : ¬ (.dispatch ∈ worker → .derived ∈ beforeSpawn ctor) := fun h => hgood ⟨hu, h⟩
          have hd1 : WStep.dispatch ∈ worker := Classical.byContradiction (fun h => hd (fun h' => absurd h' h))
          have hd2 : CStep.derived ∉ beforeSpawn ctor := fun h => hd (fun _ => h)
          refine ⟨hd1, ?_⟩
          cases hi : f.isDerived with
          | false => rfl
          | true => exact absurd ((h6.1 hi).resolve_left (by simp [start])) hd2
        · left
          obtain ⟨m, hm⟩ := Classical.not_forall.1 hu
          have hm1 : WStep.use m ∈ worker := Classical.byContradiction (fun h => hm (fun h' => absurd h' h))
          have hm2 : CStep.init m ∉ beforeSpawn ctor := fun h => hm (fun _ => h)
          refine ⟨m, hm1, ?_⟩
          intro hr'
          exact hm2 (((h5 m).1 hr').resolve_left (by simp [start])))
      rw [← e, ← run_append] at hb
      exact hb (hsafe _)
  · rintro ⟨hu, hd⟩ sched
    exact (inv_run _ ⟨rfl, fun m hm => Or.inr ⟨rfl, hu m hm⟩, fun h => Or.inr ⟨rfl, hd h⟩⟩ sched).bad

/-- **C85, violated for `Async`.** The logger of the object is constructed after the thread which uses it is started. -/
theorem async_violated (realtime : Bool) : ¬ Safe asyncCtor (asyncWorker realtime) := by
  rw [safe_iff _ _ (by simp [asyncCtor])]
  cases realtime <;> simp [asyncWorker, asyncCtor, beforeSpawn]

/-- **C85 (partial).** Everything else a starting `Async` thread uses is ready.  Missing: the logger. -/
theorem async_partial (realtime : Bool) :
    Safe asyncCtor ((asyncWorker realtime).filter (fun w => w ≠ .use .log)) := by
  rw [safe_iff _ _ (by simp [asyncCtor])]
  constructor
  · intro m hm
    cases realtime <;> cases m <;> simp [asyncWorker, asyncCtor, beforeSpawn] at hm ⊢
  · intro h
    cases realtime <;> simp [asyncWorker] at h

/-- **C85, violated for every class derived from `Thread`**, whatever its own members and its `run` function do: there is a
schedule in which the virtual call goes to `Thread::run` and the thread ends without having done anything. -/
theorem thread_violated (log : M) (members : List (CStep M)) (body : List (WStep M)) :
    ¬ Safe (.init log :: .spawn :: .derived :: members) (.use log :: .dispatch :: body) ∧
    ∃ sched, (run (start (.init log :: .spawn :: .derived :: members) (.use log :: .dispatch :: body)) sched).bad = [.baseRun] ∧
      (run (start (.init log :: .spawn :: .derived :: members) (.use log :: .dispatch :: body)) sched).worker = [] := by
  constructor
  · rw [safe_iff _ _ (by simp)]
    simp [beforeSpawn]
  · exact ⟨[true, true, false, false], by simp [run, step, start], by simp [run, step, start]⟩

/-- **C85, violated for the mouse.** There is also a schedule in which the right function is called, but reads the file descriptor
before the device was opened. -/
theorem mouse_violated :
    ∃ sched, (run (start mouseCtor mouseWorker) sched).bad = [.useBeforeInit .fd] :=
  ⟨[true, true, false, true, false, false], by decide⟩

/-- Non-vacuity: with the members in another order `Async` would be safe. -/
example : Safe [.init AsyncM.realtime, .init .nice, .init .log, .init .semaphore, .spawn] (asyncWorker true) := by
  rw [safe_iff _ _ (by simp)]
  constructor
  · intro m hm; cases m <;> simp [asyncWorker, beforeSpawn] at hm ⊢
  · intro h; simp [asyncWorker] at h

end Verif.Core.Startup
