import Mathlib.Data.Nat.Notation
/-!
Model of `Executor::stop` in a build with ROS 2 (src/core/Executor.cpp:195-208) and of the thread which spins the subscribers
(Executor.cpp:268-274, includes/eeros/core/Executor.hpp).

Modelled: the shared pointer `subscriberThread`, the joins, who calls `stop`, one or several calls of `run` and the end of the program.
The calls of `stop` follow each other.  Assumed of the libraries: `spin` returns after `rclcpp::shutdown` as soon as none of its
callbacks is active, it runs callbacks in the thread which called it and in further threads which it joins (`MultiThreadedExecutor`);
`std::thread::join` throws for a thread already joined and for the calling thread itself, the destructor of a thread which was not
joined terminates the process.  Not modelled: the loop itself (see `Verif/Core/SyncModes.lean`, `ExecutorRun.lean`), log output.
-/
namespace Verif.Core.StopRos2

/-- The pointer `subscriberThread`: null, a thread not yet joined, a joined thread. -/
inductive Th
  | null
  | live
  | joined
  deriving DecidableEq, Repr

/-- Who calls `stop`: a thread which runs no callback of a subscriber (the main thread, a time domain, the sequencer, ...),
a callback in the thread which spins, a callback in a further thread of the spinning executor. -/
inductive Caller
  | outside
  | spinner
  | worker
  deriving DecidableEq, Repr

/-- What ends the program in another way than planned. -/
inductive Fail
  /-- `join` throws `std::system_error`: the thread was joined before -/
  | notJoinable
  /-- `join` throws `std::system_error`: a thread joins itself -/
  | selfJoin
  /-- the callback waits for the thread which waits for the callback -/
  | hangs
  /-- a thread is destroyed without having been joined, `std::terminate` -/
  | terminates
  deriving DecidableEq, Repr

structure S where
  /-- was `registerSubscriber` called, Executor.cpp:228-239 -/
  subs : Bool
  th : Th
  running : Bool
  deriving DecidableEq, Repr

/-- Executor.hpp:182-186. -/
def start (subs : Bool) : S := ⟨subs, .null, true⟩

/-- `run` up to the loop, Executor.cpp:268-276; the assignment destroys the thread of an earlier run. -/
def begin (s : S) : Except Fail S :=
  if s.subs then
    match s.th with
    | .live => .error .terminates
    | _ => .ok { s with th := .live, running := true }
  else .ok { s with running := true }

/-- `stop`, Executor.cpp:195-208. -/
def stop (c : Caller) (s : S) : Except Fail S :=
  let s := { s with running := false }
  match s.th with
  | .null => .ok s
  | .joined => .error .notJoinable
  | .live => match c with
    | .outside => .ok { s with th := .joined }
    | .spinner => .error .selfJoin
    | .worker => .error .hangs

/-- The end of the program destroys the static executor, Executor.cpp:99-102. -/
def finish (s : S) : Except Fail S := match s.th with
  | .live => .error .terminates
  | _ => .ok s

def stops (cs : List Caller) (s : S) : Except Fail S := cs.foldlM (fun s c => stop c s) s

/-- A program: for each call of `run` the calls of `stop` during it and until the next one. -/
def rounds (rs : List (List Caller)) (s : S) : Except Fail S :=
  rs.foldlM (fun s cs => do stops cs (← begin s)) s

def program (subs : Bool) (rs : List (List Caller)) : Except Fail S := do finish (← rounds rs (start subs))

/-- Did all calls return and did the program end. -/
def fine (x : Except Fail S) : Bool := match x with | .ok _ => true | .error _ => false

/-! ### One run -/

theorem stops_joined (cs : List Caller) (s : S) (h : s.th = .joined) :
    stops cs s = if cs = [] then .ok s else .error .notJoinable := by
  cases cs with
  | nil => rfl
  | cons c cs => simp [stops, List.foldlM_cons, stop, h, bind, Except.bind]

theorem stops_null (cs : List Caller) : ∀ s : S, s.th = .null →
    ∃ t, stops cs s = .ok t ∧ t.th = .null ∧ t.subs = s.subs ∧ t.running = (if cs = [] then s.running else false) := by
  induction cs with
  | nil => intro s h; exact ⟨s, rfl, h, rfl, rfl⟩
  | cons c cs ih =>
    intro s h
    obtain ⟨t, h1, h2, h3, h4⟩ := ih { s with running := false } h
    refine ⟨t, ?_, h2, h3, ?_⟩
    · rw [← h1]; simp [stops, List.foldlM_cons, stop, h, bind, Except.bind]
    · rw [h4]; simp

theorem stops_live (cs : List Caller) (s : S) (h : s.th = .live) :
    fine (stops cs s) = true ↔ cs = [] ∨ cs = [.outside] := by
  cases cs with
  | nil => simp [stops, fine, pure, Except.pure]
  | cons c cs =>
    cases c with
    | outside =>
      have e : stops (.outside :: cs) s = stops cs { s with running := false, th := .joined } := by
        simp [stops, List.foldlM_cons, stop, h, bind, Except.bind]
      rw [e, stops_joined _ _ rfl]
      cases cs <;> simp [fine]
    | spinner => simp [stops, List.foldlM_cons, stop, h, bind, Except.bind, fine]
    | worker => simp [stops, List.foldlM_cons, stop, h, bind, Except.bind, fine]

/-- C311. Without subscribers `stop` may be called by anybody and as often as one likes, in any number of runs. -/
theorem without_subscribers (rs : List (List Caller)) : fine (program false rs) = true := by
  have h : ∀ (rs : List (List Caller)) (s : S), s.subs = false → s.th = .null →
      ∃ t, rounds rs s = .ok t ∧ t.th = .null := by
    intro rs
    induction rs with
    | nil => intro s _ h2; exact ⟨s, rfl, h2⟩
    | cons cs rs ih =>
      intro s h1 h2
      obtain ⟨t, ht, ht2, ht3, _⟩ := stops_null cs { s with running := true } h2
      obtain ⟨u, hu, hu2⟩ := ih t (by rw [ht3]; exact h1) ht2
      refine ⟨u, ?_, hu2⟩
      rw [← hu]
      have hb : begin s = .ok { s with running := true } := by simp [begin, h1]
      simp only [rounds, List.foldlM_cons, hb, ht, bind, Except.bind]
  obtain ⟨t, ht, ht2⟩ := h rs (start false) rfl rfl
  unfold program
  rw [ht]
  simp [finish, ht2, fine, bind, Except.bind]

example : fine (program false [[.outside, .worker], [], [.spinner, .spinner]]) = true := by decide +kernel

/-- C311. With subscribers a program works exactly if in each of its runs `stop` is called exactly once and by a thread
which runs no callback of a subscriber. -/
theorem with_subscribers_iff (rs : List (List Caller)) :
    fine (program true rs) = true ↔ ∀ cs ∈ rs, cs = [.outside] := by
  have h : ∀ (rs : List (List Caller)) (s : S), s.subs = true →
      (s.th = .live → fine (do finish (← rounds rs s)) = false) ∧
      (s.th ≠ .live → (fine (do finish (← rounds rs s)) = true ↔ ∀ cs ∈ rs, cs = [.outside])) := by
    intro rs
    induction rs with
    | nil =>
      intro s _
      constructor
      · intro h; simp [rounds, finish, h, fine, bind, Except.bind, pure, Except.pure]
      · intro h
        cases ht : s.th with
        | live => exact absurd ht h
        | null => simp [rounds, finish, ht, fine, bind, Except.bind, pure, Except.pure]
        | joined => simp [rounds, finish, ht, fine, bind, Except.bind, pure, Except.pure]
    | cons cs rs ih =>
      intro s h1
      constructor
      · intro h; simp [rounds, List.foldlM_cons, begin, h1, h, fine, bind, Except.bind]
      · intro h
        have hb : begin s = .ok { s with th := .live, running := true } := by
          unfold begin
          cases ht : s.th with
          | live => exact absurd ht h
          | null => simp [h1]
          | joined => simp [h1]
        have hr : rounds (cs :: rs) s =
            (do rounds rs (← stops cs { s with th := .live, running := true })) := by
          simp [rounds, List.foldlM_cons, hb, bind, Except.bind]
        rw [hr]
        by_cases hc : cs = []
        · subst hc
          have e : stops [] { s with th := .live, running := true } = .ok { s with th := .live, running := true } := rfl
          rw [e]
          have := (ih { s with th := .live, running := true } h1).1 rfl
          simp only [bind, Except.bind] at this ⊢
          simp [this]
        · by_cases hc1 : cs = [.outside]
          · subst hc1
            have e : stops [.outside] { s with th := .live, running := true } =
              .ok { s with th := .joined, running := false } := rfl
            rw [e]
            have := (ih { s with th := .joined, running := false } h1).2 (by simp)
            simp only [bind, Except.bind] at this ⊢
            rw [this]
            simp
          · have hn : ¬ fine (stops cs { s with th := .live, running := true }) = true :=
              fun hf => by simpa [hc, hc1] using (stops_live cs { s with th := .live, running := true } rfl).mp hf
            constructor
            · intro hf
              cases hs : stops cs { s with th := .live, running := true } with
              | ok t => rw [hs] at hn; simp [fine] at hn
              | error e => rw [hs] at hf; simp [fine, bind, Except.bind] at hf
            · intro hall; exact absurd (hall cs (by simp)) hc1
  exact (h rs (start true) rfl).2 (by simp [start])

example : fine (program true [[.outside], [.outside]]) = true := by decide +kernel
example : fine (program true [[.outside], [.outside, .outside]]) = false := by decide +kernel

/-- C311, part which holds: a single run with a single call from outside. -/
theorem one_call_partial : fine (program true [[.outside]]) = true := by decide +kernel

/-- C311, violated: any further call of `stop` after the first one (a second SIGINT for example) throws out of `stop`. -/
theorem second_call_violated (c : Caller) (cs : List Caller) :
    program true [.outside :: c :: cs] = .error .notJoinable := by
  have e : rounds [.outside :: c :: cs] (start true) = .error .notJoinable := by
    have : stops (.outside :: c :: cs) { start true with th := .live, running := true } = .error .notJoinable := by
      have e : stops (.outside :: c :: cs) { start true with th := .live, running := true } =
          stops (c :: cs) { start true with running := false, th := .joined } := by
        simp [stops, List.foldlM_cons, stop, bind, Except.bind]
      rw [e, stops_joined _ _ rfl]
      simp
    have hb : begin (start true) = .ok { start true with th := .live, running := true } := rfl
    simp [rounds, List.foldlM_cons, hb, bind, Except.bind, this]
  unfold program
  rw [e]
  rfl

example : program true [[.outside, .outside]] = .error .notJoinable := second_call_violated _ _

/-- C311, violated: a callback of a subscriber cannot stop the executor, it throws or waits for itself. -/
theorem callback_violated (cs : List Caller) :
    program true [.spinner :: cs] = .error .selfJoin ∧ program true [.worker :: cs] = .error .hangs := by
  constructor <;>
  simp [program, rounds, stops, List.foldlM_cons, begin, start, stop, bind, Except.bind]

example : program true [[.worker]] = .error .hangs := (callback_violated []).2

/-- C311, violated: a run which ends without a call of `stop` (a task throws for example) terminates the process at its end. -/
theorem no_call_violated : program true [[]] = .error .terminates := by
  simp [program, rounds, stops, begin, start, finish, bind, Except.bind, pure, Except.pure]

end Verif.Core.StopRos2
