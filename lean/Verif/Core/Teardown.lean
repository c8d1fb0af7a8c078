/-
C233: threads and the end of life of the objects they belong to.

The classes derived from `Thread` (includes/eeros/core/Thread.hpp, src/core/Thread.cpp:9-33), `task::Async` (src/task/Async.cpp) and `sequencer::SequencerUI`
(src/sequencer/SequencerUI.cpp) own a thread which uses members of the object.  The object ends in steps: body of the destructor of the class, end of its members in
reverse order of their declaration, then body (`join`, Thread.cpp:23) and members of `Thread`.

Modelled: the stop flag, `join`, the end of members with a destructor of their own and of resources (open files, heap objects), and which of them the thread uses before,
in and after its loop.  Numbers, flags and pointers are left out: their storage exists until the whole object is gone.  A blocking read is one step.  Only the
end of the object is described, its constructor has returned (see `Startup.lean` for the beginning).
-/
namespace Verif.Core.Teardown

variable {M : Type} [DecidableEq M]

/-- A step of the thread which destroys the object. -/
inductive DStep (M : Type) where
  /-- the stop flag is set (`running = false`) -/
  | clear
  /-- `join()`: wait until the thread has ended -/
  | wait
  /-- the member is destroyed, the file closed, the heap object deleted -/
  | kill (m : M)
deriving DecidableEq, Repr

/-- The thread: what it uses before, in and after its loop `while (running)`; `sets`: the thread itself sets the flag before the loop (otherwise the constructor did). -/
structure Worker (M : Type) where
  pro : List M
  sets : Bool
  body : List M
  epi : List M

inductive PC (M : Type) where
  | pro (l : List M)
  | test
  | body (l : List M)
  | epi (l : List M)
  | ended
deriving DecidableEq, Repr

structure St (M : Type) where
  dtor : List (DStep M)
  pc : PC M
  running : Bool
  dead : List M
  /-- members used after their end -/
  bad : List M

def start (w : Worker M) (D : List (DStep M)) : St M := ⟨D, .pro w.pro, !w.sets, [], []⟩

/-- The thread uses a member. -/
def use (s : St M) (m : M) : List M := if m ∈ s.dead then m :: s.bad else s.bad

/-- `true`: a step of the destroying thread, `false`: of the thread of the object. -/
def step (w : Worker M) (s : St M) : Bool → St M
  | true => match s.dtor with
    | [] => s
    | .clear :: d => { s with dtor := d, running := false }
    | .wait :: d => if s.pc = .ended then { s with dtor := d } else s
    | .kill m :: d => { s with dtor := d, dead := m :: s.dead }
  | false => match s.pc with
    | .pro (m :: l) => { s with pc := .pro l, bad := use s m }
    | .pro [] => { s with pc := .test, running := s.running || w.sets }
    | .test => if s.running then { s with pc := .body w.body } else { s with pc := .epi w.epi }
    | .body (m :: l) => { s with pc := .body l, bad := use s m }
    | .body [] => { s with pc := .test }
    | .epi (m :: l) => { s with pc := .epi l, bad := use s m }
    | .epi [] => { s with pc := .ended }
    | .ended => s

def run (w : Worker M) (s : St M) (sched : List Bool) : St M := sched.foldl (step w) s

/-! ### Specification -/

/-- In no execution a member is used after its end. -/
def Safe (w : Worker M) (D : List (DStep M)) : Prop := ∀ sched, (run w (start w D) sched).bad = []

/-- What is done before the first `join`. -/
def before (D : List (DStep M)) : List (DStep M) := D.takeWhile (· ≠ .wait)

/-! ### Proof of the criterion -/

theorem mem_before {a b : List (DStep M)} (h : DStep.wait ∉ a) {x : DStep M} (hx : x ∈ a) : x ∈ before (a ++ b) := by
  induction a with
  | nil => cases hx
  | cons c a ih =>
    have hc : c ≠ .wait := fun h' => h (h' ▸ List.mem_cons_self)
    rw [List.cons_append, before, List.takeWhile_cons, if_pos (by simpa using hc)]
    rcases List.mem_cons.1 hx with rfl | hx
    · exact List.mem_cons_self
    · exact List.mem_cons_of_mem _ (ih (fun h' => h (List.mem_cons_of_mem _ h')) hx)

theorem before_split (D : List (DStep M)) : ∃ b, D = before D ++ b ∧ DStep.wait ∉ before D := by
  refine ⟨D.dropWhile (· ≠ .wait), (List.takeWhile_append_dropWhile).symm, ?_⟩
  induction D with
  | nil => simp [before]
  | cons c D ih =>
    rw [before, List.takeWhile_cons]
    split
    · rename_i h
      simp only [ne_eq, decide_eq_true_eq] at h
      intro hm
      rcases List.mem_cons.1 hm with hm | hm
      · exact h hm.symm
      · exact ih hm
    · simp

/-- What holds as long as nothing was used too late. -/
def Inv (w : Worker M) (D : List (DStep M)) (s : St M) : Prop :=
  s.bad = [] ∧ (s.pc = .ended ∨ ∃ a, D = a ++ s.dtor ∧ DStep.wait ∉ a ∧ (∀ m ∈ s.dead, DStep.kill m ∈ a) ∧
    match s.pc with
    | .pro l => (∀ m ∈ l, m ∈ w.pro) ∧ (w.sets = false → s.running = false → DStep.clear ∈ a)
    | .test => s.running = false → DStep.clear ∈ a
    | .body l => (∀ m ∈ l, m ∈ w.body) ∧ (s.running = false → DStep.clear ∈ a)
    | .epi l => (∀ m ∈ l, m ∈ w.epi) ∧ DStep.clear ∈ a
    | .ended => True)

theorem inv_step (w : Worker M) (D : List (DStep M)) (h1 : ∀ m, m ∈ w.pro ∨ m ∈ w.body → DStep.kill m ∉ before D)
    (h2 : ∀ m ∈ w.epi, DStep.kill m ∈ before D → DStep.clear ∉ before D) (s : St M) (h : Inv w D s) (b : Bool) : Inv w D (step w s b) := by
  obtain ⟨hb, h⟩ := h
  have alive : ∀ (a : List (DStep M)) m, D = a ++ s.dtor → DStep.wait ∉ a → (∀ m ∈ s.dead, DStep.kill m ∈ a) → DStep.kill m ∉ before D → use s m = [] := by
    intro a m hD hw hd hk
    rw [use, if_neg, hb]
    intro hm
    exact hk (hD ▸ mem_before hw (hd m hm))
  cases b with
  | true =>
    rcases h with h | ⟨a, hD, hw, hd, hpc⟩
    · refine ⟨?_, Or.inl ?_⟩
      · unfold step; rcases s.dtor with _ | ⟨_ | _ | _, _⟩ <;> simp [hb, h]
      · unfold step; rcases s.dtor with _ | ⟨_ | _ | _, _⟩ <;> simp [h]
    · cases hs : s.dtor with
      | nil =>
        have : step w s true = s := by unfold step; rw [hs]
        rw [this]
        exact ⟨hb, Or.inr ⟨a, hD, hw, hd, hpc⟩⟩
      | cons c d =>
        rw [hs] at hD
        have hD' : D = (a ++ [c]) ++ d := by rw [hD]; simp
        cases c with
        | clear =>
          have e : step w s true = { s with dtor := d, running := false } := by unfold step; rw [hs]
          rw [e]
          refine ⟨hb, Or.inr ⟨a ++ [.clear], hD', by simp [hw], fun m hm => by simp [hd m hm], ?_⟩⟩
          revert hpc
          cases s.pc <;> simp <;> grind
        | wait =>
          by_cases he : s.pc = .ended
          · have e : step w s true = { s with dtor := d } := by unfold step; rw [hs]; simp [he]
            rw [e]
            exact ⟨hb, Or.inl he⟩
          · have e : step w s true = s := by unfold step; rw [hs]; simp [he]
            rw [e]
            exact ⟨hb, Or.inr ⟨a, by rw [hs]; exact hD, hw, hd, hpc⟩⟩
        | kill m0 =>
          have e : step w s true = { s with dtor := d, dead := m0 :: s.dead } := by unfold step; rw [hs]
          rw [e]
          refine ⟨hb, Or.inr ⟨a ++ [.kill m0], hD', by simp [hw], ?_, ?_⟩⟩
          · intro m hm
            rcases List.mem_cons.1 hm with rfl | hm
            · simp
            · simp [hd m hm]
          · revert hpc
            cases s.pc <;> simp <;> grind
  | false =>
    rcases h with h | ⟨a, hD, hw, hd, hpc⟩
    · have e : step w s false = s := by unfold step; rw [h]
      rw [e]
      exact ⟨hb, Or.inl h⟩
    · cases hs : s.pc with
      | pro l =>
        rw [hs] at hpc
        cases l with
        | nil =>
          have e : step w s false = { s with pc := .test, running := s.running || w.sets } := by unfold step; rw [hs]
          rw [e]
          refine ⟨hb, Or.inr ⟨a, hD, hw, hd, ?_⟩⟩
          intro hr
          simp only [Bool.or_eq_false_iff] at hr
          exact hpc.2 hr.2 hr.1
        | cons m l =>
          have e : step w s false = { s with pc := .pro l, bad := use s m } := by unfold step; rw [hs]
          rw [e]
          exact ⟨alive a m hD hw hd (h1 m (Or.inl (hpc.1 m List.mem_cons_self))), Or.inr ⟨a, hD, hw, hd, fun m hm => hpc.1 m (List.mem_cons_of_mem _ hm), hpc.2⟩⟩
      | test =>
        rw [hs] at hpc
        cases hr : s.running with
        | true =>
          have e : step w s false = { s with pc := .body w.body } := by unfold step; rw [hs]; simp [hr]
          rw [e]
          exact ⟨hb, Or.inr ⟨a, hD, hw, hd, fun m hm => hm, fun h => by simp [hr] at h⟩⟩
        | false =>
          have e : step w s false = { s with pc := .epi w.epi } := by unfold step; rw [hs]; simp [hr]
          rw [e]
          exact ⟨hb, Or.inr ⟨a, hD, hw, hd, fun m hm => hm, hpc hr⟩⟩
      | body l =>
        rw [hs] at hpc
        cases l with
        | nil =>
          have e : step w s false = { s with pc := .test } := by unfold step; rw [hs]
          rw [e]
          exact ⟨hb, Or.inr ⟨a, hD, hw, hd, hpc.2⟩⟩
        | cons m l =>
          have e : step w s false = { s with pc := .body l, bad := use s m } := by unfold step; rw [hs]
          rw [e]
          exact ⟨alive a m hD hw hd (h1 m (Or.inr (hpc.1 m List.mem_cons_self))), Or.inr ⟨a, hD, hw, hd, fun m hm => hpc.1 m (List.mem_cons_of_mem _ hm), hpc.2⟩⟩
      | epi l =>
        rw [hs] at hpc
        cases l with
        | nil =>
          have e : step w s false = { s with pc := .ended } := by unfold step; rw [hs]
          rw [e]
          exact ⟨hb, Or.inl rfl⟩
        | cons m l =>
          have e : step w s false = { s with pc := .epi l, bad := use s m } := by unfold step; rw [hs]
          rw [e]
          refine ⟨alive a m hD hw hd ?_, Or.inr ⟨a, hD, hw, hd, fun m hm => hpc.1 m (List.mem_cons_of_mem _ hm), hpc.2⟩⟩
          exact fun hk => h2 m (hpc.1 m List.mem_cons_self) hk (hD ▸ mem_before hw hpc.2)
      | ended =>
        have e : step w s false = s := by unfold step; rw [hs]
        rw [e]
        exact ⟨hb, Or.inl hs⟩

theorem run_append (w : Worker M) (s : St M) (a b : List Bool) : run w s (a ++ b) = run w (run w s a) b := List.foldl_append

/-- The destructor runs up to its first `join` while the thread does nothing. -/
theorem run_dtor (w : Worker M) (a d : List (DStep M)) (ha : DStep.wait ∉ a) : ∀ s : St M, s.dtor = a ++ d →
    ∃ s', run w s (List.replicate a.length true) = s' ∧ s'.pc = s.pc ∧ (∀ m, DStep.kill m ∈ a → m ∈ s'.dead) ∧ (∀ m ∈ s.dead, m ∈ s'.dead) ∧
      (s.running = false → s'.running = false) ∧ (DStep.clear ∈ a → s'.running = false) := by
  induction a with
  | nil => intro s _; exact ⟨s, rfl, rfl, by simp, fun _ h => h, fun h => h, by simp⟩
  | cons c a ih =>
    intro s hs
    have ih := ih (fun h => ha (List.mem_cons_of_mem _ h))
    simp only [List.length_cons, List.replicate_succ, run, List.foldl_cons]
    cases c with
    | wait => exact absurd List.mem_cons_self ha
    | clear =>
      have e : step w s true = { s with dtor := a ++ d, running := false } := by unfold step; rw [hs]; rfl
      obtain ⟨s', h1, h2, h3, h4, h5, h6⟩ := ih { s with dtor := a ++ d, running := false } rfl
      rw [e]
      refine ⟨s', h1, h2, fun m hm => h3 m ?_, h4, fun _ => h5 rfl, fun _ => h5 rfl⟩
      rcases List.mem_cons.1 hm with h | h
      · cases h
      · exact h
    | kill m0 =>
      have e : step w s true = { s with dtor := a ++ d, dead := m0 :: s.dead } := by unfold step; rw [hs]; rfl
      obtain ⟨s', h1, h2, h3, h4, h5, h6⟩ := ih { s with dtor := a ++ d, dead := m0 :: s.dead } rfl
      rw [e]
      refine ⟨s', h1, h2, fun m hm => ?_, fun m hm => h4 m (List.mem_cons_of_mem _ hm), h5, fun hc => ?_⟩
      · rcases List.mem_cons.1 hm with h | h
        · cases h; exact h4 m0 List.mem_cons_self
        · exact h3 m h
      · rcases List.mem_cons.1 hc with h | h
        · cases h
        · exact h6 h

theorem bad_mono (w : Worker M) (s : St M) (b : Bool) (h : s.bad ≠ []) : (step w s b).bad ≠ [] := by
  have hu : ∀ m, use s m ≠ [] := fun m => by unfold use; split <;> simp [h]
  cases b with
  | true => unfold step; rcases s.dtor with _ | ⟨_ | _ | _, _⟩ <;> simp [h] <;> split <;> exact h
  | false =>
    unfold step
    rcases s.pc with l | _ | l | l | _
    · cases l <;> simp [h, hu]
    · dsimp only; split <;> exact h
    · cases l <;> simp [h, hu]
    · cases l <;> simp [h, hu]
    · exact h

/-- A thread which is going to use a dead member does. -/
theorem uses_dead (w : Worker M) (C : List M → PC M) (hC : ∀ (s : St M) m l, s.pc = C (m :: l) → step w s false = { s with pc := C l, bad := use s m })
    (m : M) (l : List M) (hm : m ∈ l) : ∀ s : St M, s.pc = C l → m ∈ s.dead → ∃ k, (run w s (List.replicate k false)).bad ≠ [] := by
  induction l with
  | nil => cases hm
  | cons x l ih =>
    intro s hs hd
    have e := hC s x l hs
    by_cases hx : x = m
    · refine ⟨1, ?_⟩
      simp only [List.replicate, run, List.foldl_cons, List.foldl_nil, e, use, hx, if_pos hd]
      simp
    · obtain ⟨k, hk⟩ := ih ((List.mem_cons.1 hm).resolve_left (fun h => hx h.symm)) { s with pc := C l, bad := use s x } rfl hd
      refine ⟨k + 1, ?_⟩
      simp only [List.replicate_succ, run, List.foldl_cons, e]
      exact hk

/-- A thread passes over its uses of living members. -/
theorem pass_pro (w : Worker M) (l : List M) : ∀ s : St M, s.pc = .pro l → s.dead = [] → s.bad = [] →
    run w s (List.replicate (l.length + 1) false) = { s with pc := .test, running := s.running || w.sets } := by
  induction l with
  | nil => intro s hs _ _; simp only [List.length_nil, List.replicate, run, List.foldl_cons, List.foldl_nil]; unfold step; rw [hs]
  | cons m l ih =>
    intro s hs hd hb
    have e : step w s false = { s with pc := .pro l, bad := use s m } := by unfold step; rw [hs]
    have hu : use s m = [] := by rw [use, hd, if_neg (by simp), hb]
    simp only [List.length_cons, List.replicate_succ (n := l.length + 1), run, List.foldl_cons, e, hu]
    have := ih { s with pc := .pro l, bad := [] } rfl hd rfl
    rw [run] at this
    rw [this]
    simp [hb]

/-- **C233.**  Criterion: no member is used after its end exactly if all members used before and in the loop end after a `join`, and those used after the loop do so or
the flag is not set before the first `join`. -/
theorem safe_iff (w : Worker M) (D : List (DStep M)) : Safe w D ↔
    (∀ m, m ∈ w.pro ∨ m ∈ w.body → DStep.kill m ∉ before D) ∧ (∀ m ∈ w.epi, DStep.kill m ∈ before D → DStep.clear ∉ before D) := by
  obtain ⟨d, hD, hw⟩ := before_split D
  have hstart : (start w D).dtor = before D ++ d := hD
  have tested : run w (start w D) (List.replicate (w.pro.length + 1) false) = { start w D with pc := .test, running := true } := by
    rw [pass_pro w w.pro (start w D) rfl rfl rfl]
    simp [start]
  constructor
  · intro hs
    refine ⟨fun m hm hk => ?_, fun m hm hk hc => ?_⟩
    · rcases hm with hm | hm
      · obtain ⟨s', h1, h2, h3, -⟩ := run_dtor w (before D) d hw (start w D) hstart
        obtain ⟨k, hk'⟩ := uses_dead w .pro (fun s m l h => by unfold step; rw [h]) m w.pro hm s' h2 (h3 m hk)
        apply hk'
        rw [← h1, ← run_append]
        exact hs _
      · have hb : run w (start w D) (List.replicate (w.pro.length + 1) false ++ [false]) = { start w D with pc := .body w.body, running := true } := by
          rw [run_append, tested]; rfl
        obtain ⟨s', h1, h2, h3, -⟩ := run_dtor w (before D) d hw { start w D with pc := .body w.body, running := true } hstart
        obtain ⟨k, hk'⟩ := uses_dead w .body (fun s m l h => by unfold step; rw [h]) m w.body hm s' h2 (h3 m hk)
        apply hk'
        rw [← h1, ← hb, ← run_append, ← run_append]
        exact hs _
    · obtain ⟨s', h1, h2, h3, -, -, h6⟩ := run_dtor w (before D) d hw { start w D with pc := .test, running := true } hstart
      have e : step w s' false = { s' with pc := .epi w.epi } := by unfold step; rw [h2]; simp [h6 hc]
      obtain ⟨k, hk'⟩ := uses_dead w .epi (fun s m l h => by unfold step; rw [h]) m w.epi hm { s' with pc := .epi w.epi } rfl (h3 m hk)
      apply hk'
      have : run w s' [false] = { s' with pc := .epi w.epi } := e
      rw [← this, ← h1, ← tested, ← run_append, ← run_append, ← run_append]
      exact hs _
  · rintro ⟨h1, h2⟩ sched
    have : ∀ s, Inv w D s → Inv w D (run w s sched) := by
      induction sched with
      | nil => exact fun s h => h
      | cons b l ih => exact fun s h => ih _ (inv_step w D h1 h2 s h b)
    exact (this (start w D) ⟨rfl, Or.inr ⟨[], rfl, by simp, by simp [start], fun m hm => hm, by intro h h'; simp [start, h] at h'⟩⟩).1

/-! ### The classes -/

/-- Destructor of a class derived from `Thread`: its body, its members in reverse order, then `join` and the logger of `Thread` (Thread.cpp:23, Thread.hpp:53-54). -/
def derived (body : List (DStep String)) (members : List String) : List (DStep String) :=
  body ++ members.map .kill ++ [.wait, .kill "Thread::log"]

/-- A thread which runs `Thread::run` of a derived class writes to the log before and after it (Thread.cpp:16-18). -/
def thread (pro body : List String) : Worker String := ⟨"Thread::log" :: pro, true, body, ["Thread::log"]⟩

/-- Mouse (src/hal/Mouse.cpp:34-38, 72-106; Mouse.hpp:50-57). -/
def mouse := (thread ["fd"] ["fd", "button_action", "axis_action", "event_action"], derived [.clear, .wait, .kill "fd"] ["axis_action", "button_action", "event_action"])
/-- XBox (src/hal/XBox.cpp:41-45, 78-118). -/
def xbox := (thread ["fd"] ["fd", "button_action", "axis_action", "event_action"], derived [.clear, .wait, .kill "fd"] ["axis_action", "button_action", "event_action"])
/-- Keyboard (src/hal/Keyboard.cpp:14-34): uses only the static list of keys. -/
def keyboard := (thread [] [], derived [.clear, .wait, .kill "terminal"] [])
/-- SpaceNavigator (src/hal/SpaceNavigator.cpp:25-29, 91-160). -/
def spaceNavigator := (thread ["log", "file"] ["file"], derived [.clear, .wait, .kill "file"] ["log"])
/-- BaumerOM70 (src/hal/BaumerOM70.cpp:22-27, 81-87). -/
def baumer := (thread [] ["ctx"], derived [.clear, .wait, .kill "ctx"] ["log"])
/-- RPLidar (src/hal/RPLidar.cpp:51-58, 78-115). -/
def rplidar := (thread [] ["ld"], derived [.clear, .wait, .kill "ld"] ["intensities", "ranges", "angles", "log"])
/-- RealsenseT265 (src/hal/RealsenseT265.cpp:13-44). -/
def realsense := (thread [] ["pipe"], derived [.clear, .wait] ["log", "cfg", "pipe"])
/-- SBGEllipseA (includes/eeros/hal/SBGEllipseA.hpp:65-70, 90-97). -/
def sbg := (thread [] ["comHandle"], derived [.clear, .wait, .kill "comHandle", .kill "sbgInterface"] ["log"])
/-- PixyCam (includes/eeros/hal/PixyCam.hpp:53-57, 117-215). -/
def pixy := (thread [] ["pixy"], derived [.clear, .wait] ["log", "pixy"])
/-- SocketServer and SocketClient (SocketServer.hpp:36-38, 64-140; SocketClient.hpp:31-33, 62-129): the flag is set by `stop`, before. -/
def socket := (thread [] ["mtx", "serverIP"], derived [.wait] ["mtx", "serverIP"])
/-- Async (src/task/Async.cpp:20-36, 38-67; Async.hpp:23-33): the thread is a member, the flag is set by `stop` in line 21. -/
def async : Worker String × List (DStep String) :=
  (⟨["log", "semaphore"], false, ["counter", "semaphore"], ["log"]⟩, [.clear, .wait, .kill "log", .kill "semaphore", .kill "counter"])

/-- TraceWriter (includes/eeros/control/Trace.hpp:107, 112-137) while it has been asked to write. -/
def traceWriter := (thread [] ["log", "name"], derived [.clear] ["log", "name"])
/-- ODriveUSB (includes/eeros/hal/ODriveUSB.hpp:61-73, 479-520). -/
def odriveUSB := (thread ["ep"] ["ep"], derived [.kill "ep", .kill "libusbContext", .clear] ["log", "json"])
/-- ODriveUART (includes/eeros/hal/ODriveUART.hpp:52-64, 186-241). -/
def odriveUART := (thread [] ["ttyFd", "log"], derived [.clear, .kill "ttyFd"] ["log"])
/-- SequencerUI (src/sequencer/SequencerUI.cpp:17-100; SequencerUI.hpp:34-42): the future of `std::async` is declared before `log`, hence its destructor, which waits for the
thread, runs after the end of `log`. -/
def sequencerUI : Worker String × List (DStep String) := (⟨["log"], false, ["log"], ["log"]⟩, [.clear, .kill "log", .wait])

/-- **C233** (classes which `join` in their own destructor): for these classes no member and no resource is used after its end, in any interleaving. -/
theorem joined_safe_partial : ∀ c ∈ [mouse, xbox, keyboard, spaceNavigator, baumer, rplidar, realsense, sbg, pixy, socket, async], Safe c.1 c.2 := by
  intro c hc
  rw [safe_iff]
  have key : ∀ c ∈ [mouse, xbox, keyboard, spaceNavigator, baumer, rplidar, realsense, sbg, pixy, socket, async], ∀ x ∈ before c.2, x = DStep.clear := by decide +kernel
  refine ⟨fun m _ h => ?_, fun m _ h => ?_⟩
  · cases key c hc _ h
  · cases key c hc _ h

/-- **C233 is violated** for every class derived from `Thread` whose destructor does not `join` and whose thread uses a member in its loop: the destructor of `Thread` waits
for the thread only after the end of the members. -/
theorem no_join_violated (b : List (DStep String)) (members pro body : List String) (hb : DStep.wait ∉ b) (m : String) (hm : m ∈ members) (hu : m ∈ body) :
    ¬ Safe (thread pro body) (derived b members) := by
  rw [safe_iff]
  rintro ⟨h, -⟩
  refine h m (Or.inr hu) (mem_before (a := b ++ members.map .kill) (b := [.wait, .kill "Thread::log"]) ?_ ?_)
  · simp [hb]
  · simp [hm]

/-- **C233 is violated**: the writer of traces, both ODrive classes and the socket of the sequencer use members or resources after their end. -/
theorem classes_violated : ∀ c ∈ [traceWriter, odriveUSB, odriveUART, sequencerUI], ¬ Safe c.1 c.2 := by
  intro c hc
  rw [safe_iff]
  have key : ∀ c ∈ [traceWriter, odriveUSB, odriveUART, sequencerUI], ∃ m ∈ c.1.body, DStep.kill m ∈ before c.2 := by decide +kernel
  obtain ⟨m, h1, h2⟩ := key c hc
  rintro ⟨h, -⟩
  exact h m (Or.inr h1) h2

/-- A class derived from `Sequence` with these members, whose `action` and conditions use `used`, while its thread runs (Sequence.cpp:53): the members of the class end first, then those of
`Sequence`, among them the future (Sequence.hpp:90), whose destructor waits for the thread, then those of `BaseSequence` (BaseSequence.hpp:162-186).  The flag stands for the state of the
sequence; nothing in the destructor changes it. -/
def sequence (members used : List String) : Worker String × List (DStep String) :=
  (⟨["mtx", "monitors", "log"], false, used ++ ["monitors", "log"], ["log"]⟩, members.map .kill ++ [.wait] ++ ["mtx", "monitors", "log", "name"].map .kill)

/-- **C233**, violated for every class derived from `Sequence` whose action uses a member of the class, for example a step, if the object ends while the thread runs: this is only excluded by a
`wait` before (C257).  The members of `Sequence` and `BaseSequence` are not concerned. -/
theorem sequence_safe_iff (members used : List String) (hn : ∀ m ∈ members, m ≠ "mtx" ∧ m ≠ "monitors" ∧ m ≠ "log") :
    Safe (sequence members used).1 (sequence members used).2 ↔ ∀ m ∈ used, m ∉ members := by
  have hb : ∀ m, DStep.kill m ∈ before (sequence members used).2 ↔ m ∈ members := by
    intro m
    have : before (sequence members used).2 = members.map .kill := by
      unfold sequence
      induction members with
      | nil => rfl
      | cons a l ih =>
        have := ih (fun x hx => hn x (by simp [hx]))
        simpa [before] using this
    rw [this]
    simp
  rw [safe_iff]
  constructor
  · rintro ⟨h, -⟩ m hm hk
    exact h m (Or.inr (by simp [sequence, hm])) ((hb m).2 hk)
  · intro h
    refine ⟨fun m hm hk => ?_, fun m hm hk => ?_⟩
    · have hk := (hb m).1 hk
      obtain ⟨h1, h2, h3⟩ := hn m hk
      simp only [sequence, List.mem_cons, List.not_mem_nil, or_false, List.mem_append] at hm
      rcases hm with (hm | hm | hm) | hm | hm | hm
      · exact h1 hm
      · exact h2 hm
      · exact h3 hm
      · exact h m hm hk
      · exact h2 hm
      · exact h3 hm
    · have hk := (hb m).1 hk
      obtain ⟨h1, h2, h3⟩ := hn m hk
      simp only [sequence, List.mem_cons, List.not_mem_nil, or_false] at hm
      exact absurd hm h3

example : ¬ Safe (sequence ["stepA"] ["stepA"]).1 (sequence ["stepA"] ["stepA"]).2 := by
  rw [sequence_safe_iff _ _ (by decide)]
  decide
example : Safe (sequence ["unused"] []).1 (sequence ["unused"] []).2 := (sequence_safe_iff _ _ (by decide)).2 (by decide)

/-- `no_join_violated`: the writer of traces. -/
example : ¬ Safe (thread [] ["log", "name"]) (derived [.clear] ["log", "name"]) := no_join_violated _ _ _ _ (by decide) "name" (by decide) (by decide)

/-- An execution of it: the thread enters its loop, the members end, the thread uses both. -/
example : (run traceWriter.1 (start traceWriter.1 traceWriter.2) [false, false, false, true, true, true, false, false]).bad = ["name", "log"] := by decide +kernel

/-- With a `join` in the destructor the writer of traces would be safe. -/
example : Safe traceWriter.1 (derived [.clear, .wait] ["log", "name"]) := by
  rw [safe_iff]
  have key : ∀ x ∈ before (derived [.clear, .wait] ["log", "name"]), x = DStep.clear := by decide +kernel
  exact ⟨fun m _ h => by (cases key _ h), fun m _ h => by (cases key _ h)⟩

end Verif.Core.Teardown
