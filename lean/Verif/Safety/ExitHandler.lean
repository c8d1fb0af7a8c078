import Verif.Common.SignalLocks
import Mathlib.Data.Fintype.Fin
/-!
`SafetySystem::exitHandler` (src/safety/SafetySystem.cpp:125-128) called from a signal handler, as its comment recommends (includes/eeros/safety/SafetySystem.hpp:57-60) and as
the programs under examples/ do (C255).

A signal interrupts any thread of the program at any place.  Locks: `mtx` of the safety system (SafetySystem.cpp:55, 63) and the one inside of the memory allocator
(`heap`; the standard does not allow to call the allocator in a signal handler for this reason).  Memory is allocated for the events, which are passed by value and contain a
`std::string` (SafetySystem.hpp:42, SafetyLevel.hpp:47, 102), for messages of the logger, and for the copy of the list in `Sequencer::abort` (src/sequencer/Sequencer.cpp:73).  Simplified:
one allocation stands for several in a row; one allocator lock for all threads; the locks of the output streams are left out.
-/
namespace Verif.Safety.ExitHandler
open Verif.Common.SignalLocks Act

inductive Lock where
  | mtx | heap
deriving DecidableEq

/-- An allocation. -/
def alloc : List (Act Lock) := [acq .heap, rel .heap]

/-- `triggerEvent` (SafetySystem.cpp:49-71): the copies of the event, then with a transition for the event (`hit`) the mutex (55-63), then the message (64, 66). -/
def trigger (hit : Bool) : List (Act Lock) := alloc ++ alloc ++ (if hit then [acq .mtx, work, rel .mtx] else []) ++ alloc

/-- What threads do: they trigger events, allocate memory and do other things, in any order and for any time. -/
inductive Prog : List (Act Lock) → Prop
  | nil : Prog []
  | work (p) : Prog p → Prog (work :: p)
  | alloc (p) : Prog p → Prog (alloc ++ p)
  | trigger (b p) : Prog p → Prog (trigger b ++ p)

/-- The signal handler: `exitFunction` triggers the events `es` (true: there is a transition); then `Sequencer::abort` if `seq` (examples/system/MockRobotExample.cpp:21-24). -/
def handler (es : List Bool) (seq : Bool) : List (Act Lock) := es.flatMap trigger ++ if seq then alloc else []

/-- No restriction on signals: this is what the examples do. -/
def anywhere {T : Type} (_ : St Lock T) (_ : T) : Prop := True
/-- Signals arrive only in threads which hold no lock, for example because they are blocked in all threads but one which waits for them. -/
def unlocked {T : Type} (s : St Lock T) (t : T) : Prop := s.heldM t = []

variable {T : Type} [DecidableEq T]

theorem handler_takes_mtx (es : List Bool) (seq : Bool) (h : true ∈ es) : acq .mtx ∈ handler es seq := by
  unfold handler
  rw [List.mem_append, List.mem_flatMap]
  exact Or.inl ⟨true, h, by simp [trigger]⟩

theorem handler_takes_heap (es : List Bool) (seq : Bool) (h : es ≠ [] ∨ seq = true) : acq .heap ∈ handler es seq := by
  unfold handler
  rw [List.mem_append, List.mem_flatMap]
  rcases h with h | h
  · obtain ⟨b, hb⟩ := List.exists_mem_of_ne_nil es h
    exact Or.inl ⟨b, hb, by simp [trigger, alloc]⟩
  · subst h; exact Or.inr (by simp [alloc])

/-- **C255 is violated: the mutex of the safety system.** If the signal arrives in a thread which is just changing the next level (it holds `mtx`), and the exit function triggers
an event, then, whatever all threads do afterwards: the handler never returns, the thread stays where it is, `mtx` stays locked and no other thread gets it.  No event can change the level
any more: neither this exit nor any critical input. -/
theorem exit_locks_safety_violated (es : List Bool) (seq : Bool) (he : true ∈ es) (s : St Lock T) (t : T) (hm : .mtx ∈ s.heldM t) (_hn : s.hand t = none)
    (s' : St Lock T) (hr : Reach (Step Prog (handler es seq) anywhere) { s with hand := upd s.hand t (some (handler es seq)) } s') :
    s'.hand t ≠ none ∧ s'.main t = s.main t ∧ .mtx ∈ s'.heldM t ∧ ∀ u, Holds s' u .mtx → Holds s u .mtx := by
  have h0 : SelfLock { s with hand := upd s.hand t (some (handler es seq)) } t Lock.mtx :=
    ⟨hm, _, upd_same _ _ _, handler_takes_mtx es seq he⟩
  obtain ⟨⟨g1, p, g2, -⟩, g3, g4⟩ := selfLock_forever h0 hr
  exact ⟨by rw [g2]; simp, g3, g1, g4⟩

/-- **C255 is violated: the allocator.** If the signal arrives in a thread which is just allocating memory, the handler never returns either, and no other thread gets memory any more. -/
theorem exit_locks_heap_violated (es : List Bool) (seq : Bool) (he : es ≠ [] ∨ seq = true) (s : St Lock T) (t : T) (hm : .heap ∈ s.heldM t) (_hn : s.hand t = none)
    (s' : St Lock T) (hr : Reach (Step Prog (handler es seq) anywhere) { s with hand := upd s.hand t (some (handler es seq)) } s') :
    s'.hand t ≠ none ∧ s'.main t = s.main t ∧ .heap ∈ s'.heldM t ∧ ∀ u, Holds s' u .heap → Holds s u .heap := by
  have h0 : SelfLock { s with hand := upd s.hand t (some (handler es seq)) } t Lock.heap :=
    ⟨hm, _, upd_same _ _ _, handler_takes_heap es seq he⟩
  obtain ⟨⟨g1, p, g2, -⟩, g3, g4⟩ := selfLock_forever h0 hr
  exact ⟨by rw [g2]; simp, g3, g1, g4⟩

/-! ### Signals in threads without locks -/

/-- No program holds one lock while it takes the other. -/
def rank : Lock → Nat
  | .mtx => 0
  | .heap => 1

omit [DecidableEq T] in
theorem ordered_append {p q : List (Act Lock)} : ∀ {held : List Lock}, Ordered rank [] held p → Ordered rank [] [] q → Ordered rank [] held (p ++ q) := by
  induction p with
  | nil => intro held h hq; have h0 : held = [] := h; subst h0; exact hq
  | cons a p ih =>
    intro held h hq
    cases a with
    | acq l => exact ⟨h.1, ih h.2 hq⟩
    | rel l => exact ⟨h.1, ih h.2 hq⟩
    | work => exact ih (held := held) h hq

omit [DecidableEq T] in
theorem ordered_alloc : Ordered rank [] [] alloc := ⟨by simp, by simp, rfl⟩

omit [DecidableEq T] in
theorem ordered_trigger (b : Bool) : Ordered rank [] [] (trigger b) := by
  unfold trigger
  refine ordered_append (ordered_append (ordered_append ordered_alloc ordered_alloc) ?_) ordered_alloc
  cases b
  · rfl
  · exact ⟨by simp, by simp, rfl⟩

omit [DecidableEq T] in
theorem ordered_prog {p : List (Act Lock)} (h : Prog p) : Ordered rank [] [] p := by
  induction h with
  | nil => rfl
  | work p _ ih => exact ih
  | alloc p _ ih => exact ordered_append ordered_alloc ih
  | trigger b p _ ih => exact ordered_append (ordered_trigger b) ih

omit [DecidableEq T] in
theorem ordered_handler (es : List Bool) (seq : Bool) : Ordered rank [] [] (handler es seq) := by
  unfold handler
  refine ordered_append ?_ ?_
  · induction es with
    | nil => rfl
    | cons b es ih => exact ordered_append (ordered_trigger b) ih
  · cases seq
    · rfl
    · exact ordered_alloc

theorem reach_below {es : List Bool} {seq : Bool} {s s' : St Lock T} (h : Reach (Step Prog (handler es seq) unlocked) s s') :
    Reach (Step Prog (handler es seq) (Below rank (handler es seq))) s s' := by
  induction h with
  | refl => exact .refl
  | tail a b _ hs ih =>
    refine .tail a b ih ?_
    cases hs with
    | inner _ hi => exact .inner _ _ hi
    | «begin» t p h1 h2 h3 => exact .begin _ t p h1 h2 h3
    | signal t h1 h2 =>
      refine .signal _ t h1 (fun k hk => ?_)
      have h0 : a.heldM t = [] := h2
      rw [h0] at hk; simp at hk

/-- **C255, as far as it holds.** If signals arrive only in threads which hold no lock, every handler returns and every thread goes on: in every reachable state the threads end what they do after a
bounded number of steps, and there is no state in which they wait for each other. -/
theorem exit_returns_partial [Fintype T] (es : List Bool) (seq : Bool) (s : St Lock T) (hr : Reach (Step Prog (handler es seq) unlocked) idle s) :
    ∀ n s', Run n s s' → n ≤ left s ∧ ((¬ ∃ s'', Inner s' s'') → ∀ t, s'.hand t = none ∧ s'.main t = []) :=
  fun _ _ hrun => all_return (inv_reach (fun _ => ordered_prog) (ordered_handler es seq) (reach_below hr)) hrun

/-! ### Cases -/

/-- Two threads; thread 0 is inside of the mutex when the signal arrives. -/
def inMutex : St Lock (Fin 2) :=
  ⟨upd (fun _ => []) 0 ([work, rel .mtx] ++ alloc), upd (fun _ => []) 0 [.mtx], fun _ => none, fun _ => []⟩

omit [DecidableEq T] in
theorem inner_reach {R : St Lock T → St Lock T → Prop} {a b c : St Lock T} (h : Reach R a b) (hs : R b c) : Reach R a c := .tail _ _ h hs

/-- It can be reached from a program in which nobody does anything. -/
example : ∃ s : St Lock (Fin 2), Reach (Step Prog (handler [true] true) anywhere) idle s ∧ .mtx ∈ s.heldM 0 ∧ s.hand 0 = none := by
  have b : Step Prog (handler [true] true) anywhere (idle : St Lock (Fin 2)) { (idle : St Lock (Fin 2)) with main := upd (fun _ => []) 0 (trigger true ++ []) } :=
    .begin _ 0 _ rfl rfl (.trigger true [] .nil)
  refine ⟨_, inner_reach (inner_reach (inner_reach (inner_reach (inner_reach (inner_reach .refl b)
    (.inner _ _ (.acqM _ 0 .heap _ rfl rfl ?_))) (.inner _ _ (.relM _ 0 .heap _ rfl rfl)))
    (.inner _ _ (.acqM _ 0 .heap _ rfl rfl ?_))) (.inner _ _ (.relM _ 0 .heap _ rfl rfl)))
    (.inner _ _ (.acqM _ 0 .mtx _ rfl rfl ?_)), ?_, rfl⟩
  · intro t h; simp [Holds, idle] at h
  · intro t h; simp [Holds, idle, upd] at h
  · intro t h; simp [Holds, idle, upd] at h; simp [h.1] at h
  · simp [upd, idle]

/-- The theorem of the mutex applies to it. -/
example (s' : St Lock (Fin 2)) (hr : Reach (Step Prog (handler [true] true) anywhere) { inMutex with hand := upd inMutex.hand 0 (some (handler [true] true)) } s') :
    s'.hand 0 ≠ none := (exit_locks_safety_violated [true] true (by simp) inMutex 0 (by simp [inMutex, upd]) rfl s' hr).1

example (s' : St Lock (Fin 2)) (s : St Lock (Fin 2)) (h : .heap ∈ s.heldM 1) (hn : s.hand 1 = none)
    (hr : Reach (Step Prog (handler [] true) anywhere) { s with hand := upd s.hand 1 (some (handler [] true)) } s') : s'.hand 1 ≠ none :=
  (exit_locks_heap_violated [] true (Or.inr rfl) s 1 h hn s' hr).1

/-- A signal in a thread without locks. -/
example (n : Nat) (s' : St Lock (Fin 2)) (hr : Run n { (idle : St Lock (Fin 2)) with hand := upd (fun _ => none) 1 (some (handler [true, false] true)) } s') :
    (¬ ∃ s'', Inner s' s'') → ∀ t, s'.hand t = none ∧ s'.main t = [] :=
  (exit_returns_partial [true, false] true _ (.tail _ _ .refl (.signal _ 1 rfl rfl)) n s' hr).2

/-! ### The life of the safety system -/

/-- What a program does with safety systems; `created`: a constructor which returned (the object gets the next number); `exitFn`: whether its properties have an exit function
(`std::function`, empty unless assigned, includes/eeros/safety/SafetyProperties.hpp:33). -/
inductive Op where
  | created (exitFn : Bool)
  | failed
  | destroyed (n : Nat)
deriving DecidableEq

/-- `instance` (SafetySystem.cpp:8, 21) and the objects which exist, with their exit functions. -/
structure Life where
  inst : Option Nat
  alive : List (Nat × Bool)
  count : Nat

def begin_ : Life := ⟨none, [], 0⟩

/-- The constructor sets `instance` at its end (21); the destructor (24-26) leaves it. -/
def op (s : Life) : Op → Life
  | .created f => ⟨some s.count, (s.count, f) :: s.alive, s.count + 1⟩
  | .failed => s
  | .destroyed n => { s with alive := s.alive.filter (fun o => o.1 ≠ n) }

def life (l : List Op) : Life := l.foldl op begin_

inductive Exit where
  /-- nothing happens -/
  | nothing
  /-- the exit function of this safety system is called -/
  | calls (n : Nat)
  /-- `std::bad_function_call` leaves the handler: the program is terminated -/
  | throws
  /-- a destroyed object is used -/
  | ub
deriving DecidableEq

/-- `exitHandler` (125-128). -/
def exit (s : Life) : Exit :=
  match s.inst with
  | none => .nothing
  | some n => match s.alive.find? (fun o => o.1 = n) with
    | none => .ub
    | some (_, true) => .calls n
    | some (_, false) => .throws

theorem life_snoc (l : List Op) (o : Op) : life (l ++ [o]) = op (life l) o := by simp [life, List.foldl_append]

theorem life_inv (l : List Op) : (∀ o ∈ (life l).alive, o.1 < (life l).count) ∧ ∀ n, (life l).inst = some n → n < (life l).count := by
  induction l using List.reverseRecOn with
  | nil => simp [life, begin_]
  | append_singleton l o ih =>
    rw [life_snoc]
    cases o with
    | created f =>
      refine ⟨?_, by simp [op]⟩
      simp only [op, List.mem_cons]
      rintro x (rfl | hx)
      · simp
      · have := ih.1 x hx; omega
    | failed => exact ih
    | destroyed n =>
      refine ⟨fun x hx => ih.1 x (List.mem_of_mem_filter hx), ih.2⟩

/-- Creations after which nothing has been created. -/
def quiet (l : List Op) : Prop := ∀ f, Op.created f ∉ l

theorem inst_quiet (l m : List Op) (hq : quiet m) : (life (l ++ m)).inst = (life l).inst ∧ (life (l ++ m)).count = (life l).count ∧
    ∀ n, ((life (l ++ m)).alive.find? (fun o => o.1 = n)) = if Op.destroyed n ∈ m then none else (life l).alive.find? (fun o => o.1 = n) := by
  induction m using List.reverseRecOn with
  | nil => simp
  | append_singleton m o ih =>
    have hq' : quiet m := fun f hf => hq f (by simp [hf])
    obtain ⟨h1, h2, h3⟩ := ih hq'
    rw [← List.append_assoc, life_snoc]
    cases o with
    | created f => exact absurd (by simp) (hq f)
    | failed => refine ⟨h1, h2, fun n => ?_⟩; rw [show op (life (l ++ m)) .failed = life (l ++ m) from rfl, h3]; simp
    | destroyed k =>
      refine ⟨h1, h2, fun n => ?_⟩
      by_cases hn : n = k
      · subst hn
        have : Op.destroyed n ∈ m ++ [.destroyed n] := by simp
        rw [if_pos this, List.find?_eq_none]
        intro x hx
        have := (List.mem_filter.1 hx).2
        simpa using this
      · have hmem : (Op.destroyed n ∈ m ++ [.destroyed k]) ↔ Op.destroyed n ∈ m := by simp [hn]
        simp only [hmem]
        rw [← h3 n]
        show (List.filter _ (life (l ++ m)).alive).find? _ = _
        rw [List.find?_filter]
        congr 1
        funext x
        by_cases hx : x.1 = n
        · subst hx; simp [hn]
        · simp [hx]

/-- **C255, life.** Before a safety system has been created the handler does nothing.  Afterwards it concerns the one created last: as long as it exists its exit function is called, and if it has none
the program is terminated by an exception. -/
theorem exit_alive_partial (l m : List Op) (f : Bool) (hq : quiet m) (hd : Op.destroyed (life l).count ∉ m) :
    exit (life (l ++ .created f :: m)) = if f then .calls (life l).count else .throws := by
  have e : l ++ .created f :: m = (l ++ [.created f]) ++ m := by simp
  obtain ⟨h1, -, h3⟩ := inst_quiet (l ++ [.created f]) m hq
  rw [e]
  unfold exit
  rw [h1, life_snoc]
  simp only [op]
  rw [h3, if_neg hd, life_snoc]
  cases f <;> simp [op]

theorem exit_before (l : List Op) (hq : quiet l) : exit (life l) = .nothing := by
  have h := (inst_quiet [] l hq).1
  simp only [List.nil_append] at h
  unfold exit; rw [h]; rfl

/-- **C255 is violated: after the safety system.** Once the safety system created last is destroyed (at the end of `main`, where it is a local variable) a signal makes the handler use it, until another one
is created. -/
theorem exit_after_end_violated (l m : List Op) (f : Bool) (hq : quiet m) (hd : Op.destroyed (life l).count ∈ m) : exit (life (l ++ .created f :: m)) = .ub := by
  have e : l ++ .created f :: m = (l ++ [.created f]) ++ m := by simp
  obtain ⟨h1, -, h3⟩ := inst_quiet (l ++ [.created f]) m hq
  rw [e]
  unfold exit
  rw [h1, life_snoc]
  simp only [op]
  rw [h3, if_pos hd]

/-- The programs examples/block/sensor/BaumerOM70Test.cpp, RealsenseT265Test.cpp, RPLidarTest.cpp, PixyCamTest.cpp and examples/block/drive/ODriveUSBTest.cpp set no exit function. -/
example : exit (life [.created false]) = .throws := exit_alive_partial [] [] false (by simp [quiet]) (by simp)
/-- examples/system/MockRobotExample.cpp, during and after `main`. -/
example : exit (life [.created true]) = .calls 0 ∧ exit (life [.created true, .destroyed 0]) = .ub ∧ exit (life [.failed]) = .nothing :=
  ⟨exit_alive_partial [] [] true (by simp [quiet]) (by simp), exit_after_end_violated [] [.destroyed 0] true (by simp [quiet]) (by simp [life, begin_]),
    exit_before [.failed] (by simp [quiet])⟩

end Verif.Safety.ExitHandler
