import Mathlib.Data.List.Perm.Basic
import Mathlib.Data.List.Count
import Mathlib.Tactic.ByContra
/-!
Loggers used by several threads: `Logger::getLogger` (includes/eeros/logger/Logger.hpp:78-81), which writes the category into the static logger and then copies it, and
`StreamLogWriter::end` (src/logger/StreamLogWriter.cpp:82-88), which writes a line to the stream and then to the file.  Neither takes a lock.

A thread has its list of calls; one step is one of the two parts of a call.  Simplified: the insertion of a whole line into a stream is one step; writing one stream from several
threads without a lock is not defined for the file.  All threads use one writer and all their messages are visible (C54).
-/
namespace Verif.Logger.Concurrent

inductive Act (T : Type) where
  | getLogger (c : Nat)
  | message (m : T)

/-- What a thread is doing. -/
inductive Phase (T : Type) where
  | idle
  /-- between Logger.hpp:79 and 80 -/
  | copying (c : Nat)
  /-- between StreamLogWriter.cpp:85 and 86 -/
  | toFile (m : T)

/-- A thread: its remaining calls, and for each logger it got the category it asked for and the category the logger has. -/
structure Th (T : Type) where
  todo : List (Act T)
  phase : Phase T
  loggers : List (Nat × Nat)

/-- The category in the static logger, the threads, and the lines of stream and file with the thread which wrote them. -/
structure St (T : Type) where
  category : Nat
  th : Nat → Th T
  screen : List (Nat × T)
  file : List (Nat × T)

variable {T : Type}

def init (c : Nat) (P : Nat → List (Act T)) : St T := { category := c, th := fun i => ⟨P i, .idle, []⟩, screen := [], file := [] }

/-- Replaces a thread. -/
def upd (f : Nat → Th T) (i : Nat) (t : Th T) : Nat → Th T := fun k => if k = i then t else f k

/-- The next step of thread `i`. -/
def step (s : St T) (i : Nat) : St T :=
  match (s.th i).phase, (s.th i).todo with
  | .copying c, todo => { s with th := upd s.th i ⟨todo, .idle, (s.th i).loggers ++ [(c, s.category)]⟩ }            -- return log;
  | .toFile m, todo => { s with th := upd s.th i ⟨todo, .idle, (s.th i).loggers⟩, file := s.file ++ [(i, m)] }      -- fileOut << os.str();
  | .idle, .getLogger c :: todo => { s with category := c, th := upd s.th i ⟨todo, .copying c, (s.th i).loggers⟩ }  -- log.category = category;
  | .idle, .message m :: todo => { s with th := upd s.th i ⟨todo, .toFile m, (s.th i).loggers⟩, screen := s.screen ++ [(i, m)] }  -- out << os.str();
  | .idle, [] => s

/-- Any interleaving. -/
def exec (s : St T) (sched : List Nat) : St T := sched.foldl step s

/-! ### Properties: C150 -/

/-- The messages of a program. -/
def messages : List (Act T) → List T
  | [] => []
  | .message m :: l => m :: messages l
  | .getLogger _ :: l => messages l

/-- The lines of a thread. -/
def ofThread (i : Nat) (l : List (Nat × T)) : List T := (l.filter (fun x => x.1 = i)).map (·.2)

/-- All calls of a thread have returned. -/
def Finished (s : St T) : Prop := ∀ i, (s.th i).todo = [] ∧ (s.th i).phase = .idle

def pending : Phase T → List T
  | .toFile m => [m]
  | _ => []

structure Inv (P : Nat → List (Act T)) (s : St T) : Prop where
  screen : ∀ i, ofThread i s.screen ++ messages (s.th i).todo = messages (P i)
  file : ∀ i, ofThread i s.file ++ pending (s.th i).phase = ofThread i s.screen

theorem ofThread_append (i j : Nat) (l : List (Nat × T)) (m : T) : ofThread i (l ++ [(j, m)]) = ofThread i l ++ (if j = i then [m] else []) := by
  unfold ofThread
  rw [List.filter_append, List.map_append]
  by_cases h : j = i <;> simp [h]

theorem inv_step {P : Nat → List (Act T)} {s : St T} (h : Inv P s) (j : Nat) : Inv P (step s j) := by
  have hs := h.screen j
  have hf := h.file j
  unfold step
  split
  · next _ _ c hph =>
    constructor
    · intro i
      by_cases hi : i = j
      · subst hi; simpa [upd] using hs
      · simpa [upd, hi] using h.screen i
    · intro i
      by_cases hi : i = j
      · subst hi; rw [hph] at hf; simpa [upd, pending] using hf
      · simpa [upd, hi] using h.file i
  · next _ _ m hph =>
    constructor
    · intro i
      by_cases hi : i = j
      · subst hi; simpa [upd] using hs
      · simpa [upd, hi] using h.screen i
    · intro i
      show ofThread i (s.file ++ [(j, m)]) ++ _ = _
      rw [ofThread_append]
      by_cases hi : i = j
      · subst hi; rw [hph] at hf; simpa [upd, pending] using hf
      · simpa [upd, hi, Ne.symm hi] using h.file i
  · next c todo hph htd =>
    constructor
    · intro i
      by_cases hi : i = j
      · subst hi; rw [htd] at hs; simpa [upd, messages] using hs
      · simpa [upd, hi] using h.screen i
    · intro i
      by_cases hi : i = j
      · subst hi; rw [hph] at hf; simpa [upd, pending] using hf
      · simpa [upd, hi] using h.file i
  · next m todo hph htd =>
    constructor
    · intro i
      show ofThread i (s.screen ++ [(j, m)]) ++ _ = _
      rw [ofThread_append]
      by_cases hi : i = j
      · subst hi; rw [htd] at hs; simpa [upd, messages] using hs
      · simpa [upd, hi, Ne.symm hi] using h.screen i
    · intro i
      show _ = ofThread i (s.screen ++ [(j, m)])
      rw [ofThread_append]
      by_cases hi : i = j
      · subst hi; rw [hph] at hf; simp [pending] at hf; simp [upd, pending, hf]
      · simpa [upd, hi, Ne.symm hi] using h.file i
  · exact h

theorem inv_exec {P : Nat → List (Act T)} (sched : List Nat) : ∀ s : St T, Inv P s → Inv P (exec s sched) := by
  induction sched with
  | nil => intro s h; exact h
  | cons i l ih => intro s h; exact ih _ (inv_step h i)

theorem inv_init (c : Nat) (P : Nat → List (Act T)) : Inv P (init c P) := ⟨fun i => by simp [init, ofThread], fun i => by simp [init, ofThread, pending]⟩

/-- C150: whatever the interleaving, when all threads have returned, stream and file contain all messages of each thread in its order, none twice. -/
theorem lines_complete (c : Nat) (P : Nat → List (Act T)) (sched : List Nat) (hf : Finished (exec (init c P) sched)) (i : Nat) :
    ofThread i (exec (init c P) sched).screen = messages (P i) ∧ ofThread i (exec (init c P) sched).file = messages (P i) := by
  have h := inv_exec sched _ (inv_init c P)
  obtain ⟨h1, h2⟩ := hf i
  have a := h.screen i
  have b := h.file i
  rw [h1] at a
  rw [h2] at b
  simp only [messages, pending, List.append_nil] at a b
  exact ⟨a, b.trans a⟩

/-- C150: at any time a line of the file is also on the screen. -/
theorem file_prefix (c : Nat) (P : Nat → List (Act T)) (sched : List Nat) (i : Nat) :
    ofThread i (exec (init c P) sched).file <+: ofThread i (exec (init c P) sched).screen :=
  ⟨_, (inv_exec sched _ (inv_init c P)).file i⟩

theorem count_ofThread [DecidableEq T] (l : List (Nat × T)) (i : Nat) (m : T) : l.count (i, m) = (ofThread i l).count m := by
  induction l with
  | nil => rfl
  | cons x l ih =>
    obtain ⟨j, n⟩ := x
    by_cases hj : j = i
    · subst hj
      by_cases hn : n = m
      · subst hn; simpa [ofThread] using ih
      · simpa [ofThread, hn] using ih
    · simpa [ofThread, hj] using ih

/-- C150: stream and file contain the same lines, but see `order_violated`. -/
theorem same_lines [DecidableEq T] (c : Nat) (P : Nat → List (Act T)) (sched : List Nat) (hf : Finished (exec (init c P) sched)) :
    (exec (init c P) sched).screen.Perm (exec (init c P) sched).file := by
  rw [List.perm_iff_count]
  intro ⟨i, m⟩
  obtain ⟨h1, h2⟩ := lines_complete c P sched hf i
  rw [count_ofThread, count_ofThread, h1, h2]

/-- C150 violated: with two threads the lines can be in different order on the screen and in the file. -/
theorem order_violated (c : Nat) (P : Nat → List (Act T)) (m1 m2 : T) (h0 : P 0 = [.message m1]) (h1 : P 1 = [.message m2]) :
    ∃ sched, (exec (init c P) sched).screen = [(0, m1), (1, m2)] ∧ (exec (init c P) sched).file = [(1, m2), (0, m1)] :=
  ⟨[0, 1, 1, 0], by simp [exec, step, init, upd, h0, h1], by simp [exec, step, init, upd, h0, h1]⟩

/-- C150 violated: a logger gets the category another thread asked for. -/
theorem category_violated (c0 c1 c2 : Nat) (P : Nat → List (Act T)) (h0 : P 0 = [.getLogger c1]) (h1 : P 1 = [.getLogger c2]) :
    ∃ sched, ((exec (init c0 P) sched).th 0).loggers = [(c1, c2)] :=
  ⟨[0, 1, 0], by simp [exec, step, init, upd, h0, h1]⟩

/-- No two threads are in `getLogger` at the same time. -/
def Exclusive (s : St T) : Prop := ∀ i j c d, (s.th i).phase = .copying c → (s.th j).phase = .copying d → i = j

structure CInv (s : St T) : Prop where
  current : ∀ i c, (s.th i).phase = .copying c → s.category = c
  got : ∀ i x, x ∈ (s.th i).loggers → x.2 = x.1

theorem cinv_step {s : St T} (h : CInv s) (j : Nat) (hex : Exclusive (step s j)) : CInv (step s j) := by
  unfold step at hex ⊢
  split at hex
  · next _ _ c hph =>
    constructor
    · intro i d hi
      by_cases hij : i = j
      · subst hij; simp [upd] at hi
      · simp only [upd, hij, if_false] at hi; exact h.current i d hi
    · intro i x hx
      by_cases hij : i = j
      · subst hij
        simp only [upd, if_true, List.mem_append, List.mem_singleton] at hx
        rcases hx with hx | hx
        · exact h.got i x hx
        · subst hx; exact h.current i c hph
      · simp only [upd, hij, if_false] at hx; exact h.got i x hx
  · next _ _ m hph =>
    constructor
    · intro i d hi
      by_cases hij : i = j
      · subst hij; simp [upd] at hi
      · simp only [upd, hij, if_false] at hi; exact h.current i d hi
    · intro i x hx
      by_cases hij : i = j
      · subst hij; simp only [upd, if_true] at hx; exact h.got i x hx
      · simp only [upd, hij, if_false] at hx; exact h.got i x hx
  · next c todo hph htd =>
    constructor
    · intro i d hi
      by_cases hij : i = j
      · subst hij; simp only [upd, if_true, Phase.copying.injEq] at hi; exact hi
      · exact absurd (hex i j d c hi (by simp [upd])) hij
    · intro i x hx
      by_cases hij : i = j
      · subst hij; simp only [upd, if_true] at hx; exact h.got i x hx
      · simp only [upd, hij, if_false] at hx; exact h.got i x hx
  · next m todo hph htd =>
    constructor
    · intro i d hi
      by_cases hij : i = j
      · subst hij; simp [upd] at hi
      · simp only [upd, hij, if_false] at hi; exact h.current i d hi
    · intro i x hx
      by_cases hij : i = j
      · subst hij; simp only [upd, if_true] at hx; exact h.got i x hx
      · simp only [upd, hij, if_false] at hx; exact h.got i x hx
  · exact h

/-- C150: if the calls of `getLogger` do not overlap, every logger has the category which was asked for; messages may overlap with them. -/
theorem category_partial (c : Nat) (P : Nat → List (Act T)) (sched : List Nat) (hex : ∀ n, Exclusive (exec (init c P) (sched.take n))) (i : Nat) (x : Nat × Nat)
    (hx : x ∈ ((exec (init c P) sched).th i).loggers) : x.2 = x.1 := by
  have key : ∀ n, CInv (exec (init c P) (sched.take n)) := by
    intro n
    induction n with
    | zero => exact ⟨fun i c h => by simp [exec, init] at h, fun i x h => by simp [exec, init] at h⟩
    | succ n ih =>
      by_cases hn : n < sched.length
      · have e : exec (init c P) (sched.take (n + 1)) = step (exec (init c P) (sched.take n)) sched[n] := by
          unfold exec
          rw [List.take_succ_eq_append_getElem hn, List.foldl_append]
          rfl
        have := hex (n + 1)
        rw [e] at this ⊢
        exact cinv_step ih _ this
      · rw [List.take_of_length_le (by omega)] at ih ⊢
        exact ih
  have := (key sched.length).got i x
  rw [List.take_length] at this
  exact this hx

/-- Two threads, each with a logger and a message. -/
def demo : Nat → List (Act Nat) := fun i => if i = 0 then [.getLogger 65, .message 10] else if i = 1 then [.getLogger 66, .message 20] else []

/-- Case of `lines_complete` and `same_lines`: all threads finish. -/
example : Finished (exec (init 0 demo) [0, 0, 1, 0, 1, 1, 0, 1]) := by
  intro i
  by_cases h0 : i = 0
  · subst h0; simp [exec, step, init, upd, demo]
  · by_cases h1 : i = 1
    · subst h1; simp [exec, step, init, upd, demo]
    · simp [exec, step, init, upd, demo, h0, h1]

/-- Case of `category_partial`. -/
example : ((exec (init 0 demo) [0, 0, 0, 1, 1, 0]).th 1).loggers = [(66, 66)] := by simp [exec, step, init, upd, demo]

/-- Case of `order_violated`. -/
example := order_violated 0 (fun i => if i = 0 then [.message 10] else if i = 1 then [.message 20] else []) (10 : Nat) 20 rfl rfl

end Verif.Logger.Concurrent
