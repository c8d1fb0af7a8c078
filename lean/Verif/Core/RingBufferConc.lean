import Verif.Common.Monitor
import Verif.Core.RingBufferProps
/-!
`RingBuffer` (includes/eeros/core/RingBuffer.hpp) used by several threads at once, access by access.  `push` and `pop` hold
the mutex (16, 23); `length` does not (31) and is left out here (`Verif/Control/BlockRaces.lean`, C213).
-/
namespace Verif.Core.RingBufferConc
open Verif.Common.Monitor Verif.Core.RingBuffer

/-- The methods with the mutex. -/
inductive Call (T : Type) where
  | push (v : T)
  | pop
deriving DecidableEq

/-- The local variables: `done`, a `return` was executed; `index`, the index computed in line 18; `got`, the result. -/
structure Loc (T : Type) where
  done : Bool
  index : Nat
  got : Res T

variable {T : Type}

/-- The accesses of `push` (15-20) and `pop` (22-29), one by one. -/
def ring (T : Type) (N : Nat) : Obj (St T) (Call T) (Loc T) (Res T) where
  enter _ := ⟨false, 0, .ub⟩
  body
    | .push v => [
        -- if(len == N) return false;
        fun x => if x.1.len = N then (x.1, { x.2 with done := true, got := .pushed false }) else x,
        -- items[(tail + len++) % N]
        fun x => if x.2.done then x else (x.1, { x.2 with index := (x.1.tail + x.1.len) % N }),
        fun x => if x.2.done then x else ({ x.1 with len := x.1.len + 1 }, x.2),
        -- ... = v;
        fun x => if x.2.done then x else
          ({ x.1 with items := fun i => if i = x.2.index then some v else x.1.items i }, x.2),
        -- return true;
        fun x => if x.2.done then x else (x.1, { x.2 with done := true, got := .pushed true })]
    | .pop => [
        -- if(len == 0) return false;
        fun x => if x.1.len = 0 then (x.1, { x.2 with done := true, got := .empty }) else x,
        -- v = items[tail];  (reading an element which was never written ends everything)
        fun x => if x.2.done then x else match x.1.items x.1.tail with
          | some v => (x.1, { x.2 with got := .popped v })
          | none => (x.1, { x.2 with done := true, got := .ub }),
        -- tail = (tail + 1) % N;
        fun x => if x.2.done then x else ({ x.1 with tail := (x.1.tail + 1) % N }, x.2),
        -- len--;
        fun x => if x.2.done then x else ({ x.1 with len := x.1.len - 1 }, x.2)]
  result _ l := l.got

/-- A call without interruption is the step of the sequential model. -/
theorem call_eq (N : Nat) (s : St T) (c : Call T) : (ring T N).call s c = step N s (match c with
    | .push v => .push v
    | .pop => .pop) := by
  cases c with
  | push v =>
    by_cases h : s.len = N
    · simp [Obj.call, steps, ring, step, h]
    · simp [Obj.call, steps, ring, step, h]
  | pop =>
    by_cases h : s.len = 0
    · simp [Obj.call, steps, ring, step, h]
    · cases hi : s.items s.tail with
      | none => simp [Obj.call, steps, ring, step, h, hi]
      | some v => simp [Obj.call, steps, ring, step, h, hi]

/-! ### Specification: a bounded queue -/

/-- A queue of at most `N` values. -/
def queue (N : Nat) (q : List T) : Call T → List T × Res T
  | .push v => if q.length < N then (q ++ [v], .pushed true) else (q, .pushed false)
  | .pop => match q with
    | [] => ([], .empty)
    | v :: q' => (q', .popped v)

/-- **A ring buffer used by any number of threads is a bounded queue**: in every execution, whatever the threads do and
wherever they are interrupted, the calls take effect one after the other, each between its call and its return, and return
what a queue returns; no element is read before it was written. -/
theorem ring_linearizable {Thr : Type} [DecidableEq Thr] (N : Nat) (hN : 1 ≤ N) (h : List (Ev (Call T) (Res T) Thr))
    (s : Common.Monitor.St (St T) (Call T) (Loc T) (Res T) Thr) (e : Exec (ring T N) RingBuffer.init h s) :
    Linearizable (queue N) [] h := by
  refine linearizable_spec (ring T N) (queue N) (Repr N) ?_ RingBuffer.init [] ?_ h s e
  · intro s q c hr
    rw [call_eq]
    cases c with
    | push v =>
      have := step_refines N hN s q hr (.push v)
      exact ⟨this.2, this.1⟩
    | pop =>
      have := step_refines N hN s q hr .pop
      cases q with
      | nil => exact ⟨this.2, this.1⟩
      | cons v q => exact ⟨this.2, this.1⟩
  · exact ⟨rfl, by simp [RingBuffer.init], by simp [RingBuffer.init]; omega, by simp⟩

/-- What has been taken out of a queue of any capacity is the beginning of what has been put in. -/
def put : List (Call T × Res T) → List T
  | (.push v, .pushed true) :: l => v :: put l
  | _ :: l => put l
  | [] => []

def taken : List (Call T × Res T) → List T
  | (_, .popped v) :: l => v :: taken l
  | _ :: l => taken l
  | [] => []

/-- **First in, first out, for any number of producers and consumers**: there is an order of the calls which respects the
order of calls and returns in which the values taken are the first ones put in, in the same order; at most `N` are left. -/
theorem fifo {Thr : Type} [DecidableEq Thr] (N : Nat) (hN : 1 ≤ N) (h : List (Ev (Call T) (Res T) Thr))
    (s : Common.Monitor.St (St T) (Call T) (Loc T) (Res T) Thr) (e : Exec (ring T N) RingBuffer.init h s) :
    ∃ l : List (Pt (Call T) (Res T) Thr), observed l = h ∧ (∀ t, ∃ d, Proper t .nothing l d) ∧
      ∃ rest, put (effects l) = taken (effects l) ++ rest ∧ rest.length ≤ N := by
  obtain ⟨l, h1, h2, h3⟩ := ring_linearizable N hN h s e
  refine ⟨l, h1, h3, ?_⟩
  clear h1 h3 e
  have key : ∀ (a : List (Call T × Res T)) (q : List T), q.length ≤ N → Legal (queue N) q a →
      ∃ rest, q ++ put a = taken a ++ rest ∧ rest.length ≤ N := by
    intro a
    induction a with
    | nil => intro q hq _; exact ⟨q, by simp [put, taken], hq⟩
    | cons x a ih =>
      intro q hq hl
      obtain ⟨c, r⟩ := x
      obtain ⟨k1, k2⟩ := hl
      cases c with
      | push v =>
        simp only [queue] at k1 k2
        split at k1
        · subst k1
          rename_i hlt
          rw [if_pos hlt] at k2
          obtain ⟨rest, e1, e2⟩ := ih (q ++ [v]) (by simp; omega) k2
          exact ⟨rest, by simpa [put, taken] using e1, e2⟩
        · subst k1
          rename_i hlt
          rw [if_neg hlt] at k2
          obtain ⟨rest, e1, e2⟩ := ih q hq k2
          exact ⟨rest, by simpa [put, taken] using e1, e2⟩
      | pop =>
        cases q with
        | nil =>
          simp only [queue] at k1 k2
          subst k1
          obtain ⟨rest, e1, e2⟩ := ih [] hq k2
          exact ⟨rest, by simpa [put, taken] using e1, e2⟩
        | cons v q =>
          simp only [queue] at k1 k2
          subst k1
          obtain ⟨rest, e1, e2⟩ := ih q (by simp at hq; omega) k2
          exact ⟨rest, by simpa [put, taken] using e1, e2⟩
  simpa using key (effects l) [] (by simp) h2

/-! ### A concrete case -/

/-- Thread 0 pushes 7 into a buffer with one place; thread 1 calls `pop` while thread 0 is in the middle of it, waits for
the mutex and gets the value. -/
example : ∃ s, Exec (T := Nat) (ring Nat 1) RingBuffer.init
    [.call 0 (.push 7), .call 1 .pop, .ret 1 .pop (.popped 7), .ret 0 (.push 7) (.pushed true)] s := by
  have e := Exec.init (T := Nat) (o := ring Nat 1) (s₀ := RingBuffer.init)
  have e := e.call 0 (.push 7) rfl
  have e := e.lock 0 (.push 7) rfl rfl
  have e := e.step 0 _ _ _ _ rfl
  have e := e.step 0 _ _ _ _ rfl
  have e := e.call 1 .pop rfl
  have e := e.step 0 _ _ _ _ rfl
  have e := e.step 0 _ _ _ _ rfl
  have e := e.step 0 _ _ _ _ rfl
  have e := e.unlock 0 _ _ rfl
  have e := e.lock 1 .pop rfl rfl
  have e := e.step 1 _ _ _ _ rfl
  have e := e.step 1 _ _ _ _ rfl
  have e := e.step 1 _ _ _ _ rfl
  have e := e.step 1 _ _ _ _ rfl
  have e := e.unlock 1 _ _ rfl
  have e := e.ret 1 _ _ rfl
  have e := e.ret 0 _ _ rfl
  exact ⟨_, e⟩

end Verif.Core.RingBufferConc
