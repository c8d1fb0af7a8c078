import Mathlib.Data.List.Basic
import Mathlib.Data.List.Nodup
import Mathlib.Data.List.Induction
import Mathlib.Tactic.Common

/-!
# Blocks which are added to and removed from a running time domain

`/repo/includes/eeros/control/TimeDomain.hpp:19-20` promises: "Blocks can be freely added and removed. A removed
block will no longer be run." The time domain keeps raw pointers in a `std::list<Runnable*>` (line 127) and
`/repo/src/control/TimeDomain.cpp:28` runs `for(auto block : blocks) block->run();` without any lock, whereas
`addBlock` and `removeBlock` (lines 50-64) change the list at once. The range-for holds an iterator, that is a
pointer to a node of the list. `std::list::push_back` keeps iterators valid, `std::list::remove` frees the nodes it
takes out, and an iterator at such a node may neither be read nor incremented any more.

The model keeps the nodes of the list with their identities. The steps of the loop are interleaved with operations
on the list, done by another thread or by `run()` of a block itself. Simplified: every operation on the list is one
step (the code has no lock, so that in truth two threads race already inside `push_back`; everything shown to be
wrong here is wrong even if the operations were made atomic), a block is a number, and of its `run()` only begin and
end are seen.
-/

namespace Verif.Control.DynBlocks

/-- A block, the object behind a `Runnable*`. -/
abbrev Block := Nat

/-- Where the thread which runs the time domain stands in `TimeDomain::run`
(`/repo/src/control/TimeDomain.cpp:25-40`). -/
inductive Pc where
  /-- outside of `run()` -/
  | idle
  /-- line 28, the iterator is at a node and is going to be read (`auto block = *it`) -/
  | load (node : Nat)
  /-- line 28, the pointer was read, `block->run()` is going to be called -/
  | call (node : Nat) (b : Block)
  /-- line 28, within `block->run()`, afterwards the iterator is incremented -/
  | inside (node : Nat) (b : Block)
  /-- freed memory was read or a method of a destroyed object was called -/
  | ub
deriving DecidableEq, Repr

/-- `TimeDomain` (`/repo/includes/eeros/control/TimeDomain.hpp:123-129`): the nodes of `blocks` with the block each
holds, `running`; further the number of nodes allocated so far, the blocks which were destroyed, the place of the
running thread and the calls of `run()` so far. -/
structure St where
  nodes : List (Nat × Block)
  fresh : Nat
  running : Bool
  dead : List Block
  pc : Pc
  ran : List Block
deriving DecidableEq, Repr

/-- After construction (`/repo/src/control/TimeDomain.cpp:5-6`, `running = true` in `TimeDomain.hpp:126`). -/
def init : St := ⟨[], 0, true, [], .idle, []⟩

/-- Steps: of the running thread (`tick`, and `fault` if the called block throws), and of the users of the time
domain and of its blocks. -/
inductive Act where
  | tick
  | fault
  | add (b : Block)
  | remove (b : Block)
  | start
  | stop
  | destroy (b : Block)
deriving DecidableEq, Repr

/-- The block held by a node of the list, if the node still exists. -/
def at? (n : Nat) : List (Nat × Block) → Option Block
  | [] => none
  | (m, b) :: l => if m = n then some b else at? n l

/-- `++it`: `none` if the node does not exist any more, `some none` at the end of the list, otherwise the identity
of the next node. -/
def next? (n : Nat) : List (Nat × Block) → Option (Option Nat)
  | [] => none
  | (m, _) :: l => if m = n then some (l.head?.map Prod.fst) else next? n l

/-- One step of the loop in `TimeDomain::run` (`/repo/src/control/TimeDomain.cpp:25-28`). -/
def tick (s : St) : St :=
  match s.pc with
  | .idle => if s.running then match s.nodes.head? with
      | none => s
      | some x => { s with pc := .load x.1 }
    else s
  | .load n => match at? n s.nodes with
    | none => { s with pc := .ub }
    | some b => { s with pc := .call n b }
  | .call n b => if b ∈ s.dead then { s with pc := .ub } else { s with pc := .inside n b, ran := s.ran ++ [b] }
  | .inside n _ => match next? n s.nodes with
    | none => { s with pc := .ub }
    | some none => { s with pc := .idle }
    | some (some m) => { s with pc := .load m }
  | .ub => s

/-- The step relation as a function. `fault`: the block throws, the loop is left by the exception
(`/repo/src/control/TimeDomain.cpp:29-39`). `add`, `remove`: lines 50-64. `start`, `stop`: lines 42-48. `destroy`: the
destructor of a block; no destructor of the framework takes the block out of a time domain. -/
def step (s : St) : Act → St
  | .tick => tick s
  | .fault => match s.pc with
    | .inside _ _ => { s with pc := .idle }
    | _ => s
  | .add b => { s with nodes := s.nodes ++ [(s.fresh, b)], fresh := s.fresh + 1 }
  | .remove b => { s with nodes := s.nodes.filter (fun x => decide (x.2 ≠ b)) }
  | .start => { s with running := true }
  | .stop => { s with running := false }
  | .destroy b => { s with dead := b :: s.dead }

def exec (s : St) (acts : List Act) : St := acts.foldl step s

/-- States which occur. -/
def Reach (s : St) : Prop := ∃ acts, exec init acts = s

/-- The blocks of the list in order. -/
def St.blocks (s : St) : List Block := s.nodes.map Prod.snd

/-! ## Specification -/

/-- An operation of a user, as opposed to a step of the running thread. -/
def Act.user : Act → Prop
  | .tick => False
  | .fault => False
  | _ => True

/-- The block a thread in the loop stands at. -/
def Pc.block : Pc → Option Block
  | .call _ b => some b
  | .inside _ b => some b
  | _ => none

/-! ## Lemmas -/

theorem exec_append (s : St) (a b : List Act) : exec s (a ++ b) = exec (exec s a) b := by
  simp [exec]

theorem exec_snoc (s : St) (a : List Act) (x : Act) : exec s (a ++ [x]) = step (exec s a) x := by
  simp [exec]

theorem at?_mem {n : Nat} {l : List (Nat × Block)} {b : Block} (h : at? n l = some b) : (n, b) ∈ l := by
  induction l with
  | nil => simp [at?] at h
  | cons x l ih =>
    obtain ⟨m, c⟩ := x
    simp only [at?] at h
    split at h
    · rename_i e; subst e; cases h; simp
    · exact List.mem_cons_of_mem _ (ih h)

theorem at?_some {n : Nat} {l : List (Nat × Block)} (h : n ∈ l.map Prod.fst) : ∃ b, at? n l = some b := by
  induction l with
  | nil => simp at h
  | cons x l ih =>
    obtain ⟨m, c⟩ := x
    by_cases e : m = n
    · exact ⟨c, by simp [at?, e]⟩
    · have : n ∈ l.map Prod.fst := by
        simp only [List.map_cons, List.mem_cons] at h
        rcases h with h | h
        · exact absurd h.symm e
        · exact h
      obtain ⟨b, hb⟩ := ih this
      exact ⟨b, by simp [at?, e, hb]⟩

theorem next?_none {n : Nat} {l : List (Nat × Block)} : next? n l = none ↔ n ∉ l.map Prod.fst := by
  induction l with
  | nil => simp [next?]
  | cons x l ih =>
    obtain ⟨m, c⟩ := x
    by_cases e : m = n
    · simp [next?, e]
    · simp only [next?, if_neg e, ih, List.map_cons, List.mem_cons]
      constructor
      · intro h h'; rcases h' with h' | h'
        · exact e h'.symm
        · exact h h'
      · intro h h'; exact h (Or.inr h')

theorem next?_mem {n m : Nat} {l : List (Nat × Block)} (h : next? n l = some (some m)) : m ∈ l.map Prod.fst := by
  induction l with
  | nil => simp [next?] at h
  | cons x l ih =>
    obtain ⟨k, c⟩ := x
    by_cases e : k = n
    · simp only [next?, if_pos e, Option.some.injEq, Option.map_eq_some_iff] at h
      obtain ⟨y, hy, rfl⟩ := h
      have := List.mem_of_mem_head? hy
      exact List.mem_cons_of_mem _ (List.mem_map.2 ⟨y, this, rfl⟩)
    · simp only [next?, if_neg e] at h
      exact List.mem_cons_of_mem _ (ih h)

/-- The nodes have distinct identities, all allocated before; a thread at a block stands at a node which, if it still
exists, holds that block. -/
structure Inv (s : St) : Prop where
  nodup : (s.nodes.map Prod.fst).Nodup
  lt : ∀ x ∈ s.nodes, x.1 < s.fresh
  pcLt : ∀ n, (s.pc = .load n ∨ ∃ b, s.pc = .call n b ∨ s.pc = .inside n b) → n < s.fresh
  holds : ∀ n b, (s.pc = .call n b ∨ s.pc = .inside n b) → ∀ c, (n, c) ∈ s.nodes → c = b

theorem inv_init : Inv init := ⟨by simp [init], by simp [init], by simp [init], by simp [init]⟩

theorem unique {l : List (Nat × Block)} (h : (l.map Prod.fst).Nodup) {n : Nat} {b c : Block}
    (hb : (n, b) ∈ l) (hc : (n, c) ∈ l) : c = b := by
  have := List.inj_on_of_nodup_map h hb hc rfl
  simpa using this.symm

theorem inv_step {s : St} (h : Inv s) (a : Act) : Inv (step s a) := by
  cases a with
  | tick =>
    simp only [step, tick]
    split
    · split
      · split
        · exact h
        · rename_i x hx
          have hm := List.mem_of_mem_head? hx
          refine ⟨h.nodup, h.lt, ?_, by simp⟩
          simp only [Pc.load.injEq, reduceCtorEq, or_self, exists_false, or_false]
          rintro n rfl; exact h.lt _ hm
      · exact h
    · rename_i n hpc
      split
      · exact ⟨h.nodup, h.lt, by simp, by simp⟩
      · rename_i b hb
        have hm := at?_mem hb
        refine ⟨h.nodup, h.lt, ?_, ?_⟩
        · simp only [reduceCtorEq, Pc.call.injEq, or_false, false_or]
          rintro k ⟨c, rfl, rfl⟩; exact h.lt _ hm
        · simp only [reduceCtorEq, Pc.call.injEq, or_false]
          rintro k c ⟨rfl, rfl⟩ d hd; exact unique h.nodup hm hd
    · rename_i n b hpc
      split
      · exact ⟨h.nodup, h.lt, by simp, by simp⟩
      · refine ⟨h.nodup, h.lt, ?_, ?_⟩
        · simp only [reduceCtorEq, Pc.inside.injEq, false_or]
          rintro k ⟨c, rfl, rfl⟩; exact h.pcLt _ (Or.inr ⟨_, Or.inl hpc⟩)
        · simp only [reduceCtorEq, Pc.inside.injEq, false_or]
          rintro k c ⟨rfl, rfl⟩; exact h.holds _ _ (Or.inl hpc)
    · rename_i n b hpc
      split
      · exact ⟨h.nodup, h.lt, by simp, by simp⟩
      · exact ⟨h.nodup, h.lt, by simp, by simp⟩
      · rename_i m hm
        have := next?_mem hm
        refine ⟨h.nodup, h.lt, ?_, by simp⟩
        simp only [Pc.load.injEq, reduceCtorEq, or_self, exists_false, or_false]
        rintro k rfl
        obtain ⟨x, hx, rfl⟩ := List.mem_map.1 this
        exact h.lt _ hx
    · exact h
  | fault =>
    simp only [step]
    split
    · exact ⟨h.nodup, h.lt, by simp, by simp⟩
    · exact h
  | add b =>
    refine ⟨?_, ?_, ?_, ?_⟩
    · simp only [step, List.map_append, List.map_cons, List.map_nil]
      rw [List.nodup_append]
      refine ⟨h.nodup, by simp, ?_⟩
      intro a ha c hc e
      simp only [List.mem_singleton] at hc
      obtain ⟨x, hx, rfl⟩ := List.mem_map.1 ha
      have := h.lt x hx
      omega
    · intro x hx
      simp only [step, List.mem_append, List.mem_singleton] at hx ⊢
      rcases hx with hx | rfl
      · have := h.lt x hx; omega
      · simp
    · intro n hn
      have := h.pcLt n hn
      simp only [step]; omega
    · intro n c hn d hd
      simp only [step, List.mem_append, List.mem_singleton, Prod.mk.injEq] at hd
      rcases hd with hd | ⟨e, _⟩
      · exact h.holds n c hn d hd
      · have := h.pcLt n (Or.inr ⟨c, hn⟩); omega
  | remove b =>
    refine ⟨?_, ?_, h.pcLt, ?_⟩
    · exact h.nodup.sublist (List.filter_sublist.map _)
    · intro x hx; exact h.lt x (List.mem_of_mem_filter hx)
    · intro n c hn d hd; exact h.holds n c hn d (List.mem_of_mem_filter hd)
  | start => exact ⟨h.nodup, h.lt, h.pcLt, h.holds⟩
  | stop => exact ⟨h.nodup, h.lt, h.pcLt, h.holds⟩
  | destroy b => exact ⟨h.nodup, h.lt, h.pcLt, h.holds⟩

theorem inv_exec {s : St} (h : Inv s) (acts : List Act) : Inv (exec s acts) := by
  induction acts generalizing s with
  | nil => exact h
  | cons a l ih => exact ih (inv_step h a)

theorem Reach.inv {s : St} (h : Reach s) : Inv s := by
  obtain ⟨acts, rfl⟩ := h; exact inv_exec inv_init acts

theorem user_pc {s : St} {a : Act} (h : a.user) : (step s a).pc = s.pc := by
  cases a <;> simp_all [Act.user, step]

theorem users_pc {s : St} {acts : List Act} (h : ∀ a ∈ acts, a.user) : (exec s acts).pc = s.pc := by
  induction acts generalizing s with
  | nil => rfl
  | cons a l ih =>
    change (exec (step s a) l).pc = _
    rw [ih (fun x hx => h x (List.mem_cons_of_mem _ hx)), user_pc (h a (by simp))]

/-- A node below `fresh` exists after operations of users exactly if it existed and its block was not removed. -/
theorem users_node {s : St} (hi : Inv s) {acts : List Act} (h : ∀ a ∈ acts, a.user) {n : Nat} (hn : n < s.fresh)
    (b : Block) : (n, b) ∈ (exec s acts).nodes ↔ (n, b) ∈ s.nodes ∧ Act.remove b ∉ acts := by
  induction acts generalizing s with
  | nil => simp [exec]
  | cons a l ih =>
    have hl := fun x hx => h x (List.mem_cons_of_mem a hx)
    change (n, b) ∈ (exec (step s a) l).nodes ↔ _
    have hf : n < (step s a).fresh := by
      have := h a (by simp)
      cases a <;> simp_all [Act.user, step] <;> omega
    rw [ih (inv_step hi a) hl hf]
    have hu := h a (by simp)
    cases a with
    | tick => exact hu.elim
    | fault => exact hu.elim
    | add c =>
      simp only [step, List.mem_append, List.mem_cons, List.not_mem_nil, or_false, Prod.mk.injEq, reduceCtorEq,
        false_or]
      constructor
      · rintro ⟨h1 | ⟨h1, _⟩, h2⟩
        · exact ⟨h1, h2⟩
        · omega
      · rintro ⟨h1, h2⟩; exact ⟨Or.inl h1, h2⟩
    | remove c =>
      simp only [step, List.mem_filter, decide_eq_true_eq, List.mem_cons, Act.remove.injEq, not_or]
      tauto
    | start => simp [step]
    | stop => simp [step]
    | destroy c => simp [step]

/-! ## Theorems -/

/-- While the thread is within `run()` of a block whose node is in the list, the step out of it reads freed memory
exactly if that block was removed meanwhile. -/
theorem inside_ub_iff {s : St} (hr : Reach s) {n : Nat} {b : Block} (hpc : s.pc = .inside n b)
    (hm : (n, b) ∈ s.nodes) {acts : List Act} (hu : ∀ a ∈ acts, a.user) :
    (exec s (acts ++ [.tick])).pc = .ub ↔ Act.remove b ∈ acts := by
  have hi := hr.inv
  have hn : n < s.fresh := hi.lt _ hm
  have hp := users_pc (s := s) hu
  have hN := users_node hi hu hn
  rw [exec_snoc]
  obtain ⟨t, ht⟩ : ∃ t, t = exec s acts := ⟨_, rfl⟩
  rw [← ht] at hp hN ⊢
  have key : next? n t.nodes = none ↔ Act.remove b ∈ acts := by
    rw [next?_none]
    constructor
    · intro h
      by_contra hc
      exact h (List.mem_map.2 ⟨(n, b), (hN b).2 ⟨hm, hc⟩, rfl⟩)
    · intro h h'
      obtain ⟨⟨m, c⟩, hx, e⟩ := List.mem_map.1 h'
      simp only at e; subst e
      have h1 := (hN c).1 hx
      have : c = b := unique hi.nodup hm h1.1
      subst this
      exact h1.2 h
  rw [← key]
  simp only [step, tick, hp, hpc]
  cases hnx : next? n t.nodes with
  | none => simp
  | some o => cases o <;> simp

example : (exec init [.add 5, .add 6, .tick, .tick, .tick]).pc = .inside 0 5 ∧
    (exec init ([.add 5, .add 6, .tick, .tick, .tick] ++ [.remove 6, .add 7, .tick])).pc = .load 2 ∧
    (exec init ([.add 5, .add 6, .tick, .tick, .tick] ++ [.remove 5, .add 5, .tick])).pc = .ub := by decide

/-- The promise of the header does not hold: whenever a block is removed while the time domain is just running it,
be it by another thread or by the block itself, the loop continues with freed memory. To stop the time domain before
the removal, and to add the block again after it, does not help. -/
theorem remove_current_violated {s : St} (hr : Reach s) {n : Nat} {b : Block} (hpc : s.pc = .inside n b) :
    (exec s [.remove b, .tick]).pc = .ub ∧ (exec s [.stop, .remove b, .tick]).pc = .ub ∧
    (exec s [.remove b, .add b, .tick]).pc = .ub := by
  have hi := hr.inv
  have hn : n < s.fresh := hi.pcLt n (Or.inr ⟨b, Or.inr hpc⟩)
  have key : ∀ acts : List Act, (∀ a ∈ acts, a.user) → Act.remove b ∈ acts →
      (exec s (acts ++ [.tick])).pc = .ub := by
    intro acts hu hb
    have hp := users_pc (s := s) hu
    have hN := users_node hi hu hn
    rw [exec_snoc]
    have : next? n (exec s acts).nodes = none := by
      rw [next?_none]
      intro h'
      obtain ⟨⟨m, c⟩, hx, e⟩ := List.mem_map.1 h'
      simp only at e; subst e
      have h1 := (hN c).1 hx
      have : c = b := hi.holds m b (Or.inr hpc) c h1.1
      subst this
      exact h1.2 hb
    simp only [step, tick, hp, hpc, this]
  refine ⟨key [.remove b] ?_ ?_, key [.stop, .remove b] ?_ ?_, key [.remove b, .add b] ?_ ?_⟩ <;>
    simp [Act.user]

example : Reach (exec init [.add 5, .add 6, .tick, .tick, .tick]) ∧
    (exec init [.add 5, .add 6, .tick, .tick, .tick]).pc = .inside 0 5 := ⟨⟨_, rfl⟩, by decide⟩

/-- Nor is it true that a removed block is no longer run: if the thread has just read the pointer, it calls `run()` of
the block after the removal. If the block was destroyed after the removal, as a user would do, a method of a destroyed
object is called. -/
theorem removed_still_runs_violated {s : St} {n : Nat} {b : Block} (hpc : s.pc = .call n b) :
    (b ∉ s.dead → (exec s [.remove b, .tick]).ran = s.ran ++ [b] ∧ b ∉ (exec s [.remove b, .tick]).blocks) ∧
    (exec s [.remove b, .destroy b, .tick]).pc = .ub := by
  constructor
  · intro hd
    simp [exec, step, tick, hpc, hd, St.blocks]
  · simp [exec, step, tick, hpc]

example : (exec init [.add 5, .add 6, .tick, .tick]).pc = .call 0 5 := by decide

/-! ### What remains true -/

/-- The thread which runs the time domain stands at block `b`. -/
def St.standsAt (s : St) (b : Block) : Prop :=
  ∃ n, s.pc = .inside n b ∨ s.pc = .call n b ∨ (s.pc = .load n ∧ (n, b) ∈ s.nodes)

/-- What a careful user restricts themselves to: a block is removed only while the time domain does not stand at it,
destroyed only after it was removed, and a destroyed block is not added. -/
def Careful (s : St) : Act → Prop
  | .remove b => ¬ s.standsAt b
  | .destroy b => b ∉ s.blocks ∧ ¬ s.standsAt b
  | .add b => b ∉ s.dead
  | _ => True

/-- All steps of an execution are careful. -/
def CarefulExec : St → List Act → Prop
  | _, [] => True
  | s, a :: l => Careful s a ∧ CarefulExec (step s a) l

/-- The thread stands at a node of the list and all blocks of the list exist. -/
structure Good (s : St) : Prop where
  alive : ∀ b ∈ s.blocks, b ∉ s.dead
  place : match s.pc with
    | .idle => True
    | .load n => n ∈ s.nodes.map Prod.fst
    | .call n b => (n, b) ∈ s.nodes
    | .inside n b => (n, b) ∈ s.nodes
    | .ub => False

theorem good_step {s : St} (hi : Inv s) (h : Good s) {a : Act} (hc : Careful s a) : Good (step s a) := by
  obtain ⟨ha, hp⟩ := h
  cases a with
  | tick =>
    simp only [step, tick]
    split
    · split
      · split
        · exact ⟨ha, hp⟩
        · rename_i x hx
          exact ⟨ha, List.mem_map.2 ⟨x, List.mem_of_mem_head? hx, rfl⟩⟩
      · exact ⟨ha, hp⟩
    · rename_i n hpc
      rw [hpc] at hp
      obtain ⟨b, hb⟩ := at?_some hp
      rw [hb]
      exact ⟨ha, at?_mem hb⟩
    · rename_i n b hpc
      rw [hpc] at hp
      have : b ∉ s.dead := ha b (List.mem_map.2 ⟨_, hp, rfl⟩)
      rw [if_neg this]
      exact ⟨ha, hp⟩
    · rename_i n b hpc
      rw [hpc] at hp
      split
      · rename_i hn
        exact absurd (List.mem_map.2 ⟨_, hp, rfl⟩) (next?_none.1 hn)
      · exact ⟨ha, trivial⟩
      · rename_i m hm
        exact ⟨ha, next?_mem hm⟩
    · rename_i hpc
      rw [hpc] at hp; exact hp.elim
  | fault =>
    simp only [step]
    split
    · exact ⟨ha, trivial⟩
    · exact ⟨ha, hp⟩
  | add b =>
    refine ⟨?_, ?_⟩
    · intro c hcm
      simp only [step, St.blocks, List.map_append, List.map_cons, List.map_nil, List.mem_append,
        List.mem_singleton] at hcm
      rcases hcm with hcm | rfl
      · exact ha c hcm
      · exact hc
    · simp only [step]
      split <;> rename_i hpc <;> rw [hpc] at hp
      · trivial
      · simp only [List.map_append, List.mem_append]; exact Or.inl hp
      · exact List.mem_append_left _ hp
      · exact List.mem_append_left _ hp
      · exact hp
  | remove b =>
    refine ⟨?_, ?_⟩
    · intro c hcm
      obtain ⟨x, hx, rfl⟩ := List.mem_map.1 hcm
      exact ha _ (List.mem_map.2 ⟨x, List.mem_of_mem_filter hx, rfl⟩)
    · simp only [Careful, St.standsAt, not_exists, not_or, not_and] at hc
      simp only [step]
      split <;> rename_i hpc <;> rw [hpc] at hp
      · trivial
      · rename_i n
        obtain ⟨⟨m, c⟩, hx, e⟩ := List.mem_map.1 hp
        simp only at e; subst e
        refine List.mem_map.2 ⟨(m, c), List.mem_filter.2 ⟨hx, ?_⟩, rfl⟩
        simp only [decide_eq_true_eq]
        rintro rfl
        exact (hc m).2.2 hpc hx
      · rename_i n c
        refine List.mem_filter.2 ⟨hp, ?_⟩
        simp only [decide_eq_true_eq]
        rintro rfl
        exact (hc n).2.1 hpc
      · rename_i n c
        refine List.mem_filter.2 ⟨hp, ?_⟩
        simp only [decide_eq_true_eq]
        rintro rfl
        exact (hc n).1 hpc
      · exact hp
  | start => exact ⟨ha, hp⟩
  | stop => exact ⟨ha, hp⟩
  | destroy b =>
    refine ⟨?_, hp⟩
    intro c hcm
    simp only [step, List.mem_cons, not_or]
    refine ⟨?_, ha c hcm⟩
    rintro rfl
    exact hc.1 hcm

theorem good_exec {s : St} (hi : Inv s) (h : Good s) {acts : List Act} (hc : CarefulExec s acts) :
    Good (exec s acts) := by
  induction acts generalizing s with
  | nil => exact h
  | cons a l ih => exact ih (inv_step hi a) (good_step hi h hc.1) hc.2

/-- What is missing for the promise of the header is only this discipline: if blocks are removed only while the time
domain does not stand at them, and destroyed only after having been removed, then neither freed memory is read nor a
method of a destroyed object called, whenever and how often blocks are added and removed. -/
theorem careful_safe_partial {acts : List Act} (h : CarefulExec init acts) : (exec init acts).pc ≠ .ub := by
  have hg := good_exec inv_init ⟨by simp [init, St.blocks], by simp [init]⟩ h
  intro e
  have := hg.place
  rw [e] at this
  exact this

example : CarefulExec init [.add 5, .add 6, .tick, .tick, .tick, .remove 6, .add 7, .destroy 6, .tick, .tick] ∧
    (exec init [.add 5, .add 6, .tick, .tick, .tick, .remove 6, .add 7, .destroy 6, .tick, .tick]).pc = .call 2 7 := by
  refine ⟨?_, by decide⟩
  simp [CarefulExec, Careful, step, tick, init, at?, next?, St.standsAt, St.blocks]

/-- A removed block is not run any more until it is added again, if the thread did not stand at it when it was
removed. (The full promise has no such condition, see `removed_still_runs_violated`.) -/
theorem removed_not_run_partial {s : St} (hr : Reach s) {b : Block} (hs : ¬ s.standsAt b) {acts : List Act}
    (ha : Act.add b ∉ acts) : ∃ l, (exec s (.remove b :: acts)).ran = s.ran ++ l ∧ b ∉ l := by
  have main : ∀ (acts : List Act) (t : St), Inv t → Act.add b ∉ acts → b ∉ t.blocks →
      (∀ n, t.pc ≠ .call n b) → ∃ l, (exec t acts).ran = t.ran ++ l ∧ b ∉ l := by
    intro acts
    induction acts with
    | nil => intro t _ _ _ _; exact ⟨[], by simp [exec], by simp⟩
    | cons a l ih =>
      intro t hi hA hB hC
      simp only [List.mem_cons, not_or] at hA
      have hi' := inv_step hi a
      have hB' : b ∉ (step t a).blocks := by
        cases a with
        | tick =>
          have : (tick t).nodes = t.nodes := by
            simp only [tick]; repeat' split
            all_goals rfl
          simpa [step, St.blocks, this] using hB
        | fault =>
          have : (step t .fault).nodes = t.nodes := by
            simp only [step]; split <;> rfl
          simpa [St.blocks, this] using hB
        | add c =>
          have : b ≠ c := fun e => hA.1 (by rw [e])
          simp only [step, St.blocks, List.map_append, List.map_cons, List.map_nil, List.mem_append,
            List.mem_singleton, not_or]
          exact ⟨hB, this⟩
        | remove c =>
          intro h
          obtain ⟨x, hx, rfl⟩ := List.mem_map.1 h
          exact hB (List.mem_map.2 ⟨x, List.mem_of_mem_filter hx, rfl⟩)
        | start => exact hB
        | stop => exact hB
        | destroy c => exact hB
      have hC' : ∀ n, (step t a).pc ≠ .call n b := by
        intro n
        cases a with
        | tick =>
          simp only [step, tick]
          split
          · rename_i hpc
            split
            · split
              · simp [hpc]
              · simp
            · simp [hpc]
          · rename_i k hpc
            split
            · simp
            · rename_i c hc
              have := at?_mem hc
              simp only [ne_eq, Pc.call.injEq, not_and]
              rintro - rfl
              exact hB (List.mem_map.2 ⟨_, this, rfl⟩)
          · split <;> simp
          · split <;> simp
          · rename_i hpc; simp [hpc]
        | fault =>
          simp only [step]
          split
          · simp
          · exact hC n
        | _ => exact hC n
      have hR : ∃ l1, (step t a).ran = t.ran ++ l1 ∧ b ∉ l1 := by
        cases a with
        | tick =>
          simp only [step, tick]
          split
          · split
            · split <;> exact ⟨[], by simp, by simp⟩
            · exact ⟨[], by simp, by simp⟩
          · split <;> exact ⟨[], by simp, by simp⟩
          · rename_i k c hpc
            split
            · exact ⟨[], by simp, by simp⟩
            · refine ⟨[c], rfl, ?_⟩
              simp only [List.mem_singleton]
              rintro rfl
              exact hC k hpc
          · split <;> exact ⟨[], by simp, by simp⟩
          · exact ⟨[], by simp, by simp⟩
        | fault =>
          simp only [step]
          split <;> exact ⟨[], by simp, by simp⟩
        | _ => exact ⟨[], by simp [step], by simp⟩
      obtain ⟨l1, e1, h1⟩ := hR
      obtain ⟨l2, e2, h2⟩ := ih (step t a) hi' hA.2 hB' hC'
      refine ⟨l1 ++ l2, ?_, by simp [h1, h2]⟩
      change (exec (step t a) l).ran = _
      rw [e2, e1, List.append_assoc]
  refine main acts (step s (.remove b)) (inv_step hr.inv _) ha ?_ ?_
  · intro h
    obtain ⟨x, hx, rfl⟩ := List.mem_map.1 h
    have := (List.mem_filter.1 hx).2
    simp at this
  · intro n h
    exact hs ⟨n, Or.inr (Or.inl h)⟩

example : ¬ (exec init [.add 5, .add 6, .tick, .tick, .tick]).standsAt 6 ∧
    (exec init ([.add 5, .add 6, .tick, .tick, .tick] ++ [.remove 6, .tick, .tick, .tick, .tick])).ran = [5, 5] := by
  refine ⟨?_, by decide⟩
  have : (exec init [.add 5, .add 6, .tick, .tick, .tick]).pc = .inside 0 5 := by decide
  simp [St.standsAt, this]

/-- Where a cycle which began with `r` calls stands: the calls since are the blocks up to the place of the thread. -/
def InCycle (r : List Block) (s : St) : Prop :=
  match s.pc with
  | .idle => False
  | .load n => ∃ pre c post, s.nodes = pre ++ (n, c) :: post ∧ s.ran = r ++ pre.map Prod.snd
  | .call n b => ∃ pre post, s.nodes = pre ++ (n, b) :: post ∧ s.ran = r ++ pre.map Prod.snd
  | .inside n b => ∃ pre post, s.nodes = pre ++ (n, b) :: post ∧ s.ran = r ++ pre.map Prod.snd ++ [b]
  | .ub => False

theorem at?_mid {pre post : List (Nat × Block)} {n : Nat} {c : Block}
    (h : ((pre ++ (n, c) :: post).map Prod.fst).Nodup) : at? n (pre ++ (n, c) :: post) = some c := by
  induction pre with
  | nil => simp [at?]
  | cons x pre ih =>
    obtain ⟨m, d⟩ := x
    simp only [List.cons_append, List.map_cons, List.nodup_cons] at h
    have : m ≠ n := by
      rintro rfl; exact h.1 (by simp)
    simp only [List.cons_append, at?, if_neg this]
    exact ih h.2

theorem next?_mid {pre post : List (Nat × Block)} {n : Nat} {c : Block}
    (h : ((pre ++ (n, c) :: post).map Prod.fst).Nodup) :
    next? n (pre ++ (n, c) :: post) = some (post.head?.map Prod.fst) := by
  induction pre with
  | nil => simp [next?]
  | cons x pre ih =>
    obtain ⟨m, d⟩ := x
    simp only [List.cons_append, List.map_cons, List.nodup_cons] at h
    have : m ≠ n := by
      rintro rfl; exact h.1 (by simp)
    simp only [List.cons_append, next?, if_neg this]
    exact ih h.2

/-- Steps which neither remove nor destroy blocks nor throw. -/
def Act.plain : Act → Prop
  | .tick => True
  | .add _ => True
  | .start => True
  | .stop => True
  | _ => False

/-- One step of a cycle: it goes on, or it ends having run all blocks of the list. -/
theorem cycle_step {r : List Block} {s : St} (hi : Inv s) (hd : s.dead = []) (h : InCycle r s) {a : Act}
    (ha : a.plain) : (step s a).dead = [] ∧
      (InCycle r (step s a) ∨ (step s a).pc = .idle ∧ (step s a).ran = r ++ (step s a).blocks) := by
  cases a with
  | tick =>
    simp only [step, tick]
    unfold InCycle at h
    split at h <;> rename_i hpc
    · exact h.elim
    · rename_i n
      obtain ⟨pre, c, post, e, hr⟩ := h
      have := at?_mid (e ▸ hi.nodup)
      rw [← e] at this
      simp only [this]
      exact ⟨hd, Or.inl ⟨pre, post, e, hr⟩⟩
    · rename_i n b
      obtain ⟨pre, post, e, hr⟩ := h
      simp only [hd, List.not_mem_nil, if_false]
      refine ⟨trivial, Or.inl ⟨pre, post, e, ?_⟩⟩
      simp only [hr]
    · rename_i n b
      obtain ⟨pre, post, e, hr⟩ := h
      have := next?_mid (e ▸ hi.nodup)
      rw [← e] at this
      simp only [this]
      cases post with
      | nil =>
        simp only [List.head?_nil, Option.map_none]
        refine ⟨hd, Or.inr ⟨trivial, ?_⟩⟩
        simp [hr, St.blocks, e]
      | cons y post =>
        simp only [List.head?_cons, Option.map_some]
        refine ⟨hd, Or.inl ?_⟩
        refine ⟨pre ++ [(n, b)], y.2, post, ?_, ?_⟩
        · simp [e]
        · simp [hr]
    · exact h.elim
  | add b =>
    refine ⟨hd, Or.inl ?_⟩
    unfold InCycle at h ⊢
    simp only [step]
    split at h
    · exact h
    · obtain ⟨pre, c, post, e, hr⟩ := h
      exact ⟨pre, c, post ++ [(s.fresh, b)], by simp [e], hr⟩
    · obtain ⟨pre, post, e, hr⟩ := h
      exact ⟨pre, post ++ [(s.fresh, b)], by simp [e], hr⟩
    · obtain ⟨pre, post, e, hr⟩ := h
      exact ⟨pre, post ++ [(s.fresh, b)], by simp [e], hr⟩
    · exact h
  | start => exact ⟨hd, Or.inl h⟩
  | stop => exact ⟨hd, Or.inl h⟩
  | fault => exact ha.elim
  | remove b => exact ha.elim
  | destroy b => exact ha.elim

/-- Blocks may be added at any time, and the time domain may be stopped at any time: a cycle which was begun runs all
blocks of the list, those added before its end included, each once and in their order, and a call of `stop()` during
the cycle shortens nothing. (`acts` are the steps of one cycle: it begins in `s`, where the time domain is not
running, and the thread comes back there with the last step and not before.) -/
theorem cycle_runs_all {s : St} (hr : Reach s) (hpc : s.pc = .idle) (hrun : s.running = true) (hne : s.nodes ≠ [])
    (hd : s.dead = []) {acts : List Act} (ha : ∀ a ∈ acts, a.plain) (hend : (exec s (.tick :: acts)).pc = .idle)
    (hmid : ∀ p q, acts = p ++ q → q ≠ [] → (exec s (.tick :: p)).pc ≠ .idle) :
    (exec s (.tick :: acts)).ran = s.ran ++ (exec s (.tick :: acts)).blocks := by
  have main : ∀ (acts : List Act) (t : St), Inv t → t.dead = [] → InCycle s.ran t → (∀ a ∈ acts, a.plain) →
      (exec t acts).pc = .idle → (∀ p q, acts = p ++ q → q ≠ [] → (exec t p).pc ≠ .idle) →
      (exec t acts).ran = s.ran ++ (exec t acts).blocks := by
    intro acts
    induction acts with
    | nil =>
      intro t _ _ hc _ he _
      simp only [exec, List.foldl_nil] at he
      simp [InCycle, he] at hc
    | cons a l ih =>
      intro t hi hdt hc hp he hm
      obtain ⟨h1, h2⟩ := cycle_step hi hdt hc (hp a (by simp))
      change (exec (step t a) l).ran = s.ran ++ (exec (step t a) l).blocks
      rcases h2 with h2 | ⟨h2, h3⟩
      · refine ih (step t a) (inv_step hi a) h1 h2 (fun x hx => hp x (List.mem_cons_of_mem _ hx)) he ?_
        intro p q e hq
        exact hm (a :: p) q (by simp [e]) hq
      · cases l with
        | nil => exact h3
        | cons c l => exact absurd h2 (hm [a] (c :: l) rfl (by simp))
  have hs : step s .tick = { s with pc := .load (s.nodes.head hne).1 } := by
    simp [step, tick, hpc, hrun, List.head?_eq_some_head hne]
  refine main acts (step s .tick) (inv_step hr.inv _) ?_ ?_ ha hend hmid
  · rw [hs]; exact hd
  · rw [hs]
    refine ⟨[], (s.nodes.head hne).2, s.nodes.tail, ?_, by simp⟩
    exact (List.cons_head_tail hne).symm

example : (exec init [.add 5, .add 6, .tick, .tick, .tick, .stop, .tick, .tick, .add 7, .tick, .tick, .tick, .tick,
    .tick]).pc = .idle ∧ (exec init [.add 5, .add 6, .tick, .tick, .tick, .stop, .tick, .tick, .add 7, .tick, .tick,
    .tick, .tick, .tick]).ran = [5, 6, 7] := by decide

/-- If nothing is done by others during it, a cycle takes three steps per block and the one at its beginning. -/
theorem quiet_prefix {s : St} (hi : Inv s) (hpc : s.pc = .idle) (hrun : s.running = true)
    {pre post : List (Nat × Block)} {n : Nat} {b : Block} (e : s.nodes = pre ++ (n, b) :: post)
    (hd : ∀ x ∈ pre, x.2 ∉ s.dead) :
    exec s (List.replicate (3 * pre.length + 1) .tick) =
      { s with pc := .load n, ran := s.ran ++ pre.map Prod.snd } := by
  induction pre using List.reverseRecOn generalizing n b post with
  | nil =>
    simp [exec, step, tick, hpc, hrun, e]
  | append_singleton pre x ih =>
    obtain ⟨m, c⟩ := x
    have e' : s.nodes = pre ++ (m, c) :: ((n, b) :: post) := by simp [e]
    have h1 := ih e' (fun x hx => hd x (by simp [hx]))
    have hl : 3 * (pre ++ [(m, c)]).length + 1 = (3 * pre.length + 1) + 3 := by simp; omega
    rw [hl, List.replicate_add, exec_append, h1]
    have a1 : at? m s.nodes = some c := by rw [e']; exact at?_mid (e' ▸ hi.nodup)
    have a2 : next? m s.nodes = some (some n) := by
      rw [e', next?_mid (e' ▸ hi.nodup)]; simp
    have a3 : c ∉ s.dead := hd (m, c) (by simp)
    simp [exec, step, tick, List.replicate, a1, a2, a3]

/-- A block which is destroyed without being removed stays in the list, no destructor takes it out: the next cycle,
when it gets to this block, calls a method of a destroyed object. -/
theorem destroyed_block_violated {s : St} (hr : Reach s) (hpc : s.pc = .idle) (hrun : s.running = true) {b : Block}
    (hb : b ∈ s.blocks) : ∃ k, (exec s (.destroy b :: List.replicate k .tick)).pc = .ub := by
  classical
  -- the first destroyed block of the list
  have first : ∀ (l : List (Nat × Block)) (D : List Block), (∃ x ∈ l, x.2 ∈ D) →
      ∃ pre n c post, l = pre ++ (n, c) :: post ∧ (∀ x ∈ pre, x.2 ∉ D) ∧ c ∈ D := by
    intro l D
    induction l with
    | nil => rintro ⟨x, hx, _⟩; simp at hx
    | cons y l ih =>
      rintro ⟨x, hx, hD⟩
      by_cases hy : y.2 ∈ D
      · exact ⟨[], y.1, y.2, l, by simp, by simp, hy⟩
      · have : ∃ x ∈ l, x.2 ∈ D := by
          rcases List.mem_cons.1 hx with rfl | hx
          · exact absurd hD hy
          · exact ⟨x, hx, hD⟩
        obtain ⟨pre, n, c, post, e, h1, h2⟩ := ih this
        refine ⟨y :: pre, n, c, post, by simp [e], ?_, h2⟩
        intro z hz
        rcases List.mem_cons.1 hz with rfl | hz
        · exact hy
        · exact h1 z hz
  obtain ⟨t, ht⟩ : ∃ t, t = step s (.destroy b) := ⟨_, rfl⟩
  have hi : Inv t := ht ▸ inv_step hr.inv _
  obtain ⟨x, hx, hxb⟩ := List.mem_map.1 hb
  obtain ⟨pre, n, c, post, e, h1, h2⟩ := first t.nodes t.dead ⟨x, by rw [ht]; exact hx, by rw [ht]; simp [step, hxb]⟩
  have hq := quiet_prefix (s := t) hi (by rw [ht]; exact hpc) (by rw [ht]; exact hrun) e h1
  refine ⟨(3 * pre.length + 1) + 2, ?_⟩
  change (exec (step s (.destroy b)) _).pc = _
  rw [← ht, List.replicate_add, exec_append, hq]
  have a1 : at? n t.nodes = some c := by rw [e]; exact at?_mid (e ▸ hi.nodup)
  simp [exec, step, tick, List.replicate, a1, h2]

example : Reach (exec init [.add 5, .add 6]) ∧ 6 ∈ (exec init [.add 5, .add 6]).blocks ∧
    (exec init ([.add 5, .add 6] ++ .destroy 6 :: List.replicate 6 .tick)).pc = .ub := ⟨⟨_, rfl⟩, by decide, by decide⟩

end Verif.Control.DynBlocks
