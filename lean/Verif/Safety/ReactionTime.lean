import Verif.Safety.Reaction
import Verif.Core.ExecutorRunProps
import Mathlib.Tactic.Linarith
import Mathlib.Tactic.Ring
import Mathlib.Tactic.NormNum
import Mathlib.Tactic.IntervalCases
import Mathlib.Algebra.Order.Ring.Rat
import Mathlib.Algebra.Field.Rat
/-!
C227: the time from an event to the reaction of the safety system, over the models of the executor's loop (`Verif.Core.ExecutorRun`) and of the safety system (`Verif.Safety.Model`).
The safety system is the main task of the executor (src/core/Executor.cpp:116-122, 364-371), events come at any time from other threads, for example from time domains with a faulty block
(src/control/TimeDomain.cpp:29-38).

Simplified: a run of the safety system is one step, events come between two runs (for events during a run see C03 and C07).
-/
namespace Verif.Safety.ReactionTime

open Verif.Core

variable {V K : Type} [Field K] [LinearOrder K]

inductive JOp (V K : Type) where
  /-- a step of the executor's world; `env` is what the safety system finds if this is the step in which it runs -/
  | core (op : ExecutorRun.Op K) (env : Env V)
  /-- `SafetySystem::triggerEvent` (src/safety/SafetySystem.cpp:58-103) in another thread -/
  | trigger (e : EventId)

/-- The state of the executor, and what has been called in the safety system so far, oldest first. -/
abbrev JSt (V K : Type) := ExecutorRun.St K × List (Op V)

/-- The step runs the safety system (Executor.cpp:368-369). -/
def isMain (x : ExecutorRun.St K) : ExecutorRun.Op K → Bool
  | .exec => x.pc = .main
  | _ => false

def jstep (P : K) (n : Nat) (x : JSt V K) : JOp V K → JSt V K
  | .core op env => (ExecutorRun.step P n x.1 op, if isMain x.1 op then x.2 ++ [.run env] else x.2)
  | .trigger e => (x.1, x.2 ++ [.trigger e])

def jrun (P : K) (n : Nat) (x : JSt V K) (ops : List (JOp V K)) : JSt V K := ops.foldl (jstep P n) x

/-- The thread of the executor has been started. -/
def jinit (now : K) (r : Bool) : JSt V K := (ExecutorRun.init now r, [])

/-- Nobody calls `Executor::stop`, the clock does not go back. -/
def Regular : JOp V K → Prop
  | .core .stop _ => False
  | .core (.advance d) _ => 0 ≤ d
  | _ => True

/-- The executor keeps up: as long as it is in its loop, the cycle planned for `next` is complete (with the task list and the main task) at the latest `L` after this time. -/
def KeepsUp (L : K) (x : JSt V K) : Prop := ExecutorRun.isLoop x.1.pc → x.1.now ≤ x.1.next + L

theorem jrun_append (P : K) (n : Nat) (x : JSt V K) (a b : List (JOp V K)) : jrun P n x (a ++ b) = jrun P n (jrun P n x a) b := by simp [jrun]

/-- In the loop, with the flag set, and not earlier than one period before the next cycle. -/
def InLoop (P : K) (x : JSt V K) : Prop := ExecutorRun.isLoop x.1.pc ∧ x.1.running = true ∧ x.1.next ≤ x.1.now + P

/-- As `InLoop`, and at the list and the main task not earlier than planned. -/
def Inv (P : K) (x : JSt V K) : Prop := InLoop P x ∧ (x.1.pc = .list ∨ x.1.pc = .main → x.1.next ≤ x.1.now)

theorem isLoop_cases {pc : ExecutorRun.Pc} (h : ExecutorRun.isLoop pc) : pc = .test ∨ pc = .sleep ∨ pc = .list ∨ pc = .main := by
  cases pc <;> simp_all [ExecutorRun.isLoop]

section
variable [IsStrictOrderedRing K]

theorem inv_jstep {P : K} (hP : 0 ≤ P) (n : Nat) {x : JSt V K} (h : Inv P x) (op : JOp V K) (hr : Regular op) : Inv P (jstep P n x op) := by
  obtain ⟨⟨h1, h2, h3⟩, h4⟩ := h
  cases op with
  | trigger e => exact ⟨⟨h1, h2, h3⟩, h4⟩
  | core op env =>
    cases op with
    | stop => exact absurd hr (by simp [Regular])
    | advance d =>
      have hd : 0 ≤ d := hr
      refine ⟨⟨h1, h2, ?_⟩, fun a => ?_⟩
      · show x.1.next ≤ x.1.now + d + P; linarith
      · have := h4 a
        show x.1.next ≤ x.1.now + d; linarith
    | threadEnds i => exact ⟨⟨h1, h2, h3⟩, h4⟩
    | exec =>
      rcases isLoop_cases h1 with hp | hp | hp | hp
      · have e : ExecutorRun.exec P n x.1 = { x.1 with pc := .sleep } := by simp [ExecutorRun.exec, hp, h2]
        show Inv P (ExecutorRun.exec P n x.1, _)
        rw [e]
        exact ⟨⟨trivial, h2, h3⟩, by simp⟩
      · by_cases hn : x.1.next ≤ x.1.now
        · have e : ExecutorRun.exec P n x.1 = { x.1 with pc := .list, log := (x.1.now, .wake) :: x.1.log } := by simp [ExecutorRun.exec, hp, hn]
          show Inv P (ExecutorRun.exec P n x.1, _)
          rw [e]
          exact ⟨⟨trivial, h2, h3⟩, fun _ => hn⟩
        · have e : ExecutorRun.exec P n x.1 = x.1 := by simp [ExecutorRun.exec, hp, hn]
          show Inv P (ExecutorRun.exec P n x.1, _)
          rw [e]
          exact ⟨⟨h1, h2, h3⟩, h4⟩
      · have e : ExecutorRun.exec P n x.1 = { x.1 with pc := .main, log := (x.1.now, .taskList) :: x.1.log } := by simp [ExecutorRun.exec, hp]
        show Inv P (ExecutorRun.exec P n x.1, _)
        rw [e]
        exact ⟨⟨trivial, h2, h3⟩, fun _ => h4 (Or.inl hp)⟩
      · have e : ExecutorRun.exec P n x.1 = { x.1 with pc := .test, next := x.1.next + P, log := (x.1.now, .mainTask) :: x.1.log } := by simp [ExecutorRun.exec, hp]
        show Inv P (ExecutorRun.exec P n x.1, _)
        rw [e]
        have := h4 (Or.inr hp)
        refine ⟨⟨trivial, h2, ?_⟩, by simp⟩
        show x.1.next + P ≤ x.1.now + P
        linarith

/-- From the start on: before the loop, or `Inv`. -/
def Started (P : K) (x : JSt V K) : Prop := x.1.pc = .starting ∨ (x.1.pc = .arm ∧ x.1.running = true) ∨ Inv P x

theorem started_jstep {P : K} (hP : 0 ≤ P) (n : Nat) {x : JSt V K} (h : Started P x) (op : JOp V K) (hr : Regular op) : Started P (jstep P n x op) := by
  rcases h with h | ⟨h, h'⟩ | h
  · cases op with
    | trigger e => exact Or.inl h
    | core op env =>
      cases op with
      | stop => exact absurd hr (by simp [Regular])
      | advance d => exact Or.inl h
      | threadEnds i => exact Or.inl h
      | exec => exact Or.inr (Or.inl (by simp [jstep, ExecutorRun.step, ExecutorRun.exec, h]))
  · cases op with
    | trigger e => exact Or.inr (Or.inl ⟨h, h'⟩)
    | core op env =>
      cases op with
      | stop => exact absurd hr (by simp [Regular])
      | advance d => exact Or.inr (Or.inl ⟨h, h'⟩)
      | threadEnds i => exact Or.inr (Or.inl ⟨h, h'⟩)
      | exec =>
        right; right
        have e : ExecutorRun.exec P n x.1 = { x.1 with t0 := x.1.now, next := x.1.now + P, pc := .test } := by simp [ExecutorRun.exec, h]
        show Inv P (ExecutorRun.exec P n x.1, _)
        rw [e]
        exact ⟨⟨trivial, h', le_refl _⟩, by simp⟩
  · exact Or.inr (Or.inr (inv_jstep hP n h op hr))

theorem started_jrun {P : K} (hP : 0 ≤ P) (n : Nat) (ops : List (JOp V K)) : ∀ {x : JSt V K}, Started P x → (∀ op ∈ ops, Regular op) → Started P (jrun P n x ops) := by
  induction ops with
  | nil => intro x h _; exact h
  | cons op ops ih =>
    intro x h hr
    exact ih (started_jstep hP n h op (hr op (by simp))) (fun o ho => hr o (List.mem_cons_of_mem _ ho))

/-- Until the safety system runs the plan stays: a step which does not run it leaves `next` as it is and calls nothing but `triggerEvent`. -/
theorem jstep_not_main {P : K} (n : Nat) {x : JSt V K} (h : Inv P x) (op : JOp V K) (hm : ∀ env, op = .core .exec env → x.1.pc ≠ .main) :
    (jstep P n x op).1.next = x.1.next ∧ ∃ es : List EventId, (jstep P n x op).2 = x.2 ++ es.map Op.trigger := by
  cases op with
  | trigger e => exact ⟨rfl, [e], rfl⟩
  | core op env =>
    cases op with
    | stop => exact ⟨rfl, [], by simp [jstep, isMain]⟩
    | advance d => exact ⟨rfl, [], by simp [jstep, isMain]⟩
    | threadEnds i => exact ⟨rfl, [], by simp [jstep, isMain]⟩
    | exec =>
      have hm' := hm env rfl
      refine ⟨?_, [], by simp [jstep, isMain, hm']⟩
      rcases isLoop_cases h.1.1 with hp | hp | hp | hp
      · simp [jstep, ExecutorRun.step, ExecutorRun.exec, hp, h.1.2.1]
      · simp only [jstep, ExecutorRun.step, ExecutorRun.exec, hp]
        split <;> rfl
      · simp [jstep, ExecutorRun.step, ExecutorRun.exec, hp]
      · exact absurd hp hm'

/-- If the time goes beyond the deadline, the safety system has run before, with only events in between. -/
theorem main_in_time {P L : K} (hP : 0 ≤ P) (n : Nat) (ops : List (JOp V K)) : ∀ {x : JSt V K}, Inv P x → (∀ op ∈ ops, Regular op) →
    (∀ a b, ops = a ++ b → KeepsUp L (jrun P n x a)) → x.1.next + L < (jrun P n x ops).1.now →
    ∃ (a : List (JOp V K)) (env : Env V) (b : List (JOp V K)) (es : List EventId), ops = a ++ .core .exec env :: b ∧ (jrun P n x a).1.pc = .main ∧
      x.1.next ≤ (jrun P n x a).1.now ∧ (jrun P n x a).1.now ≤ x.1.next + L ∧ (jrun P n x a).2 = x.2 ++ es.map Op.trigger := by
  induction ops with
  | nil =>
    intro x h _ hk ht
    have := hk [] [] rfl h.1.1
    exact absurd (lt_of_lt_of_le ht this) (lt_irrefl _)
  | cons op ops ih =>
    intro x h hr hk ht
    by_cases hm : ∃ env, op = .core .exec env ∧ x.1.pc = .main
    · obtain ⟨env, rfl, hp⟩ := hm
      exact ⟨[], env, ops, [], rfl, hp, h.2 (Or.inr hp), hk [] _ rfl h.1.1, by simp [jrun]⟩
    · have hm' : ∀ env, op = .core .exec env → x.1.pc ≠ .main := fun env he hp => hm ⟨env, he, hp⟩
      obtain ⟨h1, es, h2⟩ := jstep_not_main n h op hm'
      have hi := inv_jstep hP n h op (hr op (by simp))
      obtain ⟨a, env, b, es', he, hp, hlo, hup, htr⟩ := ih hi (fun o ho => hr o (List.mem_cons_of_mem _ ho))
        (fun a b hab => hk (op :: a) b (by rw [hab]; rfl)) (by rw [h1]; exact ht)
      refine ⟨op :: a, env, b, es ++ es', by rw [he]; rfl, hp, ?_, ?_, ?_⟩
      · rw [h1] at hlo; exact hlo
      · rw [h1] at hup; exact hup
      · show (jrun P n (jstep P n x op) a).2 = _
        rw [htr, h2]; simp

/-- **C227.** The safety system is the main task of an executor with period `P` which keeps up with its plan to `L`.  After any history, an event comes at a time `t` at which the executor is
in its loop, and it leads from the current level `c` publicly to the lower level `d`.  Then the safety system runs at a time between `t` and `t + P + L` (`a` is what happens before, with any
number of further events; nothing else was called in the safety system), and in this run, before any action, a level not above `d` becomes the current one, exactly its actions are executed and
every critical output is set. -/
theorem reaction_time [CppVal V] (p : Properties V) (acts : LevelRef → Nat) (s0 : Sys) (hcon : construct p acts = .ok s0) (hcl : Closed p)
    (P L : K) (hP : 0 ≤ P) (n : Nat) (now0 : K) (r : Bool) (before after : List (JOp V K))
    (hreg : ∀ op ∈ before ++ after, Regular op)
    (hloop : ExecutorRun.isLoop (jrun P n (jinit (V := V) now0 r) before).1.pc)
    (s : Sys) (tr : List Obs) (hs : exec p s0 (jrun P n (jinit (V := V) now0 r) before).2 = .ok (s, tr)) (c d : LevelRef) (hc : s.cur = some c)
    (e : EventId) (hrg : Registered p c ⟨e, false⟩ d) (hd : (p.lvl d).id < (p.lvl c).id)
    (hkeep : ∀ a b, after = a ++ b → KeepsUp L (jrun P n (jinit (V := V) now0 r) (before ++ .trigger e :: a)))
    (hend : (jrun P n (jinit (V := V) now0 r) before).1.now + P + L < (jrun P n (jinit (V := V) now0 r) (before ++ .trigger e :: after)).1.now) :
    ∃ (a : List (JOp V K)) (env : Env V) (b : List (JOp V K)) (es : List EventId) (s1 s2 : Sys) (tr1 : List Obs) (l m : LevelRef) (mid : List Obs),
      after = a ++ .core .exec env :: b ∧
      (jrun P n (jinit (V := V) now0 r) (before ++ .trigger e :: a)).1.pc = .main ∧
      (jrun P n (jinit (V := V) now0 r) before).1.now ≤ (jrun P n (jinit (V := V) now0 r) (before ++ .trigger e :: a)).1.now ∧
      (jrun P n (jinit (V := V) now0 r) (before ++ .trigger e :: a)).1.now ≤ (jrun P n (jinit (V := V) now0 r) before).1.now + P + L ∧
      (jrun P n (jinit (V := V) now0 r) (before ++ .trigger e :: a)).2 = (jrun P n (jinit (V := V) now0 r) before).2 ++ (e :: es).map Op.trigger ∧
      exec p s0 (jrun P n (jinit (V := V) now0 r) (before ++ .trigger e :: a)).2 = .ok (s1, tr1) ∧
      exec p s1 [.run env] = .ok (s2, .level l :: (mid ++ [.level m])) ∧ (p.lvl l).id ≤ (p.lvl d).id ∧
      mid.filter Obs.isExec = expectedCycle p l ∧ ∀ o ∈ p.criticalOutputs, ∃ i, Obs.set l i o ∈ mid := by
  have hst := started_jrun hP n before (x := jinit (V := V) now0 r) (Or.inl rfl) (fun o ho => hreg o (List.mem_append_left _ ho))
  have happ : ∀ a, jrun P n (jinit (V := V) now0 r) (before ++ .trigger e :: a) =
      jrun P n ((jrun P n (jinit (V := V) now0 r) before).1, (jrun P n (jinit (V := V) now0 r) before).2 ++ [.trigger e]) a := by
    intro a
    rw [jrun_append]
    rfl
  simp only [happ] at hkeep hend ⊢
  generalize jrun P n (jinit (V := V) now0 r) before = x at *
  have hi : Inv P x := by
    rcases hst with h | ⟨h, -⟩ | h
    · rw [h] at hloop; simp [ExecutorRun.isLoop] at hloop
    · rw [h] at hloop; simp [ExecutorRun.isLoop] at hloop
    · exact h
  have hi' : Inv P ((x.1, x.2 ++ [.trigger e]) : JSt V K) := hi
  have hreg' : ∀ op ∈ after, Regular op := fun o ho => hreg o (List.mem_append_right _ ho)
  have hnext : x.1.next ≤ x.1.now + P := hi.1.2.2
  obtain ⟨a, env, b, es, hab, hp, hlo, hup, htr⟩ := main_in_time (L := L) hP n after hi' hreg' hkeep (lt_of_le_of_lt (by show x.1.next + L ≤ _; linarith) hend)
  obtain ⟨s1, s2, l, mid, m, h1, h2, h3, h4, h5⟩ := Reaction.events_reaction p acts s0 s hcon hcl x.2 tr hs c hc (e :: es) e (by simp) d hrg hd env
  have hev : (jrun P n ((x.1, x.2 ++ [.trigger e]) : JSt V K) a).2 = x.2 ++ (e :: es).map Op.trigger := by rw [htr]; simp
  refine ⟨a, env, b, es, s1, s2, tr ++ (pubTrigs (e :: es)).map Obs.trig, l, m, mid, hab, hp, ?_, ?_, hev, ?_, h2, h3, h4, h5⟩
  · -- the clock does not go back
    have mono : ∀ (ops : List (JOp V K)) (y : JSt V K), (∀ op ∈ ops, Regular op) → y.1.now ≤ (jrun P n y ops).1.now := by
      intro ops
      induction ops with
      | nil => intro y _; exact le_refl _
      | cons op ops ih =>
        intro y hy
        refine le_trans ?_ (ih (jstep P n y op) (fun o ho => hy o (List.mem_cons_of_mem _ ho)))
        cases op with
        | trigger e => exact le_refl _
        | core op env =>
          cases op with
          | stop => exact le_refl _
          | advance d =>
            have : (0 : K) ≤ d := hy (.core (.advance d) env) (by simp)
            show y.1.now ≤ y.1.now + d
            linarith
          | threadEnds i => exact le_refl _
          | exec =>
            refine le_of_eq ?_
            show y.1.now = (ExecutorRun.exec P n y.1).now
            unfold ExecutorRun.exec
            split <;> (try split) <;> rfl
    exact mono a (x.1, x.2 ++ [.trigger e]) (fun o ho => hreg' o (by rw [hab]; exact List.mem_append_left _ ho))
  · refine le_trans hup ?_
    show x.1.next + L ≤ _
    linarith
  · rw [hev, Reaction.exec_append, hs]
    simp only [bind, Except.bind, h1, Pure.pure, Except.pure]

end

/-- Case: period 1, at most 1/2 late.  At time 0 the executor sleeps in level 2 when event 7 comes, which leads to level 1.  The safety system runs at time 5/4; time goes on to 9/4. -/
def sampleBefore : List (JOp Bool ℚ) := List.replicate 3 (.core .exec (demoEnv true))
def sampleAfter : List (JOp Bool ℚ) :=
  [.core (.advance 1) (demoEnv true), .core .exec (demoEnv true), .trigger 3, .core .exec (demoEnv true), .core (.advance (1/4)) (demoEnv true), .core .exec (demoEnv true),
    .core .exec (demoEnv true), .core (.advance 1) (demoEnv true)]

theorem sample_keeps_up : ∀ k ≤ 8, KeepsUp (1/2) (jrun 1 0 (jinit (V := Bool) (0 : ℚ) false) (sampleBefore ++ .trigger 7 :: sampleAfter.take k)) := by
  intro k hk
  interval_cases k <;>
    norm_num [KeepsUp, jrun, jinit, jstep, sampleBefore, sampleAfter, List.replicate, ExecutorRun.init, ExecutorRun.step, ExecutorRun.exec, ExecutorRun.isLoop]

example : ∃ (a : List (JOp Bool ℚ)) (env : Env Bool) (b : List (JOp Bool ℚ)) (s1 s2 : Sys) (tr1 : List Obs) (l m : LevelRef) (mid : List Obs),
    sampleAfter = a ++ .core .exec env :: b ∧ (jrun 1 0 (jinit (V := Bool) (0 : ℚ) false) (sampleBefore ++ .trigger 7 :: a)).1.now ≤ 3/2 ∧
    exec demo' s1 [.run env] = .ok (s2, .level l :: (mid ++ [.level m])) ∧ (demo'.lvl l).id ≤ (demo'.lvl 1).id ∧ ∀ o ∈ demo'.criticalOutputs, ∃ i, Obs.set l i o ∈ mid := by
  have hnow : (jrun 1 0 (jinit (V := Bool) (0 : ℚ) false) sampleBefore).1.now = 0 := by
    norm_num [jrun, jinit, jstep, sampleBefore, List.replicate, ExecutorRun.init, ExecutorRun.step, ExecutorRun.exec]
  obtain ⟨a, env, b, es, s1, s2, tr1, l, m, mid, h1, h2, h3, h4, h5, h6, h7, h8, h9, h10⟩ :=
    reaction_time demo' (fun _ => 0) _ rfl demo'_closed (1 : ℚ) (1/2) (by norm_num) 0 0 false sampleBefore sampleAfter
      (by simp [sampleBefore, sampleAfter, List.replicate, Regular]) (by
        norm_num [jrun, jinit, jstep, sampleBefore, List.replicate, ExecutorRun.init, ExecutorRun.step, ExecutorRun.exec, ExecutorRun.isLoop]) _ _ rfl 2 1 rfl 7
      ⟨.pub, by decide, Or.inl rfl⟩ (by decide) (by
        intro a b hab
        have hl : a.length ≤ 8 := by
          have : (a ++ b).length = 8 := by rw [← hab]; rfl
          simp at this; omega
        have := sample_keeps_up a.length hl
        rwa [hab, List.take_left] at this) (by
        rw [hnow]
        norm_num [jrun, jinit, jstep, sampleBefore, sampleAfter, List.replicate, ExecutorRun.init, ExecutorRun.step, ExecutorRun.exec])
  refine ⟨a, env, b, s1, s2, tr1, l, m, mid, h1, ?_, h7, h8, h10⟩
  rw [hnow] at h4
  linarith

/-- The other side of C227: an event which comes after `stop` was called and while the executor is about to test the flag (or later) finds no run of the safety system any more, whatever happens. -/
theorem no_reaction_after_stop (P : K) (n : Nat) (x : JSt V K) (hx : x.1.running = false)
    (hp : x.1.pc = .test ∨ (∃ k, x.1.pc = .stopping k) ∨ (∃ k, x.1.pc = .joining k) ∨ x.1.pc = .done) (ops : List (JOp V K)) :
    ∃ es : List EventId, (jrun P n x ops).2 = x.2 ++ es.map Op.trigger := by
  induction ops generalizing x with
  | nil => exact ⟨[], by simp [jrun]⟩
  | cons op ops ih =>
    have key : (jstep P n x op).1.running = false ∧ ((jstep P n x op).1.pc = .test ∨ (∃ k, (jstep P n x op).1.pc = .stopping k) ∨
        (∃ k, (jstep P n x op).1.pc = .joining k) ∨ (jstep P n x op).1.pc = .done) ∧ ∃ es : List EventId, (jstep P n x op).2 = x.2 ++ es.map Op.trigger := by
      cases op with
      | trigger e => exact ⟨hx, hp, [e], rfl⟩
      | core op env =>
        cases op with
        | stop => exact ⟨rfl, hp, [], by simp [jstep, isMain]⟩
        | advance d => exact ⟨hx, hp, [], by simp [jstep, isMain]⟩
        | threadEnds i => exact ⟨hx, hp, [], by simp [jstep, isMain]⟩
        | exec =>
          have hm : x.1.pc ≠ .main := by rcases hp with h | ⟨k, h⟩ | ⟨k, h⟩ | h <;> rw [h] <;> simp
          refine ⟨?_, ?_, [], by simp [jstep, isMain, hm]⟩
          · show (ExecutorRun.exec P n x.1).running = false
            rcases hp with h | ⟨k, h⟩ | ⟨k, h⟩ | h
            · simp [ExecutorRun.exec, h, hx]
            · cases k <;> simp [ExecutorRun.exec, h, hx]
            · cases k with
              | zero => simp [ExecutorRun.exec, h, hx]
              | succ k => simp only [ExecutorRun.exec, h]; split <;> exact hx
            · simp [ExecutorRun.exec, h, hx]
          · show (ExecutorRun.exec P n x.1).pc = _ ∨ (∃ k, (ExecutorRun.exec P n x.1).pc = _) ∨ (∃ k, (ExecutorRun.exec P n x.1).pc = _) ∨ (ExecutorRun.exec P n x.1).pc = _
            rcases hp with h | ⟨k, h⟩ | ⟨k, h⟩ | h
            · simp [ExecutorRun.exec, h, hx]
            · cases k <;> simp [ExecutorRun.exec, h]
            · cases k with
              | zero => simp [ExecutorRun.exec, h]
              | succ k => simp only [ExecutorRun.exec, h]; split <;> simp [h]
            · simp [ExecutorRun.exec, h]
    obtain ⟨k1, k2, es, k3⟩ := key
    obtain ⟨es', h'⟩ := ih (jstep P n x op) k1 k2
    refine ⟨es ++ es', ?_⟩
    show (jrun P n (jstep P n x op) ops).2 = _
    rw [h', k3]
    simp

/-- Case: the executor is at its test when `stop` has been called. -/
example : ∃ es : List EventId, (jrun 1 0 ((⟨5, false, .test, 6, 0, fun _ => false, []⟩, [.run (demoEnv true)]) : JSt Bool ℚ) (.trigger 7 :: sampleAfter)).2 =
    [.run (demoEnv true)] ++ es.map Op.trigger := no_reaction_after_stop 1 0 (⟨5, false, .test, 6, 0, fun _ => false, []⟩, [.run (demoEnv true)]) rfl (Or.inl rfl) _

end Verif.Safety.ReactionTime
