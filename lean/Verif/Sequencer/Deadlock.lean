import Mathlib.Algebra.BigOperators.Intervals
import Mathlib.Algebra.Order.BigOperators.Group.Finset
import Mathlib.Tactic.Linarith
/-!
C192, C193, C194: threads which call, start and wait for sequences, use blocks with a mutex and trigger safety events.

Modelled: what the threads of a program lock and wait for.  A sequence or step holds its mutex from BaseSequence.cpp:31 to the end of `action` (77), that is
during its own actions, the exception sequences its monitors start (134) and everything these call.  The start of a non-blocking sequence (Sequence.cpp:53)
creates a thread and assigns its future to `fut`; this assignment releases the future of the previous start, which waits for that thread (the destructor of a
future of `std::async` does so).  `wait` (62-64) waits for the thread of the last start.  Methods of blocks hold the mutex of the block (Saturation.hpp:54,
Gain.hpp:108 and 220-269, WrapAround.hpp:48, RateLimiter.hpp:80, I.hpp:54, Constant.hpp:50, PathPlannerConstAcc.hpp:64-232, ...); `run` of Switch.hpp (57-73)
and of SignalChecker.hpp (84-115) trigger a safety event while they hold it, and SafetySystem.cpp:55-62 takes the mutex of the safety system for a moment.  Not
modelled: what the actions compute, user mutexes, and the race of two threads which touch `fut` of the same sequence at once (assignment, `valid`, `get` and the
thread are taken as single steps).
-/
namespace Verif.Sequencer.Deadlock

/-- What carries a mutex: sequences and steps (BaseSequence.hpp:186), blocks, and the safety system (SafetySystem.hpp:66). -/
inductive Obj where
  | seq (s : Nat)
  | block (b : Nat)
  | safety
deriving DecidableEq

/-- What a thread does; the actions of user code are arbitrary, but finite. -/
inductive Act where
  /-- `BaseSequence::action` of a blocking sequence or step (BaseSequence.cpp:23-78), a method of a block, or `triggerEvent`, with what happens in it -/
  | call (o : Obj) (body : List Act)
  /-- `start` of a non-blocking sequence (Sequence.cpp:53), whose run does `body` and returns `v` -/
  | start (s : Nat) (body : List Act) (v : Int)
  /-- `Sequence::wait` (62-64) -/
  | wait (s : Nat)

inductive Item where
  | act (a : Act)
  /-- end of the scope of the lock -/
  | leave (o : Obj)
  /-- assignment of the future of thread `t` to `fut` of sequence `s` (53) -/
  | store (s t : Nat)

/-- A thread: what is left to do, and what it will return. -/
structure Th where
  todo : List Item
  val : Int

/-- `fut` and `result` are the members `fut` and `retVal` of the sequences (Sequence.hpp:87, 88). -/
structure World where
  n : Nat
  th : Nat → Th
  owner : Obj → Option Nat
  fut : Nat → Option Nat
  result : Nat → Option Int

def set {A B : Type} [DecidableEq A] (f : A → B) (a : A) (b : B) : A → B := fun x => if x = a then b else f x

def goOn (w : World) (i : Nat) (l : List Item) : Nat → Th := set w.th i { w.th i with todo := l }

/-- A step of thread `i`; `none` if it has to wait or has ended. -/
def step (w : World) (i : Nat) : Option World :=
  match (w.th i).todo with
  | [] => none
  | .act (.call o body) :: rest =>
    match w.owner o with
    | none => some { w with owner := set w.owner o (some i), th := goOn w i (body.map .act ++ .leave o :: rest) }   -- std::lock_guard lock(mtx);
    | some _ => none
  | .leave o :: rest => some { w with owner := set w.owner o none, th := goOn w i rest }
  | .act (.start s body v) :: rest =>                                                                                 -- std::async(...)
    some { w with n := w.n + 1, th := set (goOn w i (.store s w.n :: rest)) w.n ⟨[.act (.call (.seq s) body)], v⟩ }
  | .store s t :: rest =>                                                                                             -- fut = ...
    match w.fut s with
    | none => some { w with fut := set w.fut s (some t), th := goOn w i rest }
    | some u => match (w.th u).todo with
      | [] => some { w with fut := set w.fut s (some t), th := goOn w i rest }
      | _ :: _ => none
  | .act (.wait s) :: rest =>                                                                                         -- if (fut.valid()) retVal = fut.get();
    match w.fut s with
    | none => some { w with th := goOn w i rest }
    | some u => match (w.th u).todo with
      | [] => some { w with fut := set w.fut s none, result := set w.result s (some (w.th u).val), th := goOn w i rest }
      | _ :: _ => none

def exec (w : World) : List Nat → Option World
  | [] => some w
  | i :: is => (step w i).bind (fun w => exec w is)

/-- The threads of the program (main, time domains, safety system) with what they do. -/
def init (progs : List (List Act)) : World :=
  { n := progs.length, th := fun i => ⟨(progs.getD i []).map .act, 0⟩, owner := fun _ => none, fut := fun _ => none, result := fun _ => none }

/-! ### Specification -/

/-- The sequences are ordered: `rk` is smaller for those which are called, started or waited for within another one (including exception sequences).  Methods of
blocks trigger at most a safety event, and triggering an event calls nothing else. -/
inductive Ordered (rk : Nat → Nat) : Nat → Act → Prop
  | seq {c s body} : rk s < c → (∀ a ∈ body, Ordered rk (rk s) a) → Ordered rk c (.call (.seq s) body)
  | start {c s body v} : rk s < c → (∀ a ∈ body, Ordered rk (rk s) a) → Ordered rk c (.start s body v)
  | wait {c s} : rk s < c → Ordered rk c (.wait s)
  | block {c b} : Ordered rk c (.call (.block b) [])
  | blockTriggers {c b} : Ordered rk c (.call (.block b) [.call .safety []])
  | trigger {c} : Ordered rk c (.call .safety [])

/-- The number of locks, unlocks, starts and waits in a program. -/
def wt : Act → Nat
  | .call _ body => 2 + wts body
  | .start _ body _ => 4 + wts body
  | .wait _ => 1
where wts : List Act → Nat
  | [] => 0
  | a :: l => wt a + wts l

def Finished (w : World) : Prop := ∀ i, (w.th i).todo = []

/-! ### Ranks of all mutexes -/

def rank (rk : Nat → Nat) : Obj → Nat
  | .safety => 0
  | .block _ => 1
  | .seq s => rk s + 2

variable {R : Obj → Nat}

inductive Fit (R : Obj → Nat) : Nat → Act → Prop
  | call {c o body} : 2 * R o < c → (∀ a ∈ body, Fit R (2 * R o) a) → Fit R c (.call o body)
  | start {c s body v} : 2 * R (.seq s) + 1 < c → (∀ a ∈ body, Fit R (2 * R (.seq s)) a) → Fit R c (.start s body v)
  | wait {c s} : 2 * R (.seq s) + 1 < c → Fit R c (.wait s)

theorem fit_of_ordered {rk : Nat → Nat} {c : Nat} {a : Act} (h : Ordered rk c a) : Fit (rank rk) (2 * (c + 2)) a := by
  induction h with
  | seq h1 _ ih => exact .call (by simp only [rank]; omega) (fun a ha => by simpa only [rank] using ih a ha)
  | start h1 _ ih => exact .start (by simp only [rank]; omega) (fun a ha => by simpa only [rank] using ih a ha)
  | wait h1 => exact .wait (by simp only [rank]; omega)
  | block => exact .call (by simp only [rank]; omega) (fun a ha => by simp at ha)
  | blockTriggers =>
    refine .call (by simp only [rank]; omega) (fun a ha => ?_)
    simp only [List.mem_singleton] at ha
    subst ha
    exact .call (by simp only [rank]; omega) (fun a ha => by simp at ha)
  | trigger => exact .call (by simp only [rank]; omega) (fun a ha => by simp at ha)

def cap (R : Obj → Nat) (c : Nat) : List Item → Nat
  | [] => c
  | .leave o :: _ => 2 * R o
  | _ :: l => cap R c l

def Good (R : Obj → Nat) (c : Nat) : List Item → Prop
  | [] => True
  | .act a :: l => Fit R (cap R c l) a ∧ Good R c l
  | .leave o :: l => 2 * R o < cap R c l ∧ Good R c l
  | .store s _ :: l => 2 * R (.seq s) + 1 < cap R c l ∧ Good R c l

theorem cap_le {c : Nat} {l : List Item} (h : Good R c l) : cap R c l ≤ c := by
  induction l with
  | nil => exact Nat.le_refl _
  | cons x l ih =>
    cases x with
    | act a => exact ih h.2
    | leave o => exact Nat.le_of_lt (Nat.lt_of_lt_of_le h.1 (ih h.2))
    | store s t => exact ih h.2

theorem cap_le_leave {c : Nat} {l : List Item} {o : Obj} (h : Good R c l) (ho : Item.leave o ∈ l) : cap R c l ≤ 2 * R o := by
  induction l with
  | nil => simp at ho
  | cons x l ih =>
    cases x with
    | act a => exact ih h.2 (by simpa using ho)
    | store s t => exact ih h.2 (by simpa using ho)
    | leave p =>
      simp only [List.mem_cons, Item.leave.injEq] at ho
      rcases ho with rfl | ho
      · exact Nat.le_refl _
      · exact Nat.le_of_lt (Nat.lt_of_lt_of_le h.1 (ih h.2 ho))

theorem good_tail {c : Nat} {x : Item} {l : List Item} (h : Good R c (x :: l)) : Good R c l := by cases x <;> exact h.2

theorem cap_acts {c : Nat} (body : List Act) (l : List Item) : cap R c (body.map .act ++ l) = cap R c l := by
  induction body with
  | nil => rfl
  | cons a b ih => exact ih

theorem good_acts {c : Nat} {body : List Act} {l : List Item} (hb : ∀ a ∈ body, Fit R (cap R c l) a) (h : Good R c l) : Good R c (body.map .act ++ l) := by
  induction body with
  | nil => exact h
  | cons a b ih => exact ⟨(cap_acts b l).symm ▸ hb a (by simp), ih (fun x hx => hb x (by simp [hx]))⟩

theorem good_call {c : Nat} {o : Obj} {body : List Act} {l : List Item} (h : Good R c (.act (.call o body) :: l)) :
    Good R c (body.map .act ++ .leave o :: l) := by
  obtain ⟨h1, h2⟩ := h
  cases h1 with
  | call h3 h4 => exact good_acts (by exact h4) ⟨h3, h2⟩

theorem good_start {c s t : Nat} {body : List Act} {v : Int} {l : List Item} (h : Good R c (.act (.start s body v) :: l)) :
    Good R c (.store s t :: l) ∧ Good R (2 * R (.seq s) + 1) [.act (.call (.seq s) body)] := by
  obtain ⟨h1, h2⟩ := h
  cases h1 with
  | start h3 h4 => exact ⟨⟨h3, h2⟩, .call (by simp [cap]) h4, trivial⟩

/-! ### Invariant -/

structure Inv (R : Obj → Nat) (w : World) : Prop where
  fresh : ∀ i, w.n ≤ i → (w.th i).todo = []
  good : ∀ i, ∃ c, Good R c (w.th i).todo
  hold : ∀ o i, w.owner o = some i → Item.leave o ∈ (w.th i).todo
  fut : ∀ s t, w.fut s = some t → t < w.n ∧ Good R (2 * R (.seq s) + 1) (w.th t).todo
  store : ∀ i s t, Item.store s t ∈ (w.th i).todo → t < w.n ∧ Good R (2 * R (.seq s) + 1) (w.th t).todo

/-- The step keeps the ranks of all threads. -/
structure Keeps (R : Obj → Nat) (w w' : World) : Prop where
  n : w.n ≤ w'.n
  good : ∀ j, j < w.n → ∀ c, Good R c (w.th j).todo → Good R c (w'.th j).todo

theorem goOn_same (w : World) (i : Nat) (l : List Item) : (goOn w i l i).todo = l := by simp [goOn, set]
theorem goOn_other (w : World) {i j : Nat} (l : List Item) (h : j ≠ i) : goOn w i l j = w.th j := by simp [goOn, set, h]

theorem goOn_good {w : World} {i : Nat} {l : List Item} (h : ∀ c, Good R c (w.th i).todo → Good R c l) (j c : Nat) (hj : Good R c (w.th j).todo) :
    Good R c (goOn w i l j).todo := by
  by_cases hji : j = i
  · subst hji; rw [goOn_same]; exact h c hj
  · rw [goOn_other w l hji]; exact hj

/-- Steps which create no thread. -/
theorem inv_goOn {w w' : World} {i : Nat} {l : List Item} (h : Inv R w) (hn : w'.n = w.n) (hth : w'.th = goOn w i l) (hi : i < w.n)
    (hg : ∀ c, Good R c (w.th i).todo → Good R c l) (hown : ∀ o k, w'.owner o = some k → Item.leave o ∈ (w'.th k).todo)
    (hfut : ∀ s t, w'.fut s = some t → w.fut s = some t ∨ Item.store s t ∈ (w.th i).todo)
    (hst : ∀ s t, Item.store s t ∈ l → Item.store s t ∈ (w.th i).todo) : Inv R w' := by
  have gg : ∀ j c, Good R c (w.th j).todo → Good R c (w'.th j).todo := fun j c hj => by rw [hth]; exact goOn_good hg j c hj
  refine ⟨?_, ?_, hown, ?_, ?_⟩
  · intro j hj
    rw [hn] at hj
    rw [hth, goOn_other w l (by omega)]; exact h.fresh j hj
  · intro j
    obtain ⟨c, hc⟩ := h.good j
    exact ⟨c, gg j c hc⟩
  · intro s t hs
    rw [hn]
    rcases hfut s t hs with h1 | h1
    · exact ⟨(h.fut s t h1).1, gg _ _ (h.fut s t h1).2⟩
    · exact ⟨(h.store i s t h1).1, gg _ _ (h.store i s t h1).2⟩
  · intro j s t hs
    rw [hn]
    have h1 : ∃ k, Item.store s t ∈ (w.th k).todo := by
      rw [hth] at hs
      by_cases hji : j = i
      · subst hji; rw [goOn_same] at hs; exact ⟨j, hst s t hs⟩
      · rw [goOn_other w l hji] at hs; exact ⟨j, hs⟩
    obtain ⟨k, hk⟩ := h1
    exact ⟨(h.store k s t hk).1, gg _ _ (h.store k s t hk).2⟩

/-- No thread leaves a mutex twice. -/
theorem leave_once {c : Nat} {o : Obj} {l : List Item} (h : Good R c (.leave o :: l)) : Item.leave o ∉ l := by
  intro hm
  exact absurd (Nat.lt_of_lt_of_le h.1 (cap_le_leave h.2 hm)) (Nat.lt_irrefl _)

theorem lt_of_todo {w : World} (h : Inv R w) {i : Nat} {x : Item} {l : List Item} (ht : (w.th i).todo = x :: l) : i < w.n := by
  rcases Nat.lt_or_ge i w.n with h1 | h1
  · exact h1
  · rw [h.fresh i h1] at ht; cases ht

theorem inv_step {w w' : World} {i : Nat} (h : Inv R w) (hs : step w i = some w') : Inv R w' := by
  obtain ⟨c, hc⟩ := h.good i
  cases ht : (w.th i).todo with
  | nil => simp [step, ht] at hs
  | cons x l =>
    have hi := lt_of_todo h ht
    rw [ht] at hc
    -- steps which neither lock nor unlock
    have own : ∀ {w' : World}, w'.owner = w.owner → w'.th = goOn w i l → (∀ o, x ≠ .leave o) → ∀ o k, w'.owner o = some k → Item.leave o ∈ (w'.th k).todo := by
      intro w' ho hth hx o k hk
      rw [ho] at hk
      have := h.hold o k hk
      rw [hth]
      by_cases hki : k = i
      · subst hki
        rw [goOn_same]
        rw [ht] at this
        rcases List.mem_cons.1 this with h1 | h1
        · exact absurd h1.symm (hx o)
        · exact h1
      · rw [goOn_other w l hki]; exact this
    cases x with
    | leave o =>
      simp only [step, ht, Option.some.injEq] at hs
      subst hs
      refine inv_goOn (l := l) h rfl rfl hi (fun c' hc' => ?_) ?_ (fun s t hst => Or.inl hst) (fun s t hst => ?_)
      · rw [ht] at hc'; exact hc'.2
      · intro p k hk
        simp only [set] at hk
        split at hk
        · cases hk
        · next hp =>
          have := h.hold p k hk
          show Item.leave p ∈ (goOn w i l k).todo
          by_cases hki : k = i
          · subst hki
            rw [goOn_same]
            rw [ht] at this
            rcases List.mem_cons.1 this with h1 | h1
            · simp only [Item.leave.injEq] at h1; exact absurd h1 hp
            · exact h1
          · rw [goOn_other w l hki]; exact this
      · rw [ht]; exact List.mem_cons_of_mem _ hst
    | store s t =>
      have key : ∀ {w' : World}, w' = { w with fut := set w.fut s (some t), th := goOn w i l } → Inv R w' := by
        intro w' hw
        subst hw
        refine inv_goOn (l := l) h rfl rfl hi (fun c' hc' => ?_) (own rfl rfl (fun o hx => by cases hx)) ?_ (fun s t hst => ?_)
        · rw [ht] at hc'; exact hc'.2
        · intro s' t' hst
          simp only [set] at hst
          split at hst
          · next he =>
            simp only [Option.some.injEq] at hst
            subst he; subst hst
            exact Or.inr (by rw [ht]; simp)
          · exact Or.inl hst
        · rw [ht]; exact List.mem_cons_of_mem _ hst
      simp only [step, ht] at hs
      split at hs
      · simp only [Option.some.injEq] at hs; exact key hs.symm
      · split at hs
        · simp only [Option.some.injEq] at hs; exact key hs.symm
        · cases hs
    | act a =>
      cases a with
      | call o body =>
        simp only [step, ht] at hs
        split at hs
        · next ho =>
          simp only [Option.some.injEq] at hs
          subst hs
          refine inv_goOn (l := body.map .act ++ .leave o :: l) h rfl rfl hi (fun c' hc' => ?_) ?_ (fun s t hst => Or.inl hst) (fun s t hst => ?_)
          · rw [ht] at hc'; exact good_call hc'
          · intro p k hk
            simp only [set] at hk
            show Item.leave p ∈ (goOn w i _ k).todo
            split at hk
            · next hp =>
              simp only [Option.some.injEq] at hk
              subst hk; subst hp
              rw [goOn_same]; simp
            · have := h.hold p k hk
              by_cases hki : k = i
              · subst hki
                rw [goOn_same]
                rw [ht] at this
                simp only [List.mem_cons, reduceCtorEq, false_or] at this
                simp [this]
              · rw [goOn_other w _ hki]; exact this
          · rw [ht]
            simp only [List.mem_append, List.mem_map, List.mem_cons, reduceCtorEq, and_false, exists_false, false_or] at hst
            exact List.mem_cons_of_mem _ hst
        · cases hs
      | wait s =>
        have key : ∀ {w' : World}, w'.n = w.n → w'.th = goOn w i l → w'.owner = w.owner → (∀ s t, w'.fut s = some t → w.fut s = some t) → Inv R w' := by
          intro w' hn hth ho hf
          refine inv_goOn (l := l) h hn hth hi (fun c' hc' => ?_) (own ho hth (fun o hx => by cases hx)) (fun s t hst => Or.inl (hf s t hst)) (fun s t hst => ?_)
          · rw [ht] at hc'; exact hc'.2
          · rw [ht]; exact List.mem_cons_of_mem _ hst
        simp only [step, ht] at hs
        split at hs
        · simp only [Option.some.injEq] at hs; subst hs; exact key rfl rfl rfl (fun _ _ h => h)
        · split at hs
          · simp only [Option.some.injEq] at hs
            subst hs
            refine key rfl rfl rfl (fun s' t hst => ?_)
            simp only [set] at hst
            split at hst
            · cases hst
            · exact hst
          · cases hs
      | start s body v =>
        simp only [step, ht, Option.some.injEq] at hs
        subst hs
        have hne : i ≠ w.n := by omega
        have old : ∀ j, j ≠ w.n → (set (goOn w i (.store s w.n :: l)) w.n ⟨[.act (.call (.seq s) body)], v⟩) j = goOn w i (.store s w.n :: l) j := by
          intro j hj; simp [set, hj]
        have new : (set (goOn w i (.store s w.n :: l)) w.n ⟨[.act (.call (.seq s) body)], v⟩) w.n = ⟨[.act (.call (.seq s) body)], v⟩ := by simp [set]
        have gi : ∀ c, Good R c (w.th i).todo → Good R c (.store s w.n :: l) := fun c hc' => by rw [ht] at hc'; exact (good_start hc').1
        have gg : ∀ j, j < w.n → ∀ c, Good R c (w.th j).todo → Good R c ((set (goOn w i (.store s w.n :: l)) w.n ⟨[.act (.call (.seq s) body)], v⟩) j).todo := by
          intro j hj c' hc'
          rw [old j (by omega)]; exact goOn_good gi j c' hc'
        refine ⟨?_, ?_, ?_, ?_, ?_⟩
        · intro j hj
          show ((set (goOn w i (.store s w.n :: l)) w.n ⟨[.act (.call (.seq s) body)], v⟩) j).todo = []
          have hj' : w.n + 1 ≤ j := hj
          rw [old j (by omega), goOn_other w _ (by omega)]
          exact h.fresh j (by omega)
        · intro j
          by_cases hj : j = w.n
          · subst hj
            exact ⟨2 * R (.seq s) + 1, by show Good R _ (set (goOn w i (.store s w.n :: l)) w.n ⟨[.act (.call (.seq s) body)], v⟩ w.n).todo; rw [new]; exact (good_start (t := 0) hc).2⟩
          · rcases Nat.lt_or_gt_of_ne hj with h1 | h1
            · obtain ⟨c', hc'⟩ := h.good j
              exact ⟨c', gg j h1 c' hc'⟩
            · refine ⟨0, ?_⟩
              show Good R 0 ((set (goOn w i (.store s w.n :: l)) w.n ⟨[.act (.call (.seq s) body)], v⟩) j).todo
              rw [old j hj, goOn_other w _ (by omega), h.fresh j (by omega)]
              exact trivial
        · intro o k hk
          have h1 := h.hold o k hk
          have hk' : k < w.n := by
            rcases Nat.lt_or_ge k w.n with h2 | h2
            · exact h2
            · rw [h.fresh k h2] at h1; simp at h1
          show Item.leave o ∈ ((set (goOn w i (.store s w.n :: l)) w.n ⟨[.act (.call (.seq s) body)], v⟩) k).todo
          rw [old k (by omega)]
          by_cases hki : k = i
          · subst hki
            rw [goOn_same]
            rw [ht] at h1
            simp only [List.mem_cons, reduceCtorEq, false_or] at h1
            simp [h1]
          · rw [goOn_other w _ hki]; exact h1
        · intro s' t hst
          obtain ⟨h1, h2⟩ := h.fut s' t hst
          exact ⟨Nat.lt_succ_of_lt h1, gg t h1 _ h2⟩
        · intro j s' t hst
          have hst : Item.store s' t ∈ ((set (goOn w i (.store s w.n :: l)) w.n ⟨[.act (.call (.seq s) body)], v⟩) j).todo := hst
          have h1 : (s' = s ∧ t = w.n) ∨ ∃ k, Item.store s' t ∈ (w.th k).todo := by
            by_cases hj : j = w.n
            · subst hj
              rw [new] at hst; simp at hst
            · rw [old j hj] at hst
              by_cases hji : j = i
              · subst hji
                rw [goOn_same] at hst
                rcases List.mem_cons.1 hst with h1 | h1
                · simp only [Item.store.injEq] at h1; exact Or.inl h1
                · exact Or.inr ⟨j, by rw [ht]; exact List.mem_cons_of_mem _ h1⟩
              · rw [goOn_other w _ hji] at hst; exact Or.inr ⟨j, hst⟩
          rcases h1 with ⟨rfl, rfl⟩ | ⟨k, hk⟩
          · refine ⟨Nat.lt_succ_self _, ?_⟩
            show Good R _ (set (goOn w i (.store s' w.n :: l)) w.n ⟨[.act (.call (.seq s') body)], v⟩ w.n).todo
            rw [new]; exact (good_start (t := 0) hc).2
          · obtain ⟨h1, h2⟩ := h.store k s' t hk
            exact ⟨Nat.lt_succ_of_lt h1, gg t h1 _ h2⟩

theorem inv_exec {w w' : World} {is : List Nat} (h : Inv R w) (hs : exec w is = some w') : Inv R w' := by
  induction is generalizing w with
  | nil => simp only [exec, Option.some.injEq] at hs; subst hs; exact h
  | cons i is ih =>
    simp only [exec, Option.bind_eq_some_iff] at hs
    obtain ⟨w1, h1, h2⟩ := hs
    exact ih (inv_step h h1) h2

theorem inv_init {c : Nat} {progs : List (List Act)} (h : ∀ p ∈ progs, ∀ a ∈ p, Fit R c a) : Inv R (init progs) := by
  have hg : ∀ i, Good R c ((init progs).th i).todo := by
    intro i
    show Good R c ((progs.getD i []).map .act)
    have := good_acts (R := R) (c := c) (body := progs.getD i []) (l := []) (fun a ha => ?_) trivial
    · simpa using this
    · simp only [cap]
      rw [List.getD_eq_getElem?_getD] at ha
      cases hp : progs[i]? with
      | none => simp [hp] at ha
      | some p => simp only [hp, Option.getD_some] at ha; exact h p (List.mem_of_getElem? hp) a ha
  refine ⟨?_, fun i => ⟨c, hg i⟩, fun o i h => (by cases h), fun s t h => (by cases h), ?_⟩
  · intro i hi
    show (progs.getD i []).map Item.act = []
    have hi' : progs.length ≤ i := hi
    simp [List.getD_eq_getElem?_getD, List.getElem?_eq_none hi']
  · intro i s t hst
    have : Item.store s t ∈ (progs.getD i []).map Item.act := hst
    simp at this

/-! ### Progress -/

def want (R : Obj → Nat) : Item → Nat
  | .act (.call o _) => 2 * R o
  | .act (.start s _ _) => 2 * R (.seq s) + 1
  | .act (.wait s) => 2 * R (.seq s) + 1
  | .store s _ => 2 * R (.seq s) + 1
  | .leave o => 2 * R o

theorem want_lt {c : Nat} {x : Item} {l : List Item} (h : Good R c (x :: l)) : want R x < cap R c l := by
  cases x with
  | leave o => exact h.1
  | store s t => exact h.1
  | act a =>
    cases h.1 with
    | call h1 _ => exact h1
    | start h1 _ => exact h1
    | wait h1 => exact h1

theorem progress_aux {w : World} (h : Inv R w) : ∀ v i x l, (w.th i).todo = x :: l → want R x ≤ v → ∃ j w', step w j = some w' := by
  intro v
  induction v using Nat.strong_induction_on with
  | _ v ih =>
    intro i x l ht hv
    -- thread `j` can step or waits for something smaller
    have lower : ∀ j m, (w.th j).todo ≠ [] → (∀ y k, (w.th j).todo = y :: k → (∀ o, y ≠ .leave o) → want R y < m) → m ≤ v → ∃ j w', step w j = some w' := by
      intro j m hj hl hm
      cases hy : (w.th j).todo with
      | nil => exact absurd hy hj
      | cons y k =>
        by_cases hyl : ∃ o, y = .leave o
        · obtain ⟨o, rfl⟩ := hyl
          exact ⟨j, _, by simp only [step, hy]; rfl⟩
        · have := hl y k hy (fun o ho => hyl ⟨o, ho⟩)
          exact ih (want R y) (by omega) j y k hy (Nat.le_refl _)
    -- waiting for the thread of a sequence
    have joins : ∀ s u, w.fut s = some u → (w.th u).todo ≠ [] → 2 * R (.seq s) + 1 ≤ v → ∃ j w', step w j = some w' := by
      intro s u hf hu hm
      refine lower u _ hu (fun y k hy hyl => ?_) hm
      have hg := (h.fut s u hf).2
      rw [hy] at hg
      exact Nat.lt_of_lt_of_le (want_lt hg) (cap_le hg |>.trans' (by cases y <;> first | exact Nat.le_refl _ | exact absurd rfl (hyl _)))
    cases x with
    | leave o => exact ⟨i, _, by simp only [step, ht]; rfl⟩
    | store s t =>
      cases hf : w.fut s with
      | none => exact ⟨i, _, by simp only [step, ht, hf]; rfl⟩
      | some u =>
        cases hu : (w.th u).todo with
        | nil => exact ⟨i, _, by simp only [step, ht, hf, hu]; rfl⟩
        | cons y k => exact joins s u hf (by simp [hu]) hv
    | act a =>
      cases a with
      | start s body r => exact ⟨i, _, by simp only [step, ht]; rfl⟩
      | wait s =>
        cases hf : w.fut s with
        | none => exact ⟨i, _, by simp only [step, ht, hf]; rfl⟩
        | some u =>
          cases hu : (w.th u).todo with
          | nil => exact ⟨i, _, by simp only [step, ht, hf, hu]; rfl⟩
          | cons y k => exact joins s u hf (by simp [hu]) hv
      | call o body =>
        cases ho : w.owner o with
        | none => exact ⟨i, _, by simp only [step, ht, ho]; rfl⟩
        | some j =>
          have hm := h.hold o j ho
          refine lower j (2 * R o) (by intro he; rw [he] at hm; simp at hm) (fun y k hy hyl => ?_) hv
          obtain ⟨c, hg⟩ := h.good j
          rw [hy] at hg hm
          rcases List.mem_cons.1 hm with h1 | h1
          · exact absurd h1.symm (hyl o)
          · exact Nat.lt_of_lt_of_le (want_lt hg) (cap_le_leave (good_tail hg) h1)

/-! ### Termination -/

def wi : Item → Nat
  | .act a => wt a
  | _ => 1

def wl (l : List Item) : Nat := (l.map wi).sum

theorem wl_acts (body : List Act) : wl (body.map .act) = wt.wts body := by
  induction body with
  | nil => simp [wl, wt.wts]
  | cons a b ih => simp only [wl, List.map_cons, List.sum_cons, wi, wt.wts] at ih ⊢; omega

theorem wl_append (a b : List Item) : wl (a ++ b) = wl a + wl b := by simp [wl]
theorem wl_cons (x : Item) (l : List Item) : wl (x :: l) = wi x + wl l := by simp [wl]

def total (w : World) : Nat := ∑ i ∈ Finset.range w.n, wl (w.th i).todo

theorem sum_goOn {w : World} {i : Nat} {l : List Item} (hi : i < w.n) :
    ∑ j ∈ Finset.range w.n, wl (goOn w i l j).todo + wl (w.th i).todo = total w + wl l := by
  have hm : i ∈ Finset.range w.n := Finset.mem_range.2 hi
  rw [total, ← Finset.add_sum_erase _ _ hm, ← Finset.add_sum_erase _ _ hm, goOn_same]
  have : ∑ j ∈ (Finset.range w.n).erase i, wl (goOn w i l j).todo = ∑ j ∈ (Finset.range w.n).erase i, wl (w.th j).todo := by
    refine Finset.sum_congr rfl (fun j hj => ?_)
    rw [goOn_other w l (Finset.ne_of_mem_erase hj)]
  omega

theorem total_step {w w' : World} {i : Nat} (h : Inv R w) (hs : step w i = some w') : total w' + 1 ≤ total w := by
  cases ht : (w.th i).todo with
  | nil => simp [step, ht] at hs
  | cons x l =>
    have hi := lt_of_todo h ht
    have key : ∀ m, w'.n = w.n → w'.th = goOn w i m → wl m + 1 ≤ wl (x :: l) → total w' + 1 ≤ total w := by
      intro m hn hth hm
      have := sum_goOn (l := m) hi
      rw [ht] at this
      simp only [total, hn, hth] at this ⊢
      omega
    cases x with
    | leave o =>
      simp only [step, ht, Option.some.injEq] at hs
      subst hs
      exact key l rfl rfl (by rw [wl_cons]; simp only [wi]; omega)
    | store s t =>
      have : w' = { w with fut := set w.fut s (some t), th := goOn w i l } := by
        simp only [step, ht] at hs
        split at hs
        · simp only [Option.some.injEq] at hs; exact hs.symm
        · split at hs
          · simp only [Option.some.injEq] at hs; exact hs.symm
          · cases hs
      subst this
      exact key l rfl rfl (by rw [wl_cons]; simp only [wi]; omega)
    | act a =>
      cases a with
      | call o body =>
        simp only [step, ht] at hs
        split at hs
        · simp only [Option.some.injEq] at hs
          subst hs
          refine key _ rfl rfl ?_
          rw [wl_append, wl_acts, wl_cons, wl_cons]; simp only [wi, wt]; omega
        · cases hs
      | wait s =>
        simp only [step, ht] at hs
        split at hs
        · simp only [Option.some.injEq] at hs
          subst hs
          exact key l rfl rfl (by rw [wl_cons]; simp only [wi, wt]; omega)
        · split at hs
          · simp only [Option.some.injEq] at hs
            subst hs
            exact key l rfl rfl (by rw [wl_cons]; simp only [wi, wt]; omega)
          · cases hs
      | start s body v =>
        simp only [step, ht, Option.some.injEq] at hs
        subst hs
        simp only [total]
        rw [Finset.sum_range_succ]
        have h1 : ∑ j ∈ Finset.range w.n, wl ((set (goOn w i (.store s w.n :: l)) w.n ⟨[.act (.call (.seq s) body)], v⟩) j).todo
            = ∑ j ∈ Finset.range w.n, wl (goOn w i (.store s w.n :: l) j).todo := by
          refine Finset.sum_congr rfl (fun j hj => ?_)
          have := Finset.mem_range.1 hj
          simp [set, Nat.ne_of_lt this]
        rw [h1]
        have h2 := sum_goOn (w := w) (i := i) (l := .store s w.n :: l) hi
        rw [ht, wl_cons, wl_cons] at h2
        simp only [wi, wt, total] at h2
        have h3 : wl ((set (goOn w i (.store s w.n :: l)) w.n ⟨[.act (.call (.seq s) body)], v⟩) w.n).todo = 2 + wt.wts body := by
          simp [set, wl, wi, wt]
        rw [h3]
        omega

theorem total_exec {w w' : World} {is : List Nat} (h : Inv R w) (hs : exec w is = some w') : total w' + is.length ≤ total w := by
  induction is generalizing w with
  | nil => simp only [exec, Option.some.injEq] at hs; subst hs; simp
  | cons i is ih =>
    simp only [exec, Option.bind_eq_some_iff] at hs
    obtain ⟨w1, h1, h2⟩ := hs
    have := ih (inv_step h h1) h2
    have := total_step h h1
    simp only [List.length_cons]; omega

theorem total_init (progs : List (List Act)) : total (init progs) = (progs.map wt.wts).sum := by
  have : ∀ l : List (List Act), ∑ i ∈ Finset.range l.length, wl ((l.getD i []).map .act) = (l.map wt.wts).sum := by
    intro l
    induction l with
    | nil => rfl
    | cons p l ih =>
      rw [List.length_cons, Finset.sum_range_succ']
      simp only [List.getD_cons_succ, List.getD_cons_zero, List.map_cons, List.sum_cons, wl_acts] at ih ⊢
      omega
  exact this progs

theorem inv_ordered {rk : Nat → Nat} {c : Nat} {progs : List (List Act)} (h : ∀ p ∈ progs, ∀ a ∈ p, Ordered rk c a) : Inv (rank rk) (init progs) :=
  inv_init (c := 2 * (c + 2)) (fun p hp a ha => fit_of_ordered (h p hp a ha))

/-! ### C192 -/

/-- If the sequences are ordered, the threads never wait for each other for ever: at every time during every execution either all threads have ended or some
thread can go on. -/
theorem never_stuck {rk : Nat → Nat} {c : Nat} {progs : List (List Act)} (h : ∀ p ∈ progs, ∀ a ∈ p, Ordered rk c a) {is : List Nat} {w : World}
    (hs : exec (init progs) is = some w) : Finished w ∨ ∃ i w', step w i = some w' := by
  by_cases hf : Finished w
  · exact Or.inl hf
  · right
    have : ∃ i, (w.th i).todo ≠ [] := by
      simp only [Finished, not_forall] at hf; exact hf
    obtain ⟨i, hi⟩ := this
    cases ht : (w.th i).todo with
    | nil => exact absurd ht hi
    | cons x l => exact progress_aux (inv_exec (inv_ordered h) hs) _ i x l ht (Nat.le_refl _)

/-- ... and no execution is longer than the number of operations in the programs of the threads. -/
theorem bounded {rk : Nat → Nat} {c : Nat} {progs : List (List Act)} (h : ∀ p ∈ progs, ∀ a ∈ p, Ordered rk c a) {is : List Nat} {w : World}
    (hs : exec (init progs) is = some w) : is.length ≤ (progs.map wt.wts).sum := by
  have := total_exec (inv_ordered h) hs
  rw [total_init] at this
  omega

/-- Whatever has happened so far, all threads can end, and they do end if threads which can go on do so. -/
theorem all_end {rk : Nat → Nat} {c : Nat} {progs : List (List Act)} (h : ∀ p ∈ progs, ∀ a ∈ p, Ordered rk c a) {is : List Nat} {w : World}
    (hs : exec (init progs) is = some w) : ∃ js w', exec w js = some w' ∧ Finished w' := by
  have aux : ∀ k is w, exec (init progs) is = some w → total w ≤ k → ∃ js w', exec w js = some w' ∧ Finished w' := by
    intro k
    induction k with
    | zero =>
      intro is w hs hk
      rcases never_stuck h hs with hf | ⟨i, w1, h1⟩
      · exact ⟨[], w, rfl, hf⟩
      · have := total_step (inv_exec (inv_ordered h) hs) h1; omega
    | succ k ih =>
      intro is w hs hk
      rcases never_stuck h hs with hf | ⟨i, w1, h1⟩
      · exact ⟨[], w, rfl, hf⟩
      · have h2 : exec (init progs) (is ++ [i]) = some w1 := by
          have app : ∀ (a : List Nat) (v u : World), exec v a = some u → exec v (a ++ [i]) = step u i := by
            intro a
            induction a with
            | nil =>
              intro v u hv
              simp only [exec, Option.some.injEq] at hv
              subst hv
              simp only [List.nil_append, exec]
              cases step v i <;> rfl
            | cons b a iha =>
              intro v u hv
              simp only [exec, Option.bind_eq_some_iff, List.cons_append] at hv ⊢
              obtain ⟨x, hx, hy⟩ := hv
              rw [hx]
              exact iha x u hy
          rw [app is _ _ hs, h1]
        have h3 := total_step (inv_exec (inv_ordered h) hs) h1
        obtain ⟨js, w', h4, h5⟩ := ih _ w1 h2 (by omega)
        exact ⟨i :: js, w', by simp only [exec, h1, Option.bind_some]; exact h4, h5⟩
  exact aux _ is w hs (Nat.le_refl _)

/-- Main (thread 0) starts a sequence (3) and waits for it; its action calls two steps (1, 2), sets a gain (block 0), and its exception sequence (0) uses step 1.  The
time domain (thread 1) runs the gain and a signal checker (block 1) which fires. -/
def demo : List (List Act) :=
  [[.start 3 [.call (.seq 1) [], .call (.seq 2) [.call (.seq 0) [.call (.block 0) []]], .call (.block 0) []] 7, .wait 3],
   [.call (.block 0) [], .call (.block 1) [.call .safety []]]]

theorem demo_ordered : ∀ p ∈ demo, ∀ a ∈ p, Ordered id 4 a := by
  intro p hp
  simp only [demo, List.mem_cons, List.not_mem_nil, or_false] at hp
  rcases hp with rfl | rfl
  · intro a ha
    simp only [List.mem_cons, List.not_mem_nil, or_false] at ha
    rcases ha with rfl | rfl
    · refine .start (by decide) (fun a ha => ?_)
      simp only [List.mem_cons, List.not_mem_nil, or_false] at ha
      rcases ha with rfl | rfl | rfl
      · exact .seq (by decide) (by simp)
      · refine .seq (by decide) (fun a ha => ?_)
        simp only [List.mem_singleton] at ha
        subst ha
        refine .seq (by decide) (fun a ha => ?_)
        simp only [List.mem_singleton] at ha
        subst ha
        exact .block
      · exact .block
    · exact .wait (by decide)
  · intro a ha
    simp only [List.mem_cons, List.not_mem_nil, or_false] at ha
    rcases ha with rfl | rfl
    · exact .block
    · exact .blockTriggers

example : ∃ w, exec (init demo) [0, 0, 2, 1, 2, 2, 2, 2] = some w ∧ step w 0 = none ∧ step w 2 = none ∧ (step w 1).isSome = true := by
  refine ⟨_, rfl, rfl, rfl, rfl⟩
example {is : List Nat} {w : World} (hs : exec (init demo) is = some w) : Finished w ∨ ∃ i w', step w i = some w' := never_stuck demo_ordered hs
example {is : List Nat} {w : World} (hs : exec (init demo) is = some w) : is.length ≤ 21 := bounded demo_ordered hs
example : ∃ w', exec (init demo) [0, 0, 2, 1, 2, 2, 2, 2, 1, 2, 2, 2, 2, 2, 2, 2, 0, 1, 1, 1, 1] = some w' ∧ (w'.th 0).todo = [] ∧ (w'.th 1).todo = [] ∧ (w'.th 2).todo = [] ∧
    w'.result 3 = some 7 := by refine ⟨_, rfl, rfl, rfl, rfl, rfl⟩
example : ∃ js w', exec (init demo) js = some w' ∧ Finished w' := all_end demo_ordered (is := []) rfl

/-! ### C193 -/

/-- The start of a non-blocking sequence which does not run any more returns without waiting for anything, and the run of the sequence is a thread of its own. -/
theorem start_returns_partial {w : World} {i s : Nat} {body : List Act} {v : Int} {rest : List Item} (ht : (w.th i).todo = .act (.start s body v) :: rest)
    (hi : i < w.n) (hf : ∀ u, w.fut s = some u → u < w.n ∧ u ≠ i ∧ (w.th u).todo = []) :
    ∃ w', exec w [i, i] = some w' ∧ (w'.th i).todo = rest ∧ w'.fut s = some w.n ∧ w'.th w.n = ⟨[.act (.call (.seq s) body)], v⟩ := by
  have hne : i ≠ w.n := by omega
  let w1 : World := { w with n := w.n + 1, th := set (goOn w i (.store s w.n :: rest)) w.n ⟨[.act (.call (.seq s) body)], v⟩ }
  have h1 : step w i = some w1 := by simp only [step, ht]; rfl
  have h2 : (w1.th i).todo = .store s w.n :: rest := by show Th.todo (set _ _ _ i) = _; simp [set, hne, goOn]
  let w2 : World := { w1 with fut := set w1.fut s (some w.n), th := goOn w1 i rest }
  have h3 : step w1 i = some w2 := by
    cases hu : w.fut s with
    | none =>
      have : w1.fut s = none := hu
      simp only [step, h2, this]; rfl
    | some u =>
      have hw : w1.fut s = some u := hu
      obtain ⟨h4, h5, h6⟩ := hf u hu
      have : (w1.th u).todo = [] := by
        show Th.todo (set _ _ _ u) = _
        have : u ≠ w.n := by omega
        simp [set, this, goOn, h5, h6]
      simp only [step, h2, hw, this]; rfl
  refine ⟨w2, by simp [exec, h1, h3], goOn_same w1 i rest, by show set _ _ _ s = _; simp [set], ?_⟩
  show goOn w1 i rest w.n = _
  rw [goOn_other w1 rest hne.symm]
  show set _ _ _ w.n = _
  simp [set]

/-- Ended threads stay ended. -/
theorem ended_step {w w' : World} {i u : Nat} (hs : step w i = some w') (hu : u < w.n) (he : (w.th u).todo = []) : (w'.th u).todo = [] ∧ w.n ≤ w'.n := by
  have hne : i ≠ u := by rintro rfl; simp [step, he] at hs
  have key : ∀ l, (goOn w i l u).todo = [] := fun l => by rw [goOn_other w l hne.symm]; exact he
  revert hs
  simp only [step]
  split
  · intro h; cases h
  · split
    · intro h; cases h; exact ⟨key _, Nat.le_refl _⟩
    · intro h; cases h
  · intro h; cases h; exact ⟨key _, Nat.le_refl _⟩
  · intro h
    cases h
    refine ⟨?_, Nat.le_succ _⟩
    show Th.todo (set _ _ _ u) = _
    rw [set, if_neg (by omega)]
    exact key _
  · split
    · intro h; cases h; exact ⟨key _, Nat.le_refl _⟩
    · split
      · intro h; cases h; exact ⟨key _, Nat.le_refl _⟩
      · intro h; cases h
  · split
    · intro h; cases h; exact ⟨key _, Nat.le_refl _⟩
    · split
      · intro h; cases h; exact ⟨key _, Nat.le_refl _⟩
      · intro h; cases h

theorem ended_exec {w w' : World} {is : List Nat} {u : Nat} (hs : exec w is = some w') (hu : u < w.n) (he : (w.th u).todo = []) : (w'.th u).todo = [] := by
  induction is generalizing w with
  | nil => simp only [exec, Option.some.injEq] at hs; subst hs; exact he
  | cons i is ih =>
    simp only [exec, Option.bind_eq_some_iff] at hs
    obtain ⟨w1, h1, h2⟩ := hs
    obtain ⟨h3, h4⟩ := ended_step h1 hu he
    exact ih h2 (by omega) h3

/-- As long as thread `u` of the last start of `s` runs, `fut` of `s` stays, and a thread which waits for it stays where it is. -/
theorem waiting_step {w w' : World} {i j s u : Nat} {x : Item} {rest : List Item} (hj : j < w.n) (hu : u < w.n) (hf : w.fut s = some u) (hr : (w.th u).todo ≠ [])
    (ht : (w.th j).todo = x :: rest) (hx : (∃ t, x = .store s t) ∨ x = .act (.wait s)) (hs : step w i = some w') :
    w'.fut s = some u ∧ (w'.th j).todo = x :: rest ∧ w.n ≤ w'.n := by
  have hij : j ≠ i := by
    rintro rfl
    rcases hx with ⟨t, rfl⟩ | rfl
    · simp only [step, ht, hf] at hs
      split at hs
      · next h => exact hr h
      · cases hs
    · simp only [step, ht, hf] at hs
      split at hs
      · next h => exact hr h
      · cases hs
  have key : ∀ l, (goOn w i l j).todo = x :: rest := fun l => by rw [goOn_other w l hij]; exact ht
  revert hs
  simp only [step]
  split
  · intro h; cases h
  · split
    · intro h; cases h; exact ⟨hf, key _, Nat.le_refl _⟩
    · intro h; cases h
  · intro h; cases h; exact ⟨hf, key _, Nat.le_refl _⟩
  · intro h
    cases h
    refine ⟨hf, ?_, Nat.le_succ _⟩
    show Th.todo (set _ _ _ j) = _
    rw [set, if_neg (by omega)]
    exact key _
  · next s' t' rest' hq =>
    by_cases hss : s' = s
    · subst hss
      rw [hf]
      simp only
      split
      · next h => exact absurd h hr
      · intro h; cases h
    · have : ∀ b, set w.fut s' b s = some u := fun b => by simp only [set, if_neg (Ne.symm hss)]; exact hf
      split
      · intro h; cases h; exact ⟨this _, key _, Nat.le_refl _⟩
      · split
        · intro h; cases h; exact ⟨this _, key _, Nat.le_refl _⟩
        · intro h; cases h
  · next s' rest' hq =>
    by_cases hss : s' = s
    · subst hss
      rw [hf]
      simp only
      split
      · next h => exact absurd h hr
      · intro h; cases h
    · have : ∀ b, set w.fut s' b s = some u := fun b => by simp only [set, if_neg (Ne.symm hss)]; exact hf
      split
      · intro h; cases h; exact ⟨hf, key _, Nat.le_refl _⟩
      · split
        · intro h; cases h; exact ⟨this _, key _, Nat.le_refl _⟩
        · intro h; cases h

theorem waiting_exec {w w' : World} {is : List Nat} {j s u : Nat} {x : Item} {rest : List Item} (hj : j < w.n) (hu : u < w.n) (hf : w.fut s = some u)
    (ht : (w.th j).todo = x :: rest) (hx : (∃ t, x = .store s t) ∨ x = .act (.wait s)) (hs : exec w is = some w') (hr : (w'.th u).todo ≠ []) :
    (w'.th j).todo = x :: rest := by
  induction is generalizing w with
  | nil => simp only [exec, Option.some.injEq] at hs; subst hs; exact ht
  | cons i is ih =>
    have hr0 : (w.th u).todo ≠ [] := fun he => hr (ended_exec hs hu he)
    simp only [exec, Option.bind_eq_some_iff] at hs
    obtain ⟨w1, h1, h2⟩ := hs
    obtain ⟨h3, h4, h5⟩ := waiting_step hj hu hf hr0 ht hx h1
    exact ih (by omega) (by omega) h3 h4 h2

/-- Violation: the start of a non-blocking sequence whose previous run goes on does wait: whatever the other threads do, the starting thread does not go on before
the previous run has ended. -/
theorem start_waits_violated {w w1 w' : World} {j s u : Nat} {body : List Act} {v : Int} {rest : List Item} {is : List Nat} (hj : j < w.n) (hu : u < w.n)
    (hf : w.fut s = some u) (ht : (w.th j).todo = .act (.start s body v) :: rest) (h1 : step w j = some w1) (hs : exec w1 is = some w')
    (hr : (w'.th u).todo ≠ []) : (w'.th j).todo = .store s w.n :: rest := by
  simp only [step, ht, Option.some.injEq] at h1
  subst h1
  refine waiting_exec (w := { w with n := w.n + 1, th := set (goOn w j (.store s w.n :: rest)) w.n ⟨[.act (.call (.seq s) body)], v⟩ })
    (Nat.lt_succ_of_lt hj) (Nat.lt_succ_of_lt hu) hf ?_ (Or.inl ⟨_, rfl⟩) hs hr
  show Th.todo (set _ _ _ j) = _
  rw [set, if_neg (by omega), goOn_same]

/-- Violation: a non-blocking sequence which starts itself again (or waits for itself) never gets any further. -/
theorem restart_self_violated {w w1 w' : World} {s u : Nat} {body : List Act} {v : Int} {rest : List Item} {is : List Nat} (hu : u < w.n)
    (hf : w.fut s = some u) (ht : (w.th u).todo = .act (.start s body v) :: rest) (h1 : step w u = some w1) (hs : exec w1 is = some w') :
    (w'.th u).todo = .store s w.n :: rest := by
  by_cases hr : (w'.th u).todo = []
  · exfalso
    -- the thread would have gone on while it had not ended
    have h2 : (w1.th u).todo = .store s w.n :: rest ∧ w1.fut s = some u ∧ u < w1.n := by
      simp only [step, ht, Option.some.injEq] at h1
      subst h1
      refine ⟨?_, hf, Nat.lt_succ_of_lt hu⟩
      show Th.todo (set _ _ _ u) = _
      rw [set, if_neg (by omega), goOn_same]
    obtain ⟨h3, h4, h5⟩ := h2
    generalize w.n = t at h3
    clear h1 ht hf hu
    induction is generalizing w1 with
    | nil => simp only [exec, Option.some.injEq] at hs; subst hs; rw [hr] at h3; cases h3
    | cons i is ih =>
      simp only [exec, Option.bind_eq_some_iff] at hs
      obtain ⟨w2, h6, h7⟩ := hs
      obtain ⟨h8, h9, h10⟩ := waiting_step h5 h5 h4 (by rw [h3]; simp) h3 (Or.inl ⟨t, rfl⟩) h6
      exact ih h7 h8 (by omega) h9
  · exact start_waits_violated hu hu hf ht h1 hs hr

theorem self_wait_violated {w w' : World} {s u : Nat} {rest : List Item} {is : List Nat} (hu : u < w.n) (hf : w.fut s = some u)
    (ht : (w.th u).todo = .act (.wait s) :: rest) (hs : exec w is = some w') : (w'.th u).todo = .act (.wait s) :: rest := by
  induction is generalizing w with
  | nil => simp only [exec, Option.some.injEq] at hs; subst hs; exact ht
  | cons i is ih =>
    simp only [exec, Option.bind_eq_some_iff] at hs
    obtain ⟨w1, h1, h2⟩ := hs
    obtain ⟨h3, h4, h5⟩ := waiting_step hu hu hf (by rw [ht]; simp) ht (Or.inr rfl) h1
    exact ih (by omega) h3 h4 h2

/-- Violation: a call of a sequence which the same thread has active (recursion, also through other sequences or an exception sequence) never returns. -/
theorem recursion_violated {w w' : World} {o : Obj} {i : Nat} {body : List Act} {rest : List Item} {is : List Nat} (hi : i < w.n) (ho : w.owner o = some i)
    (hother : ∀ j, j ≠ i → Item.leave o ∉ (w.th j).todo) (ht : (w.th i).todo = .act (.call o body) :: rest) (hs : exec w is = some w') :
    (w'.th i).todo = .act (.call o body) :: rest := by
  induction is generalizing w with
  | nil => simp only [exec, Option.some.injEq] at hs; subst hs; exact ht
  | cons j is ih =>
    simp only [exec, Option.bind_eq_some_iff] at hs
    obtain ⟨w1, h1, h2⟩ := hs
    have hji : j ≠ i := by rintro rfl; simp [step, ht, ho] at h1
    have key : ∀ l, (goOn w j l i).todo = .act (.call o body) :: rest := fun l => by rw [goOn_other w l hji.symm]; exact ht
    have oth : ∀ l, (∀ p, Item.leave p ∈ l → p = o → Item.leave p ∈ (w.th j).todo) → ∀ k, k ≠ i → Item.leave o ∉ (goOn w j l k).todo := by
      intro l hl k hk
      by_cases hkj : k = j
      · subst hkj; rw [goOn_same]; exact fun hm => hother k hk (hl o hm rfl)
      · rw [goOn_other w l hkj]; exact hother k hk
    revert h1
    simp only [step]
    split
    · intro h; cases h
    · next p b rest' hq =>
      split
      · next hp =>
        intro h; cases h
        have hpo : p ≠ o := by rintro rfl; rw [ho] at hp; cases hp
        refine ih (w := { w with owner := set w.owner p (some j), th := goOn w j (b.map .act ++ .leave p :: rest') }) hi ?_ (oth _ ?_) (key _) h2
        · show set w.owner p (some j) o = some i
          rw [set, if_neg hpo.symm]; exact ho
        · intro q hq' hqo
          subst hqo
          simp only [List.mem_append, List.mem_map, List.mem_cons, reduceCtorEq, and_false, exists_false, false_or, Item.leave.injEq] at hq'
          rcases hq' with h3 | h3
          · exact absurd h3.symm hpo
          · rw [hq]; exact List.mem_cons_of_mem _ h3
      · intro h; cases h
    · next p rest' hq =>
      intro h; cases h
      have hpo : p ≠ o := by rintro rfl; exact hother j hji (by rw [hq]; simp)
      refine ih (w := { w with owner := set w.owner p none, th := goOn w j rest' }) hi ?_ (oth _ ?_) (key _) h2
      · show set w.owner p none o = some i
        rw [set, if_neg hpo.symm]; exact ho
      · intro q hq' _; rw [hq]; exact List.mem_cons_of_mem _ hq'
    · next s b v rest' hq =>
      intro h; cases h
      have hn : ∀ k, k ≠ w.n → set (goOn w j (.store s w.n :: rest')) w.n ⟨[.act (.call (.seq s) b)], v⟩ k = goOn w j (.store s w.n :: rest') k := by
        intro k hk; rw [set, if_neg hk]
      refine ih (w := { w with n := w.n + 1, th := set (goOn w j (.store s w.n :: rest')) w.n ⟨[.act (.call (.seq s) b)], v⟩ }) (Nat.lt_succ_of_lt hi) ho ?_ ?_ h2
      · intro k hk
        show Item.leave o ∉ Th.todo (set _ _ _ k)
        by_cases hkn : k = w.n
        · subst hkn; simp [set]
        · rw [hn k hkn]
          refine oth _ ?_ k hk
          intro q hq' _
          rw [hq]
          simp only [List.mem_cons, reduceCtorEq, false_or] at hq'
          exact List.mem_cons_of_mem _ hq'
      · show Th.todo (set _ _ _ i) = _
        rw [hn i (by omega)]; exact key _
    · next s t rest' hq =>
      have fin : ∀ {w1}, w1 = { w with fut := set w.fut s (some t), th := goOn w j rest' } → exec w1 is = some w' → (w'.th i).todo = .act (.call o body) :: rest := by
        intro w1 hw h2
        subst hw
        exact ih (w := { w with fut := set w.fut s (some t), th := goOn w j rest' }) hi ho (oth _ (fun q hq' _ => by rw [hq]; exact List.mem_cons_of_mem _ hq')) (key _) h2
      split
      · intro h; cases h; exact fin rfl h2
      · split
        · intro h; cases h; exact fin rfl h2
        · intro h; cases h
    · next s rest' hq =>
      have fin : ∀ {w1 : World}, w1.n = w.n → w1.owner = w.owner → w1.th = goOn w j rest' → exec w1 is = some w' → (w'.th i).todo = .act (.call o body) :: rest := by
        intro w1 h3 h4 h5 h2
        refine ih (w := w1) (by omega) (by rw [h4]; exact ho) ?_ (by rw [h5]; exact key _) h2
        intro k hk
        rw [h5]
        exact oth _ (fun q hq' _ => by rw [hq]; exact List.mem_cons_of_mem _ hq') k hk
      split
      · intro h; cases h; refine fin ?_ ?_ ?_ h2 <;> rfl
      · split
        · intro h; cases h; refine fin ?_ ?_ ?_ h2 <;> rfl
        · intro h; cases h

/-- Violation: two threads whose sequences call each other can block each other. -/
theorem mutual_calls_violated (a b : Nat) (hab : a ≠ b) (A B : List Act) :
    ∃ w, exec (init [[.call (.seq a) [.call (.seq b) A]], [.call (.seq b) [.call (.seq a) B]]]) [0, 1] = some w ∧ ¬ Finished w ∧ ∀ i, step w i = none := by
  have hba : b ≠ a := hab.symm
  let w0 := init [[.call (.seq a) [.call (.seq b) A]], [.call (.seq b) [.call (.seq a) B]]]
  let w1 : World := { w0 with owner := set w0.owner (.seq a) (some 0), th := goOn w0 0 [.act (.call (.seq b) A), .leave (.seq a)] }
  let w2 : World := { w1 with owner := set w1.owner (.seq b) (some 1), th := goOn w1 1 [.act (.call (.seq a) B), .leave (.seq b)] }
  have h1 : step w0 0 = some w1 := rfl
  have hb : w1.owner (.seq b) = none := by show set _ _ _ _ = _; simp [set, hba]; rfl
  have h2 : step w1 1 = some w2 := by
    have : (w1.th 1).todo = .act (.call (.seq b) [.call (.seq a) B]) :: [] := rfl
    simp only [step, this, hb]; rfl
  refine ⟨w2, ?_, ?_, ?_⟩
  · show (step w0 0).bind _ = _
    simp [h1, exec, h2]
  · intro h; have := h 0; cases this
  · have oa : w2.owner (.seq a) = some 0 := by show set _ _ _ _ = _; simp [set, hab]; show set _ _ _ _ = _; simp [set]
    have ob : w2.owner (.seq b) = some 1 := by show set _ _ _ _ = _; simp [set]
    intro i
    match i with
    | 0 =>
      have : (w2.th 0).todo = [.act (.call (.seq b) A), .leave (.seq a)] := rfl
      simp [step, this, ob]
    | 1 =>
      have : (w2.th 1).todo = [.act (.call (.seq a) B), .leave (.seq b)] := rfl
      simp [step, this, oa]
    | n + 2 =>
      have : (w2.th (n + 2)).todo = [] := rfl
      simp [step, this]

/-- Two threads start sequence 0; the second one waits for the first run. -/
example : ∃ w, exec (init [[.start 0 [] 1], [.start 0 [] 2]]) [0, 0, 1] = some w ∧ step w 1 = none ∧ w.fut 0 = some 2 ∧ (w.th 2).todo ≠ [] := by
  refine ⟨_, rfl, rfl, rfl, by intro h; cases h⟩
example : ∃ w', exec (init [[.start 0 [] 1, .call (.seq 5) []]]) [0, 0] = some w' ∧ (w'.th 0).todo = [.act (.call (.seq 5) [])] := by
  obtain ⟨w', h1, h2, _⟩ := start_returns_partial (w := init [[.start 0 [] 1, .call (.seq 5) []]]) (i := 0) (s := 0) (body := []) (v := 1)
    (rest := [.act (.call (.seq 5) [])]) rfl (by decide) (fun u h => by cases h)
  exact ⟨w', h1, h2⟩
/-- Sequence 0, started by thread 0, starts itself. -/
example {is : List Nat} {w' : World} (w : World) (hw : exec (init [[.start 0 [.start 0 [] 1, .wait 3] 1]]) [0, 0, 1] = some w) (w1 : World)
    (h1 : step w 1 = some w1) (hs : exec w1 is = some w') : (w'.th 1).todo = [.store 0 2, .act (.wait 3), .leave (.seq 0)] := by
  simp only [exec, step, init, goOn, set, List.getD_cons_zero, List.map_cons, List.map_nil, ↓reduceIte, Option.bind_some, List.length_cons, List.length_nil,
    Nat.reduceAdd, one_ne_zero, zero_ne_one, Option.some.injEq, List.cons_append, List.nil_append] at hw
  subst hw
  exact restart_self_violated (s := 0) (u := 1) (body := []) (v := 1) (rest := [.act (.wait 3), .leave (.seq 0)]) (by decide) rfl rfl h1 hs
example : ∃ w, exec (init [[.call (.seq 0) [.call (.seq 1) [.call (.seq 0) []]]], [.call (.seq 2) []]]) [0, 0] = some w ∧ w.owner (.seq 0) = some 0 ∧
    (w.th 0).todo = [.act (.call (.seq 0) []), .leave (.seq 1), .leave (.seq 0)] := ⟨_, rfl, rfl, rfl⟩

/-! ### C194 -/

/-- Nothing in `a` starts the non-blocking sequence `s` or waits for it. -/
inductive Avoids (s : Nat) : Act → Prop
  | call {o body} : (∀ a ∈ body, Avoids s a) → Avoids s (.call o body)
  | start {s' body v} : s' ≠ s → (∀ a ∈ body, Avoids s a) → Avoids s (.start s' body v)
  | wait {s'} : s' ≠ s → Avoids s (.wait s')

def AvoidsI (s : Nat) : Item → Prop
  | .act a => Avoids s a
  | .leave _ => True
  | .store s' _ => s' ≠ s

theorem step_avoids {w w' : World} {j s : Nat} {x : Item} {l : List Item} (ht : (w.th j).todo = x :: l) (hx : AvoidsI s x) (hj : j < w.n) (hs : step w j = some w') :
    w'.fut s = w.fut s ∧ w'.result s = w.result s ∧ (∃ pre, (∀ y ∈ pre, AvoidsI s y) ∧ (w'.th j).todo = pre ++ l) ∧ (∀ k, k ≠ j → k ≠ w.n → w'.th k = w.th k) ∧
    (∀ k, k < w.n → (w'.th k).val = (w.th k).val) ∧ w.n ≤ w'.n ∧ (w'.th w.n = w.th w.n ∨ ∀ y ∈ (w'.th w.n).todo, AvoidsI s y) := by
  have hval : ∀ m k, (goOn w j m k).val = (w.th k).val := by
    intro m k
    by_cases hk : k = j
    · subst hk; simp [goOn, set]
    · rw [goOn_other w m hk]
  have plain : ∀ {w' : World} {pre : List Item}, w'.n = w.n → w'.th = goOn w j (pre ++ l) → (∀ y ∈ pre, AvoidsI s y) → w'.fut s = w.fut s → w'.result s = w.result s →
      w'.fut s = w.fut s ∧ w'.result s = w.result s ∧ (∃ pre, (∀ y ∈ pre, AvoidsI s y) ∧ (w'.th j).todo = pre ++ l) ∧ (∀ k, k ≠ j → k ≠ w.n → w'.th k = w.th k) ∧
      (∀ k, k < w.n → (w'.th k).val = (w.th k).val) ∧ w.n ≤ w'.n ∧ (w'.th w.n = w.th w.n ∨ ∀ y ∈ (w'.th w.n).todo, AvoidsI s y) := by
    intro w' pre hn hth hp hf hr
    refine ⟨hf, hr, ⟨pre, hp, by rw [hth, goOn_same]⟩, fun k hk _ => by rw [hth, goOn_other w _ hk], fun k _ => by rw [hth, hval], by omega, Or.inl ?_⟩
    rw [hth, goOn_other w _ (by omega)]
  cases x with
  | leave o =>
    simp only [step, ht, Option.some.injEq] at hs
    subst hs
    exact plain (pre := []) rfl rfl (by simp) rfl rfl
  | store s' t =>
    have hss : s' ≠ s := hx
    have hw : w' = { w with fut := set w.fut s' (some t), th := goOn w j l } := by
      simp only [step, ht] at hs
      split at hs
      · simp only [Option.some.injEq] at hs; exact hs.symm
      · split at hs
        · simp only [Option.some.injEq] at hs; exact hs.symm
        · cases hs
    subst hw
    exact plain (pre := []) rfl rfl (by simp) (by show set _ _ _ _ = _; rw [set, if_neg hss.symm]) rfl
  | act a =>
    cases hx with
    | @call o body hb =>
      simp only [step, ht] at hs
      split at hs
      · simp only [Option.some.injEq] at hs
        subst hs
        refine plain (pre := body.map .act ++ [.leave o]) rfl (by simp) ?_ rfl rfl
        intro y hy
        simp only [List.mem_append, List.mem_map, List.mem_singleton] at hy
        rcases hy with ⟨a, ha, rfl⟩ | rfl
        · exact hb a ha
        · trivial
      · cases hs
    | @wait s' hss =>
      simp only [step, ht] at hs
      split at hs
      · simp only [Option.some.injEq] at hs
        subst hs
        exact plain (pre := []) rfl rfl (by simp) rfl rfl
      · split at hs
        · simp only [Option.some.injEq] at hs
          subst hs
          exact plain (pre := []) rfl rfl (by simp) (by show set _ _ _ _ = _; rw [set, if_neg hss.symm]) (by show set _ _ _ _ = _; rw [set, if_neg hss.symm])
        · cases hs
    | @start s' body v hss hb =>
      simp only [step, ht, Option.some.injEq] at hs
      subst hs
      have old : ∀ k, k ≠ w.n → set (goOn w j (.store s' w.n :: l)) w.n ⟨[.act (.call (.seq s') body)], v⟩ k = goOn w j (.store s' w.n :: l) k := by
        intro k hk; rw [set, if_neg hk]
      refine ⟨rfl, rfl, ⟨[.store s' w.n], ?_, ?_⟩, ?_, ?_, Nat.le_succ _, Or.inr ?_⟩
      · intro y hy
        simp only [List.mem_singleton] at hy
        subst hy; exact hss
      · show Th.todo (set _ _ _ j) = _
        rw [old j (by omega), goOn_same]; rfl
      · intro k hk hkn
        show set _ _ _ k = _
        rw [old k hkn, goOn_other w _ hk]
      · intro k hk
        show Th.val (set _ _ _ k) = _
        rw [old k (by omega), hval]
      · intro y hy
        have hy : y ∈ Th.todo (set (goOn w j (.store s' w.n :: l)) w.n ⟨[.act (.call (.seq s') body)], v⟩ w.n) := hy
        simp only [set, ↓reduceIte, List.mem_singleton] at hy
        subst hy
        exact .call hb

structure Alone (i s : Nat) (v : Int) (rest : List Item) (w : World) : Prop where
  lt : i < w.n
  others : ∀ j, j ≠ i → ∀ y ∈ (w.th j).todo, AvoidsI s y
  phase : (∃ body mid, (w.th i).todo = .act (.start s body v) :: (mid ++ .act (.wait s) :: rest) ∧ (∀ a ∈ body, Avoids s a) ∧ ∀ y ∈ mid, AvoidsI s y) ∨
    (∃ t mid, (w.th i).todo = .store s t :: (mid ++ .act (.wait s) :: rest) ∧ t < w.n ∧ (w.th t).val = v ∧ ∀ y ∈ mid, AvoidsI s y) ∨
    (∃ t mid, (w.th i).todo = mid ++ .act (.wait s) :: rest ∧ t < w.n ∧ (w.th t).val = v ∧ w.fut s = some t ∧ ∀ y ∈ mid, AvoidsI s y) ∨
    (w.result s = some v ∧ ∀ y ∈ (w.th i).todo, AvoidsI s y)

theorem alone_step {i s : Nat} {v : Int} {rest : List Item} {w w' : World} {j : Nat} (hfresh : ∀ k, w.n ≤ k → (w.th k).todo = [])
    (hrest : ∀ y ∈ rest, AvoidsI s y) (h : Alone i s v rest w) (hs : step w j = some w') : Alone i s v rest w' ∧ ∀ k, w'.n ≤ k → (w'.th k).todo = [] := by
  have hj : j < w.n := by
    rcases Nat.lt_or_ge j w.n with h1 | h1
    · exact h1
    · simp [step, hfresh j h1] at hs
  have hn : ∀ k, w'.n ≤ k → (w'.th k).todo = [] := by
    intro k hk
    revert hs
    have key : ∀ l, w.n ≤ k → (goOn w j l k).todo = [] := fun l hk => by rw [goOn_other w l (by omega)]; exact hfresh k hk
    simp only [step]
    split
    · intro h; cases h
    · split
      · intro h; cases h; exact key _ hk
      · intro h; cases h
    · intro h; cases h; exact key _ hk
    · intro h; cases h
      have hk' : w.n + 1 ≤ k := hk
      show Th.todo (set _ _ _ k) = _
      rw [set, if_neg (by omega)]; exact key _ (by omega)
    · split
      · intro h; cases h; exact key _ hk
      · split
        · intro h; cases h; exact key _ hk
        · intro h; cases h
    · split
      · intro h; cases h; exact key _ hk
      · split
        · intro h; cases h; exact key _ hk
        · intro h; cases h
  refine ⟨?_, hn⟩
  by_cases hji : j = i
  · subst hji
    -- an avoiding step of thread i
    have av : ∀ {x : Item} {l : List Item}, (w.th j).todo = x :: l → AvoidsI s x → ∀ k, k ≠ j → ∀ y ∈ (w'.th k).todo, AvoidsI s y := by
      intro x l ht hx k hk y hy
      obtain ⟨_, _, _, h4, _, _, h7⟩ := step_avoids ht hx hj hs
      by_cases hkn : k = w.n
      · subst hkn
        rcases h7 with h8 | h8
        · rw [h8, hfresh w.n (Nat.le_refl _)] at hy; simp at hy
        · exact h8 y hy
      · rw [h4 k hk hkn] at hy; exact h.others k hk y hy
    rcases h.phase with ⟨body, mid, h1, h2, h3⟩ | ⟨t, mid, h1, h2, h3, h4⟩ | ⟨t, mid, h1, h2, h3, h4, h5⟩ | ⟨h1, h2⟩
    · simp only [step, h1, Option.some.injEq] at hs
      subst hs
      have old : ∀ k, k ≠ w.n → set (goOn w j (.store s w.n :: (mid ++ .act (.wait s) :: rest))) w.n ⟨[.act (.call (.seq s) body)], v⟩ k =
          goOn w j (.store s w.n :: (mid ++ .act (.wait s) :: rest)) k := by intro k hk; rw [set, if_neg hk]
      refine ⟨Nat.lt_succ_of_lt hj, ?_, Or.inr (Or.inl ⟨w.n, mid, ?_, Nat.lt_succ_self _, ?_, h3⟩)⟩
      · intro k hk y hy
        have hy : y ∈ Th.todo (set (goOn w j (.store s w.n :: (mid ++ .act (.wait s) :: rest))) w.n ⟨[.act (.call (.seq s) body)], v⟩ k) := hy
        by_cases hkn : k = w.n
        · subst hkn
          simp only [set, ↓reduceIte, List.mem_singleton] at hy
          subst hy
          exact .call h2
        · rw [old k hkn, goOn_other w _ hk] at hy; exact h.others k hk y hy
      · show Th.todo (set _ _ _ j) = _
        rw [old j (by omega), goOn_same]
      · show Th.val (set _ _ _ w.n) = _
        simp [set]
    · have hw : w' = { w with fut := set w.fut s (some t), th := goOn w j (mid ++ .act (.wait s) :: rest) } := by
        simp only [step, h1] at hs
        split at hs
        · simp only [Option.some.injEq] at hs; exact hs.symm
        · split at hs
          · simp only [Option.some.injEq] at hs; exact hs.symm
          · cases hs
      subst hw
      refine ⟨hj, ?_, Or.inr (Or.inr (Or.inl ⟨t, mid, goOn_same _ _ _, h2, ?_, by show set _ _ _ _ = _; simp [set], h4⟩))⟩
      · intro k hk y hy
        have hy : y ∈ (goOn w j (mid ++ .act (.wait s) :: rest) k).todo := hy
        rw [goOn_other w _ hk] at hy
        exact h.others k hk y hy
      · show (goOn w j _ t).val = v
        by_cases htj : t = j
        · subst htj; simp [goOn, set, h3]
        · rw [goOn_other w _ htj]; exact h3
    · cases mid with
      | nil =>
        rw [List.nil_append] at h1
        have hw : w' = { w with fut := set w.fut s none, result := set w.result s (some (w.th t).val), th := goOn w j rest } := by
          simp only [step, h1, h4] at hs
          split at hs
          · simp only [Option.some.injEq] at hs; exact hs.symm
          · cases hs
        subst hw
        refine ⟨hj, ?_, Or.inr (Or.inr (Or.inr ⟨by show set _ _ _ _ = _; simp [set, h3], ?_⟩))⟩
        · intro k hk y hy
          have hy : y ∈ (goOn w j rest k).todo := hy
          rw [goOn_other w _ hk] at hy
          exact h.others k hk y hy
        · intro y hy
          have hy : y ∈ (goOn w j rest j).todo := hy
          rw [goOn_same] at hy
          exact hrest y hy
      | cons x mid =>
        rw [List.cons_append] at h1
        have hx := h5 x (by simp)
        obtain ⟨e1, e2, ⟨pre, p1, p2⟩, e4, e5, e6, e7⟩ := step_avoids h1 hx hj hs
        refine ⟨by omega, av h1 hx, Or.inr (Or.inr (Or.inl ⟨t, pre ++ mid, by rw [p2]; simp, by omega, by rw [e5 t h2]; exact h3, by rw [e1]; exact h4, ?_⟩))⟩
        intro y hy
        rcases List.mem_append.1 hy with hy | hy
        · exact p1 y hy
        · exact h5 y (by simp [hy])
    · cases ht : (w.th j).todo with
      | nil => simp [step, ht] at hs
      | cons x l =>
        have hx := h2 x (by rw [ht]; simp)
        obtain ⟨e1, e2, ⟨pre, p1, p2⟩, e4, e5, e6, e7⟩ := step_avoids ht hx hj hs
        refine ⟨by omega, av ht hx, Or.inr (Or.inr (Or.inr ⟨by rw [e2]; exact h1, ?_⟩))⟩
        intro y hy
        rw [p2] at hy
        rcases List.mem_append.1 hy with hy | hy
        · exact p1 y hy
        · exact h2 y (by rw [ht]; simp [hy])
  · cases ht : (w.th j).todo with
    | nil => simp [step, ht] at hs
    | cons x l =>
      have hx := h.others j hji x (by rw [ht]; simp)
      obtain ⟨e1, e2, ⟨pre, p1, p2⟩, e4, e5, e6, e7⟩ := step_avoids ht hx hj hs
      have hi : w'.th i = w.th i := e4 i (Ne.symm hji) (by have := h.lt; omega)
      refine ⟨by have := h.lt; omega, ?_, ?_⟩
      · intro k hk y hy
        by_cases hkj : k = j
        · subst hkj
          rw [p2] at hy
          rcases List.mem_append.1 hy with hy | hy
          · exact p1 y hy
          · exact h.others k hk y (by rw [ht]; simp [hy])
        · by_cases hkn : k = w.n
          · subst hkn
            rcases e7 with h8 | h8
            · rw [h8, hfresh w.n (Nat.le_refl _)] at hy; simp at hy
            · exact h8 y hy
          · rw [e4 k hkj hkn] at hy; exact h.others k hk y hy
      · rcases h.phase with ⟨body, mid, h1, h2, h3⟩ | ⟨t, mid, h1, h2, h3, h4⟩ | ⟨t, mid, h1, h2, h3, h4, h5⟩ | ⟨h1, h2⟩
        · exact Or.inl ⟨body, mid, by rw [hi]; exact h1, h2, h3⟩
        · exact Or.inr (Or.inl ⟨t, mid, by rw [hi]; exact h1, by omega, by rw [e5 t h2]; exact h3, h4⟩)
        · exact Or.inr (Or.inr (Or.inl ⟨t, mid, by rw [hi]; exact h1, by omega, by rw [e5 t h2]; exact h3, by rw [e1]; exact h4, h5⟩))
        · exact Or.inr (Or.inr (Or.inr ⟨by rw [e2]; exact h1, by rw [hi]; exact h2⟩))

/-- A thread which starts the non-blocking sequence `s`, does something else, waits for `s` and goes on, all other threads leaving `s` alone: behind the wait
`getResult` is the value which this run returned, for all interleavings and whatever ran or was waited for before. -/
theorem result_of_run {w w' : World} {i s : Nat} {body mid rest : List Act} {v : Int} {is : List Nat} (hi : i < w.n) (hfresh : ∀ k, w.n ≤ k → (w.th k).todo = [])
    (ht : (w.th i).todo = (.start s body v :: (mid ++ .wait s :: rest)).map .act) (hbody : ∀ a ∈ body, Avoids s a) (hmid : ∀ a ∈ mid, Avoids s a)
    (hrest : ∀ a ∈ rest, Avoids s a) (hother : ∀ j, j ≠ i → ∀ y ∈ (w.th j).todo, AvoidsI s y) (hs : exec w is = some w') :
    (∃ pre, (w'.th i).todo = pre ++ .act (.wait s) :: rest.map .act) ∨ w'.result s = some v := by
  have hr : ∀ y ∈ rest.map Item.act, AvoidsI s y := by
    intro y hy
    simp only [List.mem_map] at hy
    obtain ⟨a, ha, rfl⟩ := hy
    exact hrest a ha
  have h0 : Alone i s v (rest.map .act) w := by
    refine ⟨hi, hother, Or.inl ⟨body, mid.map .act, by rw [ht]; simp, hbody, ?_⟩⟩
    intro y hy
    simp only [List.mem_map] at hy
    obtain ⟨a, ha, rfl⟩ := hy
    exact hmid a ha
  have h1 : Alone i s v (rest.map .act) w' := by
    clear ht hother hi
    induction is generalizing w with
    | nil => simp only [exec, Option.some.injEq] at hs; subst hs; exact h0
    | cons j is ih =>
      simp only [exec, Option.bind_eq_some_iff] at hs
      obtain ⟨w1, h1, h2⟩ := hs
      obtain ⟨h3, h4⟩ := alone_step hfresh hr h0 h1
      exact ih h4 h2 h3
  rcases h1.phase with ⟨b, m, e, _⟩ | ⟨t, m, e, _⟩ | ⟨t, m, e, _⟩ | ⟨e, _⟩
  · exact Or.inl ⟨_ :: m, by rw [e]; rfl⟩
  · exact Or.inl ⟨_ :: m, by rw [e]; rfl⟩
  · exact Or.inl ⟨m, e⟩
  · exact Or.inr e

/-- In the demonstration the result is 7 once main has ended. -/
example {is : List Nat} {w' : World} (hs : exec (init demo) is = some w') (he : (w'.th 0).todo = []) : w'.result 3 = some 7 := by
  have h := result_of_run (w := init demo) (i := 0) (s := 3) (mid := []) (rest := []) (v := 7)
    (body := [.call (.seq 1) [], .call (.seq 2) [.call (.seq 0) [.call (.block 0) []]], .call (.block 0) []]) (by decide)
    (by
      intro k hk
      have hk' : 2 ≤ k := hk
      match k, hk' with
      | n + 2, _ => rfl) rfl ?_ (by simp) (by simp) ?_ hs
  · rcases h with ⟨pre, h⟩ | h
    · rw [he] at h; simp at h
    · exact h
  · intro a ha
    simp only [List.mem_cons, List.not_mem_nil, or_false] at ha
    rcases ha with rfl | rfl | rfl
    · exact .call (by simp)
    · exact .call (fun a ha => by
        simp only [List.mem_singleton] at ha; subst ha
        exact .call (fun a ha => by simp only [List.mem_singleton] at ha; subst ha; exact .call (by simp)))
    · exact .call (by simp)
  · intro j hj y hy
    match j with
    | 0 => exact absurd rfl hj
    | 1 =>
      have hy : y ∈ [Item.act (.call (.block 0) []), Item.act (.call (.block 1) [.call .safety []])] := hy
      simp only [List.mem_cons, List.not_mem_nil, or_false] at hy
      rcases hy with rfl | rfl
      · exact .call (by simp)
      · exact .call (fun a ha => by simp only [List.mem_singleton] at ha; subst ha; exact .call (by simp))
    | n + 2 =>
      have hy : y ∈ ([] : List Item) := hy
      simp at hy

/-- `wait` after `wait`, without a start in between: the result stays. -/
theorem wait_again {w : World} {i s : Nat} {rest : List Item} (ht : (w.th i).todo = .act (.wait s) :: rest) (hf : w.fut s = none) :
    ∃ w', step w i = some w' ∧ w'.result = w.result ∧ (w'.th i).todo = rest :=
  ⟨{ w with th := goOn w i rest }, by simp only [step, ht, hf], rfl, goOn_same _ _ _⟩

example : ∃ w', step (init [[.wait 4]]) 0 = some w' ∧ w'.result 4 = none := ⟨_, rfl, rfl⟩

end Verif.Sequencer.Deadlock
