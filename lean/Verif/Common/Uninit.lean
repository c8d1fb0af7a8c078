/-!
Member variables which are read before they are written (C254).

A class is given by the members which its constructor initialises, by the values its constructor gives to the flags which steer the reading and writing
(boolean members and the like), and by its methods.  Each method is a list of paths, one for each way through its branches; a path is a list of
actions.  Which path is taken is free, except where a guard on a flag excludes it.  A member is anything which is initialised and read as a whole.
-/
namespace Verif.Common.Uninit

variable {V F : Type} [DecidableEq V] [DecidableEq F]

inductive Act (V F : Type) where
  /-- a member is read -/
  | rd (v : V)
  /-- a member is written -/
  | wr (v : V)
  /-- this path is taken only if the flag has this value -/
  | need (f : F) (b : Bool)
  /-- the flag is set -/
  | put (f : F) (b : Bool)
deriving DecidableEq

/-- The members which have been written and the flags which are set. -/
structure St (V F : Type) where
  written : V → Bool
  flag : F → Bool

structure Cls (V F : Type) where
  /-- the members the constructor initialises -/
  init : List V
  /-- the flags which are set by the constructor -/
  set : List F
  /-- all paths of all methods which may be called from outside or by a thread of the class -/
  paths : List (List (Act V F))

def upd {A : Type} [DecidableEq A] (f : A → Bool) (a : A) (b : Bool) : A → Bool := fun x => if x = a then b else f x

/-- Execution of a path; `none` if one of its guards excludes it. -/
def run : List (Act V F) → St V F → Option (St V F)
  | [], s => some s
  | .rd _ :: p, s => run p s
  | .wr v :: p, s => run p { s with written := upd s.written v true }
  | .need f b :: p, s => if s.flag f = b then run p s else none
  | .put f b :: p, s => run p { s with flag := upd s.flag f b }

/-- The members which a path reads while they are not written.  Reading such a member yields an arbitrary value, the path goes on. -/
def early : List (Act V F) → St V F → List V
  | [], _ => []
  | .rd v :: p, s => if s.written v then early p s else v :: early p s
  | .wr v :: p, s => early p { s with written := upd s.written v true }
  | .need _ _ :: p, s => early p s
  | .put f b :: p, s => early p { s with flag := upd s.flag f b }

def start (c : Cls V F) : St V F := ⟨fun v => decide (v ∈ c.init), fun f => decide (f ∈ c.set)⟩

/-- The states which an object can be in between two calls, after any sequence of calls. -/
inductive Reach (c : Cls V F) : St V F → Prop where
  | start : Reach c (start c)
  | call (s p s') : Reach c s → p ∈ c.paths → run p s = some s' → Reach c s'

/-- Some sequence of calls reads `v` before it is written. -/
def Bad (c : Cls V F) (v : V) : Prop := ∃ s p s', Reach c s ∧ p ∈ c.paths ∧ run p s = some s' ∧ v ∈ early p s

/-! ### Initialising more members -/

/-- The same state with the members of `l` written as well. -/
def more (l : List V) (s : St V F) : St V F := { s with written := fun v => s.written v || decide (v ∈ l) }

omit [DecidableEq F] in
theorem more_upd (l : List V) (s : St V F) (v : V) :
    more l { s with written := upd s.written v true } = { more l s with written := upd (more l s).written v true } := by
  simp only [more, St.mk.injEq, and_true]
  funext w
  by_cases h : w = v <;> simp [upd, h]

theorem run_more (l : List V) (p : List (Act V F)) (s : St V F) : run p (more l s) = (run p s).map (more l) := by
  induction p generalizing s with
  | nil => rfl
  | cons a p ih =>
    cases a with
    | rd v => exact ih s
    | wr v =>
      simp only [run]
      rw [← more_upd]
      exact ih _
    | need f b =>
      simp only [run]
      by_cases h : s.flag f = b
      · rw [if_pos h, if_pos (by exact h)]; exact ih s
      · rw [if_neg h, if_neg (by exact h)]; rfl
    | put f b => exact ih { s with flag := upd s.flag f b }

theorem early_more (l : List V) (p : List (Act V F)) (s : St V F) (v : V) : v ∈ early p (more l s) ↔ v ∈ early p s ∧ v ∉ l := by
  induction p generalizing s with
  | nil => simp [early]
  | cons a p ih =>
    cases a with
    | rd w =>
      simp only [early]
      by_cases hw : s.written w = true
      · rw [if_pos hw, if_pos (by simp [more, hw])]; exact ih s
      · rw [if_neg hw]
        by_cases hl : w ∈ l
        · rw [if_pos (by simp [more, hl]), ih s]
          constructor
          · rintro ⟨h1, h2⟩
            exact ⟨List.mem_cons_of_mem _ h1, h2⟩
          · rintro ⟨h1, h2⟩
            rcases List.mem_cons.1 h1 with h | h
            · exact absurd (h ▸ hl) h2
            · exact ⟨h, h2⟩
        · rw [if_neg (by simp [more, hl]; simpa using hw), List.mem_cons, List.mem_cons, ih s]
          constructor
          · rintro (h | ⟨h1, h2⟩)
            · exact ⟨Or.inl h, h ▸ hl⟩
            · exact ⟨Or.inr h1, h2⟩
          · rintro ⟨h | h, h2⟩
            · exact Or.inl h
            · exact Or.inr ⟨h, h2⟩
    | wr w =>
      simp only [early]
      rw [← more_upd]
      exact ih _
    | need f b => exact ih s
    | put f b => exact ih { s with flag := upd s.flag f b }

/-- The class with further members initialised by the constructor. -/
def initAlso (l : List V) (c : Cls V F) : Cls V F := { c with init := l ++ c.init }

theorem start_initAlso (l : List V) (c : Cls V F) : start (initAlso l c) = more l (start c) := by
  simp only [start, more, initAlso, St.mk.injEq]
  refine ⟨?_, rfl⟩
  funext v
  by_cases h : v ∈ l <;> by_cases h' : v ∈ c.init <;> simp [h, h']

theorem reach_initAlso (l : List V) (c : Cls V F) (s : St V F) : Reach (initAlso l c) s ↔ ∃ s0, Reach c s0 ∧ s = more l s0 := by
  constructor
  · intro h
    induction h with
    | start => exact ⟨_, .start, start_initAlso l c⟩
    | call s p s' _ hp hr ih =>
      obtain ⟨s0, h0, rfl⟩ := ih
      rw [run_more] at hr
      cases h1 : run p s0 with
      | none => rw [h1] at hr; cases hr
      | some s1 =>
        rw [h1] at hr
        cases hr
        exact ⟨s1, .call _ p _ h0 hp h1, rfl⟩
  · rintro ⟨s0, h0, rfl⟩
    induction h0 with
    | start => rw [← start_initAlso]; exact .start
    | call s p s' _ hp hr ih => exact .call _ p _ ih hp (by rw [run_more, hr]; rfl)

/-- **C254, repair.** When the constructor initialises the members of `l` as well, then exactly the members of `l` leave the list of the members
which are read too early. -/
theorem bad_initAlso (l : List V) (c : Cls V F) (v : V) : Bad (initAlso l c) v ↔ Bad c v ∧ v ∉ l := by
  constructor
  · rintro ⟨s, p, s', hs, hp, hr, he⟩
    obtain ⟨s0, h0, rfl⟩ := (reach_initAlso l c s).1 hs
    rw [run_more] at hr
    rw [early_more] at he
    cases h1 : run p s0 with
    | none => rw [h1] at hr; cases hr
    | some s1 => exact ⟨⟨s0, p, s1, h0, hp, h1, he.1⟩, he.2⟩
  · rintro ⟨⟨s, p, s', hs, hp, hr, he⟩, hl⟩
    exact ⟨more l s, p, more l s', (reach_initAlso l c _).2 ⟨s, hs, rfl⟩, hp, by rw [run_more, hr]; rfl, (early_more l p s v).2 ⟨he, hl⟩⟩

/-! ### Decision on finitely many members and flags

A state is represented by the lists of the written members and of the set flags, both taken in the order of given lists of all members and flags. -/

/-- Representation of a state. -/
abbrev Rep (V F : Type) := List V × List F

def rep (vs : List V) (fs : List F) (s : St V F) : Rep V F := (vs.filter s.written, fs.filter s.flag)

def den (r : Rep V F) : St V F := ⟨fun v => decide (v ∈ r.1), fun f => decide (f ∈ r.2)⟩

theorem den_rep {vs : List V} {fs : List F} (hv : ∀ v, v ∈ vs) (hf : ∀ f, f ∈ fs) (s : St V F) : den (rep vs fs s) = s := by
  obtain ⟨w, f⟩ := s
  simp only [den, rep, St.mk.injEq]
  constructor
  · funext v
    simp [List.mem_filter, hv v]
  · funext g
    simp [List.mem_filter, hf g]

/-- The states reached from `r` by one call. -/
def succs (vs : List V) (fs : List F) (c : Cls V F) (r : Rep V F) : List (Rep V F) :=
  c.paths.filterMap fun p => (run p (den r)).map (rep vs fs)

/-- A list of states together with their successors. -/
def grow (vs : List V) (fs : List F) (c : Cls V F) (l : List (Rep V F)) : List (Rep V F) := (l ++ l.flatMap (succs vs fs c)).eraseDups

/-- `n` rounds of adding all successors. -/
def close (vs : List V) (fs : List F) (c : Cls V F) : Nat → List (Rep V F)
  | 0 => [rep vs fs (start c)]
  | n + 1 => grow vs fs c (close vs fs c n)

/-- The members which are read too early in one of the states. -/
def bads (c : Cls V F) (l : List (Rep V F)) : List V :=
  l.flatMap fun r => c.paths.flatMap fun p => if (run p (den r)).isSome then early p (den r) else []

/-- Nothing new is reached from the states of the list. -/
def Closed (vs : List V) (fs : List F) (c : Cls V F) (l : List (Rep V F)) : Prop := ∀ r ∈ l, ∀ r' ∈ succs vs fs c r, r' ∈ l

instance (vs : List V) (fs : List F) (c : Cls V F) (l : List (Rep V F)) : Decidable (Closed vs fs c l) := by
  unfold Closed; infer_instance

theorem close_reach {vs : List V} {fs : List F} (hv : ∀ v, v ∈ vs) (hf : ∀ f, f ∈ fs) (c : Cls V F) :
    ∀ (n : Nat) (r), r ∈ close vs fs c n → Reach c (den r) := by
  intro n
  induction n with
  | zero =>
    intro r hr
    simp only [close, List.mem_singleton] at hr
    subst hr
    rw [den_rep hv hf]
    exact .start
  | succ n ih =>
    intro r hr
    simp only [close, grow, List.mem_eraseDups, List.mem_append, List.mem_flatMap] at hr
    rcases hr with hr | ⟨q, hq, hr⟩
    · exact ih r hr
    · simp only [succs, List.mem_filterMap] at hr
      obtain ⟨p, hp, hr⟩ := hr
      cases hrun : run p (den q) with
      | some s =>
        simp only [hrun, Option.map_some, Option.some.injEq] at hr
        subst hr
        rw [den_rep hv hf]
        exact .call _ p _ (ih q hq) hp hrun
      | none => simp [hrun] at hr

theorem start_mem (vs : List V) (fs : List F) (c : Cls V F) : ∀ n, rep vs fs (start c) ∈ close vs fs c n
  | 0 => by simp [close]
  | n + 1 => by
    simp only [close, grow, List.mem_eraseDups, List.mem_append]
    exact Or.inl (start_mem vs fs c n)

theorem reach_mem {vs : List V} {fs : List F} (hv : ∀ v, v ∈ vs) (hf : ∀ f, f ∈ fs) (c : Cls V F) (n : Nat) (h : Closed vs fs c (close vs fs c n))
    (s : St V F) (hs : Reach c s) : rep vs fs s ∈ close vs fs c n := by
  induction hs with
  | start => exact start_mem vs fs c n
  | call s p s' _ hp hrun ih =>
    refine h _ ih _ ?_
    simp only [succs, List.mem_filterMap]
    exact ⟨p, hp, by rw [den_rep hv hf, hrun]; rfl⟩

/-- **C254, decision.** If `n` rounds reach nothing new, then the members which some sequence of calls, of any length, reads before they are
written are exactly the members computed from the states of these rounds. -/
theorem bad_iff {vs : List V} {fs : List F} (hv : ∀ v, v ∈ vs) (hf : ∀ f, f ∈ fs) (c : Cls V F) (n : Nat) (h : Closed vs fs c (close vs fs c n))
    (v : V) : Bad c v ↔ v ∈ bads c (close vs fs c n) := by
  simp only [bads, List.mem_flatMap]
  constructor
  · rintro ⟨s, p, s', hs, hp, hr, hb⟩
    exact ⟨_, reach_mem hv hf c n h s hs, p, hp, by rw [den_rep hv hf, hr]; exact hb⟩
  · rintro ⟨r, hr, p, hp, hb⟩
    cases hrun : run p (den r) with
    | none => simp [hrun] at hb
    | some s =>
      rw [hrun] at hb
      exact ⟨_, p, s, close_reach hv hf c n r hr, hp, hrun, hb⟩

end Verif.Common.Uninit
