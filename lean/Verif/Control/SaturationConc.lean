import Mathlib.Order.Basic
import Mathlib.Algebra.Order.Ring.Rat
import Mathlib.Algebra.Order.Field.Basic
import Mathlib.Tactic.Linarith
/-!
`Saturation` (includes/eeros/control/Saturation.hpp) whose limits are changed by other threads while it runs, access by access.
`run` (53-60) holds the mutex, `setLimit` (90-93) does not: its two writes fall anywhere between the reads of
`calculateResult` (97-102).  This is a data race (C211), so that the standard gives the program no meaning; the model is the
kindest reading, in which the accesses to the two doubles are interleaved.
-/
namespace Verif.Control.SaturationConc

variable {K : Type} [LinearOrder K] {T : Type} [DecidableEq T]

/-- A write of `setLimit` (91, 92). -/
inductive Write (K : Type) where
  | lower (l : K)
  | upper (u : K)

/-- The members (116), the local variables of `run`, where it is, and the writes which each other thread still has to do. -/
structure St (K T : Type) where
  lower : K
  upper : K
  inVal : K
  outVal : K
  cmp : Bool
  pc : Nat
  pend : T → List (Write K)

inductive Act (K T : Type) where
  /-- The block is run with this input. -/
  | start (x : K)
  /-- The next access of `calculateResult`. -/
  | run
  /-- A thread calls `setLimit`. -/
  | set (t : T) (l u : K)
  /-- Its next write. -/
  | write (t : T)

/-- `calculateResult` (97-102) reads a limit for each comparison and for each assignment; at 4 it has returned. -/
def runStep (s : St K T) : Option (St K T) :=
  match s.pc with
  | 0 => some { s with cmp := decide (s.upper < s.inVal), pc := 1 }
  | 1 => some { s with outVal := if s.cmp then s.upper else s.outVal, pc := 2 }
  | 2 => some { s with cmp := decide (s.inVal < s.lower), pc := 3 }
  | 3 => some { s with outVal := if s.cmp then s.lower else s.outVal, pc := 4 }
  | _ => none

def step (s : St K T) : Act K T → Option (St K T)
  | .start x => if s.pc = 4 then some { s with inVal := x, outVal := x, pc := 0 } else none
  | .run => runStep s
  | .set t l u =>
    match s.pend t with
    | [] => some { s with pend := fun i => if i = t then [.lower l, .upper u] else s.pend i }
    | _ => none
  | .write t =>
    match s.pend t with
    | [] => none
    | .lower l :: r => some { s with lower := l, pend := fun i => if i = t then r else s.pend i }
    | .upper u :: r => some { s with upper := u, pend := fun i => if i = t then r else s.pend i }

def exec (s : St K T) : List (Act K T) → Option (St K T)
  | [] => some s
  | a :: as => (step s a).bind fun s' => exec s' as

/-- A block with these limits, which is enabled and not running. -/
def init (l u x : K) : St K T := ⟨l, u, x, x, false, 4, fun _ => []⟩

/-- The same while another thread is at the start of `setLimit(l', u')`, and the block of `run` with the input `x`. -/
def during (t : T) (l u l' u' x : K) : St K T := ⟨l, u, x, x, false, 0, fun i => if i = t then [.lower l', .upper u'] else []⟩

/-! ## Any number of changes -/

def Between (a b : K) (x : K) : Prop := a ≤ x ∧ x ≤ b

/-- The limits which are set. -/
def SetsIn (a b : K) : Act K T → Prop
  | .set _ l u => Between a b l ∧ Between a b u
  | _ => True

def WriteIn (a b : K) : Write K → Prop
  | .lower l => Between a b l
  | .upper u => Between a b u

structure Inv (a b : K) (s : St K T) : Prop where
  low : Between a b s.lower
  upp : Between a b s.upper
  pend : ∀ t, ∀ w ∈ s.pend t, WriteIn a b w
  p0 : s.pc = 0 → s.outVal = s.inVal
  p1 : s.pc = 1 → s.outVal = s.inVal ∧ (s.cmp = false → s.inVal ≤ b)
  p2 : s.pc = 2 → Between a b s.outVal ∨ s.outVal = s.inVal ∧ s.inVal ≤ b
  p3 : s.pc = 3 → s.cmp = false → Between a b s.outVal

theorem inv_step (a b : K) (s s' : St K T) (x : Act K T) (hx : SetsIn a b x) (i : Inv a b s) (h : step s x = some s') :
    Inv a b s' ∧ (s'.pc = 4 → (s.pc = 4 → Between a b s.outVal) → Between a b s'.outVal) := by
  obtain ⟨l, u, v, o, c, pc, pend⟩ := s
  obtain ⟨h1, h2, h3, h4, h5, h6, h7⟩ := i
  simp only at h1 h2 h3 h4 h5 h6 h7
  cases x with
  | start x =>
    simp only [step] at h
    split at h <;> cases h
    exact ⟨⟨h1, h2, h3, by simp, by simp, by simp, by simp⟩, by simp⟩
  | run =>
    simp only [step, runStep] at h
    split at h
    · cases h
      refine ⟨⟨h1, h2, h3, by simp, ?_, by simp, by simp⟩, by simp⟩
      intro _
      refine ⟨h4 rfl, ?_⟩
      simp only [decide_eq_false_iff_not, not_lt]
      exact fun k => le_trans k h2.2
    · cases h
      refine ⟨⟨h1, h2, h3, by simp, by simp, ?_, by simp⟩, by simp⟩
      intro _
      obtain ⟨k1, k2⟩ := h5 rfl
      cases c
      · exact Or.inr ⟨k1, k2 rfl⟩
      · exact Or.inl h2
    · cases h
      refine ⟨⟨h1, h2, h3, by simp, by simp, by simp, ?_⟩, by simp⟩
      intro _ k
      simp only [decide_eq_false_iff_not, not_lt] at k
      rcases h6 rfl with k1 | ⟨k1, k2⟩
      · exact k1
      · simp only [k1]
        exact ⟨le_trans h1.1 k, k2⟩
    · cases h
      refine ⟨⟨h1, h2, h3, by simp, by simp, by simp, by simp⟩, ?_⟩
      intro _ _
      cases c
      · exact h7 rfl rfl
      · exact h1
    · cases h
  | set t l' u' =>
    simp only [step] at h
    split at h <;> cases h
    refine ⟨⟨h1, h2, ?_, h4, h5, h6, h7⟩, fun k f => f k⟩
    intro t' w hw
    simp only at hw
    split at hw
    · simp only [List.mem_cons, List.not_mem_nil, or_false] at hw
      rcases hw with rfl | rfl
      · exact hx.1
      · exact hx.2
    · exact h3 t' w hw
  | write t =>
    simp only [step] at h
    have key : ∀ w r, pend t = w :: r → ∀ t', ∀ w' ∈ (if t' = t then r else pend t'), WriteIn a b w' := by
      intro w r e t' w' hw
      split at hw
      · exact h3 t w' (by rw [e]; exact List.mem_cons_of_mem _ hw)
      · exact h3 t' w' hw
    split at h
    · cases h
    · rename_i w r e
      cases h
      exact ⟨⟨h3 t (.lower w) (by rw [e]; exact List.mem_cons_self), h2, key _ _ e, h4, h5, h6, h7⟩, fun k f => f k⟩
    · rename_i w r e
      cases h
      exact ⟨⟨h1, h3 t (.upper w) (by rw [e]; exact List.mem_cons_self), key _ _ e, h4, h5, h6, h7⟩, fun k f => f k⟩

theorem inv_exec (a b : K) (acts : List (Act K T)) (s s' : St K T) (hx : ∀ x ∈ acts, SetsIn a b x) (i : Inv a b s)
    (h0 : s.pc = 4 → Between a b s.outVal) (h : exec s acts = some s') : s'.pc = 4 → Between a b s'.outVal := by
  induction acts generalizing s with
  | nil => cases h; exact h0
  | cons x acts ih =>
    simp only [exec, Option.bind_eq_some_iff] at h
    obtain ⟨s1, e1, e2⟩ := h
    obtain ⟨k1, k2⟩ := inv_step a b s s1 x (hx x List.mem_cons_self) i e1
    exact ih s1 (fun y hy => hx y (List.mem_cons_of_mem _ hy)) k1 (fun k => k2 k h0) e2

/-- **Whatever number of threads change the limits at whatever moments, every output lies in every interval which contains all
the limits ever set.**  (`init` has an output in the interval; each later output is one of a run.) -/
theorem within_all_limits_partial (a b l u x : K) (acts : List (Act K T)) (s : St K T) (hl : Between a b l)
    (hu : Between a b u) (hx : Between a b x) (hs : ∀ y ∈ acts, SetsIn a b y) (h : exec (init l u x) acts = some s)
    (hp : s.pc = 4) : Between a b s.outVal :=
  inv_exec a b acts (init l u x) s hs
    ⟨hl, hu, by simp [init], by simp [init], by simp [init], by simp [init], by simp [init]⟩ (fun _ => hx) h hp

/-- Limits 0 and 1, then 3 and 4 by thread 0 and 2 and 5 by thread 1, all of them in the middle of a run with the input 7. -/
example : (exec (T := Nat) (init (0 : Rat) 1 0)
    [.start 7, .set 0 3 4, .run, .set 1 2 5, .write 0, .write 1, .run, .write 0, .run, .write 1, .run]).map
      (fun s => (s.outVal, s.pc)) = some (1, 4) := by decide +kernel

/-! ## One change -/

/-- Where the writes of the one change are. -/
inductive Mem (t : T) (l u l' u' : K) : K → K → (T → List (Write K)) → Prop where
  | old (p) (h : ∀ i, p i = if i = t then [.lower l', .upper u'] else []) : Mem t l u l' u' l u p
  | half (p) (h : ∀ i, p i = if i = t then [.upper u'] else []) : Mem t l u l' u' l' u p
  | new (p) (h : ∀ i, p i = []) : Mem t l u l' u' l' u' p

structure Inv1 (t : T) (l u l' u' x : K) (s : St K T) : Prop where
  mem : Mem t l u l' u' s.lower s.upper s.pend
  inp : s.inVal = x
  p0 : s.pc = 0 → s.outVal = x
  p1 : s.pc = 1 → s.outVal = x ∧ (s.cmp = false → x ≤ u ∨ x ≤ u' ∧ s.lower = l')
  p2 : s.pc = 2 → s.outVal = u ∨ s.outVal = u' ∨ s.outVal = x ∧ (x ≤ u ∨ x ≤ u' ∧ s.lower = l')
  p3 : s.pc = 3 → s.cmp = false → s.outVal = u ∨ s.outVal = u' ∨ s.outVal = x ∧ (l ≤ x ∧ x ≤ u ∨ l' ≤ x ∧ (x ≤ u ∨ x ≤ u'))
  p4 : s.pc = 4 → s.outVal = u ∨ s.outVal = u' ∨ s.outVal = l ∨ s.outVal = l' ∨
    s.outVal = x ∧ (l ≤ x ∧ x ≤ u ∨ l' ≤ x ∧ (x ≤ u ∨ x ≤ u'))

/-- Actions of the run with the one input and the writes of the one change. -/
def One : Act K T → Prop
  | .run => True
  | .write _ => True
  | _ => False

theorem inv1_step (t : T) (l u l' u' x : K) (s s' : St K T) (y : Act K T) (hy : One y) (i : Inv1 t l u l' u' x s)
    (h : step s y = some s') : Inv1 t l u l' u' x s' := by
  obtain ⟨lo, up, v, o, c, pc, pend⟩ := s
  obtain ⟨m, h0, h4, h5, h6, h7, h8⟩ := i
  simp only at m h0 h4 h5 h6 h7 h8
  subst h0
  cases y with
  | start x => exact hy.elim
  | set t l' u' => exact hy.elim
  | run =>
    simp only [step, runStep] at h
    split at h
    · cases h
      refine ⟨m, rfl, by simp, ?_, by simp, by simp, by simp⟩
      intro _
      refine ⟨h4 rfl, ?_⟩
      simp only [decide_eq_false_iff_not, not_lt]
      intro k
      cases m with
      | old _ h => exact Or.inl k
      | half _ h => exact Or.inl k
      | new _ h => exact Or.inr ⟨k, rfl⟩
    · cases h
      refine ⟨m, rfl, by simp, by simp, ?_, by simp, by simp⟩
      intro _
      obtain ⟨k1, k2⟩ := h5 rfl
      cases c
      · exact Or.inr (Or.inr ⟨k1, k2 rfl⟩)
      · cases m with
        | old _ h => exact Or.inl rfl
        | half _ h => exact Or.inl rfl
        | new _ h => exact Or.inr (Or.inl rfl)
    · cases h
      refine ⟨m, rfl, by simp, by simp, by simp, ?_, by simp⟩
      intro _ k
      simp only [decide_eq_false_iff_not, not_lt] at k
      rcases h6 rfl with k1 | k1 | ⟨k1, k2⟩
      · exact Or.inl k1
      · exact Or.inr (Or.inl k1)
      · refine Or.inr (Or.inr ⟨k1, ?_⟩)
        rcases k2 with k2 | ⟨k2, k3⟩
        · cases m with
          | old _ h => exact Or.inl ⟨k, k2⟩
          | half _ h => exact Or.inr ⟨k, Or.inl k2⟩
          | new _ h => exact Or.inr ⟨k, Or.inl k2⟩
        · simp only [k3] at k
          exact Or.inr ⟨k, Or.inr k2⟩
    · cases h
      refine ⟨m, rfl, by simp, by simp, by simp, by simp, ?_⟩
      intro _
      cases c
      · rcases h7 rfl rfl with k | k | k
        · exact Or.inl k
        · exact Or.inr (Or.inl k)
        · exact Or.inr (Or.inr (Or.inr (Or.inr k)))
      · cases m with
        | old _ h => exact Or.inr (Or.inr (Or.inl rfl))
        | half _ h => exact Or.inr (Or.inr (Or.inr (Or.inl rfl)))
        | new _ h => exact Or.inr (Or.inr (Or.inr (Or.inl rfl)))
    · cases h
  | write r =>
    simp only [step] at h
    cases m with
    | old _ e =>
      have er := e r
      by_cases hr : r = t
      · subst hr
        rw [if_pos rfl] at er
        rw [er] at h
        cases h
        refine ⟨.half _ ?_, rfl, h4, ?_, ?_, h7, h8⟩
        · intro i
          simp only
          split
          · rfl
          · rw [e i, if_neg ‹_›]
        · intro k
          obtain ⟨k1, k2⟩ := h5 k
          refine ⟨k1, fun k3 => ?_⟩
          rcases k2 k3 with k4 | k4
          · exact Or.inl k4
          · exact Or.inr ⟨k4.1, rfl⟩
        · intro k
          rcases h6 k with k4 | k4 | ⟨k4, k5 | k5⟩
          · exact Or.inl k4
          · exact Or.inr (Or.inl k4)
          · exact Or.inr (Or.inr ⟨k4, Or.inl k5⟩)
          · exact Or.inr (Or.inr ⟨k4, Or.inr ⟨k5.1, rfl⟩⟩)
      · rw [if_neg hr] at er
        rw [er] at h
        cases h
    | half _ e =>
      have er := e r
      by_cases hr : r = t
      · subst hr
        rw [if_pos rfl] at er
        rw [er] at h
        cases h
        refine ⟨.new _ ?_, rfl, h4, h5, h6, h7, h8⟩
        intro i
        simp only
        split
        · rfl
        · rw [e i, if_neg ‹_›]
      · rw [if_neg hr] at er
        rw [er] at h
        cases h
    | new _ e =>
      rw [e r] at h
      cases h

theorem inv1_exec (t : T) (l u l' u' x : K) (acts : List (Act K T)) (s s' : St K T) (hy : ∀ y ∈ acts, One y)
    (i : Inv1 t l u l' u' x s) (h : exec s acts = some s') : Inv1 t l u l' u' x s' := by
  induction acts generalizing s with
  | nil => cases h; exact i
  | cons y acts ih =>
    simp only [exec, Option.bind_eq_some_iff] at h
    obtain ⟨s1, e1, e2⟩ := h
    exact ih s1 (fun z hz => hy z (List.mem_cons_of_mem _ hz)) (inv1_step t l u l' u' x s s1 y (hy y List.mem_cons_self) i e1) e2

/-- Every output of a run during a change of the limits from `l`, `u` to `l'`, `u'` respects the old or the new limits. -/
def Respects (T : Type) [DecidableEq T] (l u l' u' : K) : Prop :=
  ∀ (t : T) (x : K) (acts : List (Act K T)) (s : St K T), (∀ y ∈ acts, One y) → exec (during t l u l' u' x) acts = some s →
    s.pc = 4 → Between l u s.outVal ∨ Between l' u' s.outVal

/-- **A change which does not move the upper limit below the old lower limit** is safe: each output respects the old or the
new limits. -/
theorem change_respects_partial (l u l' u' : K) (h : l ≤ u) (h' : l' ≤ u') (hg : l ≤ u') : Respects T l u l' u' := by
  intro t x acts s ha he hp
  have i : Inv1 t l u l' u' x (during t l u l' u' x) :=
    ⟨.old _ (fun i => rfl), rfl, fun _ => rfl, by simp [during], by simp [during], by simp [during], by simp [during]⟩
  have k := (inv1_exec t l u l' u' x acts _ s ha i he).p4 hp
  rcases k with k | k | k | k | ⟨k, k1⟩
  · exact Or.inl ⟨k ▸ h, k ▸ le_refl _⟩
  · exact Or.inr ⟨k ▸ h', k ▸ le_refl _⟩
  · exact Or.inl ⟨k ▸ le_refl _, k ▸ h⟩
  · exact Or.inr ⟨k ▸ le_refl _, k ▸ h'⟩
  · rw [k]
    rcases k1 with k1 | ⟨k1, k2 | k2⟩
    · exact Or.inl k1
    · by_cases k3 : x ≤ u'
      · exact Or.inr ⟨k1, k3⟩
      · exact Or.inl ⟨le_trans hg (le_of_lt (not_le.mp k3)), k2⟩
    · exact Or.inr ⟨k1, k2⟩

/-- **The change of the limits is not atomic**: an input between the new upper and the old lower limit may pass, though it is
outside of both. -/
theorem passes_violated (t : T) (l u l' u' x : K) (h : l ≤ u) (h' : l' ≤ u') (h1 : u' < x) (h2 : x < l) :
    ∃ acts s, (∀ y ∈ acts, One y) ∧ exec (during t l u l' u' x) acts = some s ∧ s.pc = 4 ∧ s.outVal = x ∧
      ¬ Between l u s.outVal ∧ ¬ Between l' u' s.outVal := by
  refine ⟨[.run, .write t, .write t, .run, .run, .run], ⟨l', u', x, x, false, 4, fun i => if i = t then [] else
    if i = t then [.upper u'] else if i = t then [.lower l', .upper u'] else []⟩, ?_, ?_, rfl, rfl, ?_, ?_⟩
  · intro y hy
    simp only [List.mem_cons, List.not_mem_nil, or_false] at hy
    rcases hy with rfl | rfl | rfl | rfl | rfl | rfl <;> trivial
  · have e1 : ¬ u < x := not_lt.mpr (le_of_lt (lt_of_lt_of_le h2 h))
    have e2 : ¬ x < l' := not_lt.mpr (le_trans h' (le_of_lt h1))
    simp [exec, step, runStep, during, e1, e2]
  · exact fun k => absurd k.1 (not_le.mpr h2)
  · exact fun k => absurd k.2 (not_le.mpr h1)

/-- **Exactly the changes to limits entirely below the old ones are not safe.** -/
theorem respects_iff [DenselyOrdered K] [Nonempty T] (l u l' u' : K) (h : l ≤ u) (h' : l' ≤ u') :
    Respects T l u l' u' ↔ l ≤ u' := by
  refine ⟨fun k => ?_, change_respects_partial l u l' u' h h'⟩
  by_contra hc
  obtain ⟨x, h1, h2⟩ := exists_between (not_le.mp hc)
  obtain ⟨t⟩ := ‹Nonempty T›
  obtain ⟨acts, s, ha, he, hp, _, k1, k2⟩ := passes_violated t l u l' u' x h h' h1 h2
  rcases k t x acts s ha he hp with k3 | k3
  · exact k1 k3
  · exact k2 k3

/-- From 10 … 11 down to 0 … 1, the value 5 passes; from 0 … 1 up to 10 … 11 it cannot. -/
example : ¬ Respects Nat (10 : Rat) 11 0 1 ∧ Respects Nat (0 : Rat) 1 10 11 :=
  ⟨fun k => absurd ((respects_iff (T := Nat) (10 : Rat) 11 0 1 (by norm_num) (by norm_num)).mp k) (by norm_num),
    (respects_iff (T := Nat) (0 : Rat) 1 10 11 (by norm_num) (by norm_num)).mpr (by norm_num)⟩

end Verif.Control.SaturationConc
