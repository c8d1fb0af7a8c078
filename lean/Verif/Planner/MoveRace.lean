import Mathlib.Tactic.ByContra
/-!
`move` of the path planners, called by a sequence, while the executor runs the block in another thread: PathPlannerConstAcc
(includes/eeros/control/PathPlannerConstAcc.hpp:63-66, 73-135, 154-222), the same in PathPlannerConstJerk (65-68, 75-163, 187-272), and `move(end)` of TrajectoryGenerator
(includes/eeros/control/TrajectoryGenerator.hpp:70-75), which copies `last` first.

`run` and `endReached` hold the mutex; `move` reads `finished` and writes `endPos` without it and takes it only at its end.  A step is: a run before the last part of the trajectory, one
axis of the last run, and the parts of `move` between which the other thread matters.  Simplified: only positions; one thread calls `move`.
-/
namespace Verif.Planner.MoveRace

/-- The thread which calls `move`: outside, after the copy of `last`, after `endPos` was written. -/
inductive Phase where
  | idle | copied | computing
deriving DecidableEq

/-- `target` is the end position handed to the trajectory under way and `begun` its start position; `ok`: `endReached` was called and was true, and `move` was not called since. -/
structure St (K : Type) where
  finished : Bool
  /-- `range` is the last one (4 or 6) -/
  lastPart : Bool
  endPos : Nat → K
  last : Nat → K
  /-- `run` holds the mutex and has to treat this axis next -/
  inRun : Option Nat
  phase : Phase
  start : Nat → K
  target : Nat → K
  begun : Nat → K
  ok : Bool

variable {K : Type}

inductive Ev (K : Type) where
  /-- a run before the last part, at whose end the positions are `p` -/
  | travel (p : Nat → K) (arrived : Bool)
  /-- `run` takes the mutex in the last part -/
  | runBegin
  /-- one round of the loop, case 4 -/
  | runAxis
  /-- end of `run` -/
  | runEnd
  /-- `endReached()` -/
  | check
  /-- `move(end)`: the argument `last` is copied -/
  | copy
  /-- `if (!finished) return false; ... endPos = end[0];` -/
  | enter (p : Nat → K)
  /-- `move` takes the mutex: `finished = false; range = 1;` -/
  | commit

/-- A step, `none` if it is not possible; `n` axes. -/
def step (n : Nat) (s : St K) : Ev K → Option (St K)
  | .travel p arrived => if s.inRun = none ∧ s.finished = false ∧ s.lastPart = false then some { s with last := p, lastPart := arrived } else none
  | .runBegin => if s.inRun = none ∧ s.finished = false ∧ s.lastPart = true then some { s with inRun := some 0 } else none
  | .runAxis => match s.inRun with
    | some i => if i < n then some { s with finished := true, last := fun k => if k = i then s.endPos i else s.last k, inRun := some (i + 1) } else none
    | none => none
  | .runEnd => if s.inRun = some n then some { s with inRun := none } else none
  | .check => if s.inRun = none ∧ s.phase = .idle then some { s with ok := s.finished } else none
  | .copy => if s.phase = .idle then some { s with phase := .copied, start := s.last } else none
  | .enter p => if s.phase = .copied then
      (if s.finished then some { s with phase := .computing, endPos := p } else some { s with phase := .idle, ok := false }) else none
  | .commit => if s.inRun = none ∧ s.phase = .computing then
      some { s with finished := false, lastPart := false, phase := .idle, target := s.endPos, begun := s.start, ok := false } else none

def exec (n : Nat) (s : St K) : List (Ev K) → Option (St K)
  | [] => some s
  | e :: es => (step n s e).bind (fun s => exec n s es)

/-- After the constructor and `setStart(p)`. -/
def init (p : Nat → K) : St K :=
  { finished := true, lastPart := false, endPos := p, last := p, inRun := none, phase := .idle, start := p, target := p, begun := p, ok := false }

/-! ### Properties: C151 -/

/-- A trace in which `move` is only called after `endReached` was true. -/
def Disciplined (n : Nat) : St K → List (Ev K) → Prop
  | _, [] => True
  | s, e :: es => (match e with | .copy => s.ok = true | _ => True) ∧ ∀ s', step n s e = some s' → Disciplined n s' es

structure Inv (n : Nat) (s : St K) : Prop where
  ok : s.ok = true → s.finished = true ∧ s.inRun = none
  busy : s.phase ≠ .idle → s.finished = true ∧ s.inRun = none ∧ s.start = s.last
  target : s.phase ≠ .computing → (s.finished = false ∨ s.inRun ≠ none) → s.endPos = s.target
  run : ∀ i, s.inRun = some i → i ≤ n ∧ ∀ k, k < i → s.last k = s.target k
  fin : ∀ i, s.inRun = some i → (i = 0 → s.finished = false)

theorem inv_step {n : Nat} {s s' : St K} {e : Ev K} (h : Inv n s) (hd : match e with | .copy => s.ok = true | _ => True) (hs : step n s e = some s') : Inv n s' := by
  cases e with
  | travel p arrived =>
    simp only [step] at hs
    split at hs
    · next hc =>
      cases hs
      refine ⟨h.ok, fun hp => ?_, h.target, fun i hi => ?_, fun i hi => ?_⟩
      · have := (h.busy hp).1; rw [hc.2.1] at this; cases this
      · dsimp only at hi; rw [hc.1] at hi; cases hi
      · dsimp only at hi; rw [hc.1] at hi; cases hi
    · cases hs
  | runBegin =>
    simp only [step] at hs
    split at hs
    · next hc =>
      cases hs
      refine ⟨fun ho => ?_, fun hp => ?_, fun hp _ => h.target hp (.inl hc.2.1), fun i hi => ?_, fun i hi _ => hc.2.1⟩
      · have := (h.ok ho).1; rw [hc.2.1] at this; cases this
      · have := (h.busy hp).1; rw [hc.2.1] at this; cases this
      · cases hi; exact ⟨Nat.zero_le _, fun k hk => absurd hk (Nat.not_lt_zero k)⟩
    · cases hs
  | runAxis =>
    simp only [step] at hs
    split at hs
    · next i hi =>
      split at hs
      · next hn =>
        cases hs
        have hph : s.phase = .idle := by
          by_contra hp
          have := (h.busy hp).2.1; rw [hi] at this; cases this
        have ht := h.target (by rw [hph]; simp) (.inr (by rw [hi]; simp))
        refine ⟨fun ho => ?_, fun hp => absurd hph hp, fun hp _ => ht, fun j hj => ?_, fun j hj hj0 => ?_⟩
        · have := (h.ok ho).2; rw [hi] at this; cases this
        · cases hj
          refine ⟨hn, fun k hk => ?_⟩
          by_cases hki : k = i
          · subst hki; simp [ht]
          · simp only [hki, if_false]; exact (h.run i hi).2 k (by omega)
        · cases hj; omega
      · cases hs
    · cases hs
  | runEnd =>
    simp only [step] at hs
    split at hs
    · next hc =>
      cases hs
      refine ⟨fun ho => ⟨(h.ok ho).1, rfl⟩, fun hp => ?_, fun hp hx => ?_, fun i hi => ?_, fun i hi => ?_⟩
      · have := (h.busy hp).2.1; rw [hc] at this; cases this
      · exact h.target hp (.inr (by rw [hc]; simp))
      · cases hi
      · cases hi
    · cases hs
  | check =>
    simp only [step] at hs
    split at hs
    · next hc =>
      cases hs
      exact ⟨fun ho => ⟨ho, hc.1⟩, h.busy, h.target, h.run, h.fin⟩
    · cases hs
  | copy =>
    simp only [step] at hs
    split at hs
    · next hc =>
      cases hs
      obtain ⟨o1, o2⟩ := h.ok hd
      exact ⟨h.ok, fun _ => ⟨o1, o2, rfl⟩, fun _ hx => h.target (by rw [hc]; simp) hx, h.run, h.fin⟩
    · cases hs
  | enter p =>
    simp only [step] at hs
    split at hs
    · next hc =>
      obtain ⟨b1, b2, b3⟩ := h.busy (by rw [hc]; simp)
      rw [if_pos b1] at hs
      cases hs
      exact ⟨h.ok, fun _ => ⟨b1, b2, b3⟩, fun hp => absurd rfl hp, h.run, h.fin⟩
    · cases hs
  | commit =>
    simp only [step] at hs
    split at hs
    · next hc =>
      cases hs
      refine ⟨fun ho => by simp at ho, fun hp => absurd rfl hp, fun _ _ => rfl, fun i hi => ?_, fun i hi => ?_⟩
      · dsimp only at hi; rw [hc.1] at hi; cases hi
      · dsimp only at hi; rw [hc.1] at hi; cases hi
    · cases hs

theorem inv_exec {n : Nat} (es : List (Ev K)) : ∀ s s' : St K, Inv n s → Disciplined n s es → exec n s es = some s' → Inv n s' := by
  induction es with
  | nil => intro s s' h _ hs; cases hs; exact h
  | cons e es ih =>
    intro s s' h hd hs
    simp only [exec] at hs
    cases hx : step n s e with
    | none => rw [hx] at hs; cases hs
    | some s1 =>
      rw [hx] at hs
      exact ih s1 s' (inv_step h hd.1 hx) (hd.2 s1 hx) hs

theorem inv_init (n : Nat) (p : Nat → K) : Inv n (init p) :=
  ⟨fun h => by simp [init] at h, fun h => absurd rfl h, fun _ _ => rfl, fun i h => by simp [init] at h, fun i h => by simp [init] at h⟩

/-- C151: if `move` is only called after `endReached` was true, each trajectory ends at its own end position in all axes, for every number of axes and every interleaving. -/
theorem ends_at_target_partial (n : Nat) (p : Nat → K) (es : List (Ev K)) (s s' : St K) (hd : Disciplined n (init p) es) (hs : exec n (init p) es = some s)
    (hr : step n s .runEnd = some s') : ∀ k, k < n → s'.last k = s'.target k := by
  have h := inv_exec es _ _ (inv_init n p) hd hs
  simp only [step] at hr
  split at hr
  · next hc => cases hr; exact (h.run n hc).2
  · cases hr

/-- C151: under the same condition each trajectory of `move(end)` begins where the output is. -/
theorem begins_at_last_partial (n : Nat) (p : Nat → K) (es : List (Ev K)) (s s' : St K) (hd : Disciplined n (init p) es) (hs : exec n (init p) es = some s)
    (hr : step n s .commit = some s') : s'.begun = s'.last := by
  have h := inv_exec es _ _ (inv_init n p) hd hs
  simp only [step] at hr
  split at hr
  · next hc => cases hr; exact (h.busy (by rw [hc.2]; simp)).2.2
  · cases hr

/-- C151 violated: a call of `move` during the last run, which finds `finished` already true, moves the second axis to the new end position at once: from `p` to `q`, then `r` instead of `q`. -/
theorem end_overwritten_violated (n : Nat) (hn : 2 ≤ n) (p q r : Nat → K) :
    ∃ es s, exec n (init p) es = some s ∧ s.target = q ∧ s.last 0 = q 0 ∧ s.last 1 = r 1 := by
  refine ⟨[.copy, .enter q, .commit, .travel p true, .runBegin, .runAxis, .copy, .enter r, .runAxis], ?_⟩
  simp [exec, step, init, show 0 < n by omega, show 1 < n by omega]

/-- C151 violated: `move(end)` copies the position before it looks at `finished`; if the trajectory ends in between, the next one begins at the old position `x`. -/
theorem begins_behind_violated (p q r x : Nat → K) :
    ∃ es s, exec 1 (init p) es = some s ∧ s.begun = x ∧ s.last 0 = q 0 := by
  refine ⟨[.copy, .enter q, .commit, .travel x true, .copy, .runBegin, .runAxis, .runEnd, .enter r, .commit], ?_⟩
  simp [exec, step, init]

/-- Case of `ends_at_target_partial`: two axes from (0, 0) to (4, 5). -/
example : Disciplined 2 (init (fun _ => (0 : Int))) [.check, .copy, .enter (fun k => 4 + k), .commit, .travel (fun _ => 3) true, .runBegin, .runAxis, .runAxis] ∧
    (exec 2 (init (fun _ => (0 : Int))) [.check, .copy, .enter (fun k => 4 + k), .commit, .travel (fun _ => 3) true, .runBegin, .runAxis, .runAxis, .runEnd]).map (fun s => (s.last 0, s.last 1)) = some (4, 5) := by
  constructor
  · simp [Disciplined, step, init]
  · simp [exec, step, init]

end Verif.Planner.MoveRace
