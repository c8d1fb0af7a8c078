import Verif.Sequencer.Machine
/-!
The step function of `Machine.lean` cut into single effects, as a relation, and the induction principle that invariants of the relation are invariants
of all histories.  Proof device only; the property theorems are stated about `Reach`.
-/
namespace Verif.Sequencer

/-- Top positions from which a sequence can be started. -/
def CanCall : List Frame → Prop
  | [] => True
  | .body _ :: _ => True
  | .exc _ _ _ :: _ => True
  | _ => False

inductive Micro (P : Prog) (s : M) : M → List Ev → Prop where
  | call (j) : CanCall s.frames → j ∉ s.frames.map Frame.id → Micro P s { s with frames := .loop j (-1) :: s.frames } [.call j]
  | dead : Micro P s { s with halt := some .deadlock } []
  | spawn (j) : Micro P s s [.spawn j]
  | leave (i fs v) : s.frames = .body i :: fs → Micro P s { s with frames := .loop i v :: fs } [.leave i v]
  | idle (i r fs) : s.frames = .loop i r :: fs → s.st i = .idle →
      Micro P s { s with fired := upd s.fired i false, active := upd s.active i none, frames := .check (newCheck P i r .idle) :: fs } []
  | enter (i r fs) : s.frames = .loop i r :: fs → s.st i = .starting →
      Micro P s { s with st := upd s.st i .running, frames := .body i :: fs } [.enter i]
  | refuse (i r fs) : s.frames = .loop i r :: fs → s.st i = .starting →
      Micro P s { s with st := upd s.st i .terminated } [.refuse i]
  | run (i r fs) : s.frames = .loop i r :: fs → s.st i = .running →
      Micro P s { s with frames := .check (newCheck P i r .run) :: fs } []
  | abort (i r fs) : s.frames = .loop i r :: fs → s.st i = .aborting →
      Micro P s { s with st := upd s.st i .terminated } []
  | restart (i r fs) : s.frames = .loop i r :: fs → s.st i = .restarting →
      Micro P s { s with st := upd s.st i .starting, fired := upd s.fired i false, active := upd s.active i none } [.restart i]
  | ret (i r fs) : s.frames = .loop i r :: fs → s.st i = .terminated →
      Micro P s { s with st := upd s.st i .idle, frames := fs } [.ret i r]
  | exitTrue (i r fs) : s.frames = .exit i r :: fs → Micro P s { s with st := upd s.st i .terminated, frames := .loop i r :: fs } []
  | exitFalse (i r fs) : s.frames = .exit i r :: fs → Micro P s { s with frames := .loop i r :: fs } []
  | after (k o m fs) : s.frames = .exc k o m :: fs → Micro P s (afterExc s k o m fs).1 [.handled o m]
  | finish (k fs) : s.frames = .check k :: fs → k.os = [] → Micro P s (finish P s k fs) []
  | skip (k fs o os) : s.frames = .check k :: fs → k.os = o :: os → k.ms = none → s.inExc o = true →
      Micro P s { s with frames := .check { k with os := os } :: fs } []
  | opn (k fs o os) : s.frames = .check k :: fs → k.os = o :: os → k.ms = none → s.inExc o = false →
      Micro P s { s with frames := .check { k with ms := some (P.mons o) } :: fs } []
  | next (k fs o os) : s.frames = .check k :: fs → k.os = o :: os → k.ms = some [] →
      Micro P s { s with frames := .check { k with os := os, ms := none } :: fs } []
  | pollFalse (k fs o os m ms) : s.frames = .check k :: fs → k.os = o :: os → k.ms = some (m :: ms) →
      Micro P s { s with frames := .check { k with ms := some ms } :: fs } [.poll o m false]
  | pollFired (k fs o os m ms) : s.frames = .check k :: fs → k.os = o :: os → k.ms = some (m :: ms) → s.fired o = true →
      Micro P s { s with frames := .check { k with ms := some ms, act := some o } :: fs } [.poll o m true]
  | fire (k fs o os m ms) : s.frames = .check k :: fs → k.os = o :: os → k.ms = some (m :: ms) → s.fired o = false →
      Micro P s { s with fired := upd s.fired o true, active := upd s.active o (some m), inExc := upd s.inExc o true,
                         frames := .exc { k with ms := some ms, act := some o } o m :: fs } [.poll o m true, .fire o m]

/-- Histories of single effects. -/
inductive MReach (P : Prog) (tr : List Ev) (s : M) : List Ev → M → Prop where
  | refl : MReach P tr s tr s
  | step (tr' s' s'' ev) : MReach P tr s tr' s' → Micro P s' s'' ev → MReach P tr s (tr' ++ ev) s''

theorem micro_start (P : Prog) (s : M) (j : Nat) (h : CanCall s.frames) : Micro P s (startSeq P s j).1 (startSeq P s j).2 := by
  unfold startSeq
  split
  · split
    · exact .dead
    · rename_i h1; exact .call j h h1
  · exact .spawn j

/-- A step is one or two effects. -/
theorem step_micro (P : Prog) (s s' : M) (x : Inp) (ev : List Ev) (h : step P s x = some (s', ev)) :
    Micro P s s' ev ∨ ∃ s1 o m ev2, Micro P s s1 [.poll o m true, .fire o m] ∧ Micro P s1 s' ev2 ∧ ev = .poll o m true :: .fire o m :: ev2 := by
  unfold step at h
  split at h
  · cases h
  split at h
  · rename_i hf; injection h with h
    have := micro_start P s (by assumption) (by simp [hf, CanCall])
    rw [h] at this; exact Or.inl this
  · rename_i hf; injection h with h
    have := micro_start P s (by assumption) (by simp [hf, CanCall])
    rw [h] at this; exact Or.inl this
  · rename_i hf; simp only [Option.some.injEq, Prod.mk.injEq] at h; obtain ⟨rfl, rfl⟩ := h
    exact Or.inl (.leave _ _ _ hf)
  · rename_i hf
    split at h <;> first
      | (rename_i hs; simp only [Option.some.injEq, Prod.mk.injEq] at h; obtain ⟨rfl, rfl⟩ := h; first
          | exact Or.inl (.idle _ _ _ hf hs)
          | exact Or.inl (.enter _ _ _ hf hs)
          | exact Or.inl (.refuse _ _ _ hf hs)
          | exact Or.inl (.run _ _ _ hf hs)
          | exact Or.inl (.abort _ _ _ hf hs)
          | exact Or.inl (.restart _ _ _ hf hs)
          | exact Or.inl (.ret _ _ _ hf hs))
      | cases h
  · rename_i b hf; simp only [Option.some.injEq, Prod.mk.injEq] at h; obtain ⟨rfl, rfl⟩ := h
    cases b
    · exact Or.inl (.exitFalse _ _ _ hf)
    · exact Or.inl (.exitTrue _ _ _ hf)
  · rename_i hf; injection h with h
    have := Micro.after (P := P) _ _ _ _ hf
    have h2 := congrArg Prod.fst h; have h3 := congrArg Prod.snd h
    simp only at h2 h3
    rw [← h2, ← h3]
    exact Or.inl (by simpa [afterExc] using this)
  · rename_i hf
    split at h
    · rename_i ho; simp only [Option.some.injEq, Prod.mk.injEq] at h; obtain ⟨rfl, rfl⟩ := h
      exact Or.inl (.finish _ _ hf ho)
    · rename_i ho hm
      split at h
      · rename_i hi; simp only [Option.some.injEq, Prod.mk.injEq] at h; obtain ⟨rfl, rfl⟩ := h
        exact Or.inl (.skip _ _ _ _ hf ho hm hi)
      · rename_i hi; simp only [Option.some.injEq, Prod.mk.injEq] at h; obtain ⟨rfl, rfl⟩ := h
        exact Or.inl (.opn _ _ _ _ hf ho hm (by simpa using hi))
    · rename_i ho hm; simp only [Option.some.injEq, Prod.mk.injEq] at h; obtain ⟨rfl, rfl⟩ := h
      exact Or.inl (.next _ _ _ _ hf ho hm)
    · rename_i o _ m ms b ho hm
      injection h with h
      unfold checkMonitor at h
      cases b with
      | false =>
        simp only [Bool.false_eq_true, if_false, Prod.mk.injEq] at h; obtain ⟨rfl, rfl⟩ := h
        exact Or.inl (.pollFalse _ _ _ _ _ _ hf ho hm)
      | true =>
        simp only [if_true] at h
        split at h
        · rename_i hfi; simp only [Prod.mk.injEq] at h; obtain ⟨rfl, rfl⟩ := h
          exact Or.inl (.pollFired _ _ _ _ _ _ hf ho hm hfi)
        · rename_i hfi
          have hfire := Micro.fire (P := P) _ _ _ _ _ _ hf ho hm (by simpa using hfi)
          right
          split at h
          · have h2 := congrArg Prod.fst h; have h3 := congrArg Prod.snd h
            simp only at h2 h3
            refine ⟨_, _, _, [.handled o m], hfire, ?_, ?_⟩
            · rw [← h2]
              exact Micro.after (P := P) _ _ _ _ rfl
            · rw [← h3]; simp [afterExc]
          · rename_i e _
            have h2 := congrArg Prod.fst h; have h3 := congrArg Prod.snd h
            simp only at h2 h3
            refine ⟨_, _, _, _, hfire, ?_, h3.symm⟩
            rw [← h2]
            exact micro_start P _ e trivial
    · cases h
  · cases h

theorem MReach.trans {P : Prog} {tr s tr1 s1 tr2 s2} (h1 : MReach P tr s tr1 s1) (h2 : MReach P tr1 s1 tr2 s2) : MReach P tr s tr2 s2 := by
  induction h2 with
  | refl => exact h1
  | step _ _ _ _ _ m ih => exact .step _ _ _ _ ih m

theorem mreach_of_step (P : Prog) (tr : List Ev) (s s' : M) (x : Inp) (ev : List Ev) (h : step P s x = some (s', ev)) :
    MReach P tr s (tr ++ ev) s' := by
  rcases step_micro P s s' x ev h with h | ⟨s1, o, m, e2, h1, h2, rfl⟩
  · exact .step _ _ _ _ .refl h
  · rw [show tr ++ Ev.poll o m true :: Ev.fire o m :: e2 = (tr ++ [.poll o m true, .fire o m]) ++ e2 by simp]
    exact .step _ _ _ _ (.step _ _ _ _ .refl h1) h2

theorem reach_mreach (P : Prog) (tr : List Ev) (s : M) (h : Reach P tr s) : MReach P [] init tr s := by
  induction h with
  | init => exact .refl
  | step tr s x s' ev _ hs ih => exact ih.trans (mreach_of_step P tr s s' x ev hs)

/-- An invariant of single effects is an invariant of histories. -/
theorem mreach_inv {P : Prog} (Q : List Ev → M → Prop) (hstep : ∀ tr s s' ev, Q tr s → Micro P s s' ev → Q (tr ++ ev) s')
    {tr tr' : List Ev} {s s' : M} (h : MReach P tr s tr' s') (h0 : Q tr s) : Q tr' s' := by
  induction h with
  | refl => exact h0
  | step tr' s' s'' ev _ hm ih => exact hstep _ _ _ _ ih hm

theorem reach_inv {P : Prog} (Q : List Ev → M → Prop) (h0 : Q [] init) (hstep : ∀ tr s s' ev, Q tr s → Micro P s s' ev → Q (tr ++ ev) s')
    {tr : List Ev} {s : M} (h : Reach P tr s) : Q tr s := mreach_inv Q hstep (reach_mreach P tr s h) h0

end Verif.Sequencer
