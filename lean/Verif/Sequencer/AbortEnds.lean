import Verif.Sequencer.AbortAll
/-!
After `Sequencer::abort` all sequences of a thread return, after a number of steps bounded by the state at the time of the abort, as soon as the custom actions
no longer start other sequences.
-/
namespace Verif.Sequencer

/-- `n` steps of a thread from `s0` in which no custom action starts a sequence; flags as in `RunT`. -/
inductive RunN (P : Prog) (s0 : T) : Nat → T → Prop where
  | refl : RunN P s0 0 s0
  | step (n s x m' ev) : RunN P s0 n s → (∀ j, x ≠ .call j) → Sequencer.step P s.m x = some (m', ev) → (∀ o b, .poll o abortMon b ∈ ev → b = s.flag o) →
      RunN P s0 (n + 1) { m := m', flag := fun i => s.flag i && !starts i ev }
  | set (n s i) : RunN P s0 n s → RunN P s0 n (s.set i)

/-- Steps other than starts and checks of monitors. -/
theorem nocall {P : Prog} (hP : Plain P) {tr : List Ev} {s s' : M} (ha : AInv P tr s) {x : Inp} {ev : List Ev} (h : step P s x = some (s', ev)) (hx : ∀ j, x ≠ .call j) :
    (∀ j, .call j ∉ ev) ∧ (∀ j, .spawn j ∉ ev) ∧ s'.halt ≠ some .deadlock := by
  by_cases hpoll : ∃ k fs o os m ms, s.frames = .check k :: fs ∧ k.os = o :: os ∧ k.ms = some (m :: ms)
  · obtain ⟨k, fs, o, os, m, ms, hf, ho, hms⟩ := hpoll
    have hh : s.halt = none := by
      by_contra hne
      simp [step, hne] at h
    rcases plain_poll hP ha h hf ho hms with ⟨rfl, rfl⟩ | ⟨hfd, rfl, rfl⟩ | ⟨hfd, rfl, rfl⟩ <;> simp [hh]
  · unfold step at h
    split at h
    · cases h
    · rename_i hh
      have hh : s.halt = none := by simpa using hh
      split at h
      · exact absurd rfl (hx _)
      · exact absurd rfl (hx _)
      · simp only [Option.some.injEq, Prod.mk.injEq] at h; obtain ⟨rfl, rfl⟩ := h; simp [hh]
      · split at h <;> simp only [Option.some.injEq, Prod.mk.injEq, reduceCtorEq] at h <;> (obtain ⟨rfl, rfl⟩ := h; simp [hh])
      · simp only [Option.some.injEq, Prod.mk.injEq] at h; obtain ⟨rfl, rfl⟩ := h; simp [hh]
      · simp only [Option.some.injEq, afterExc, Prod.mk.injEq] at h
        obtain ⟨rfl, rfl⟩ := h
        refine ⟨by simp, by simp, ?_⟩
        split <;> simp [hh]
      · rename_i _ k fs hf
        split at h
        · simp only [Option.some.injEq, Prod.mk.injEq] at h
          obtain ⟨rfl, rfl⟩ := h
          refine ⟨by simp, by simp, ?_⟩
          rcases finish_cases P s k fs with he | ⟨f, -, -, -, -, -, h9⟩
          · rw [he]; simp
          · rw [h9, hh]; simp
        · split at h <;> simp only [Option.some.injEq, Prod.mk.injEq] at h <;> (obtain ⟨rfl, rfl⟩ := h; simp [hh])
        · simp only [Option.some.injEq, Prod.mk.injEq] at h; obtain ⟨rfl, rfl⟩ := h; simp [hh]
        · rename_i o os m ms b ho hms
          exact absurd ⟨k, fs, o, os, m, ms, hf, ho, hms⟩ hpoll
        · cases h
      · cases h

/-- A monitor of the sequence has fired. -/
def FiredInv (s : M) : Prop := ∀ i, s.fired i = true → s.st i = .aborting ∨ s.st i = .terminated ∨ s.st i = .idle

theorem finish_abort {P : Prog} {tr : List Ev} {s : M} (ha : AInv P tr s) (hi : PlainInv P s) (hF : FiredInv s) {k : Chk} {fs : List Frame} (hf : s.frames = .check k :: fs)
    (hact : k.act ≠ none) (hc : k.cont = .run) : (finish P s k fs).st k.i = .aborting ∨ (finish P s k fs).st k.i = .terminated := by
  obtain ⟨ph, -, hfit⟩ := pinv_top ha.p hf
  simp only [Frame.id, Fits] at hfit
  have hrun : s.st k.i ≠ .idle := by
    rcases hfit with ⟨h1, -⟩ | ⟨-, -, h2⟩
    · rw [hc] at h1; cases h1
    · exact h2.1
  cases ha' : k.act with
  | none => exact absurd ha' hact
  | some a =>
    obtain ⟨hmem, hne⟩ := ha.n.ok (.check k) (by rw [hf]; simp) a ha'
    cases hb : s.active a with
    | none => exact absurd hb hne
    | some m =>
      have hm := hi.mon a m hb
      simp only [finish, ha', hb, hc]
      cases hfd : s.fired k.i with
      | false => exact Or.inl (mark_self P s.fired m.beh (by rw [hm]; decide) k.i s.st hfd)
      | true =>
        rw [mark_fired _ _ _ _ _ hfd]
        rcases hF k.i hfd with h | h | h
        · exact Or.inl h
        · exact Or.inr h
        · exact absurd h hrun

theorem finish_run_none {P : Prog} {s : M} {k : Chk} {fs : List Frame} (hact : k.act = none) (hc : k.cont = .run) : (finish P s k fs).st = s.st := by
  simp [finish, hact, hc]

theorem finish_idle_none {P : Prog} {s : M} {k : Chk} {fs : List Frame} (hact : k.act = none) (hc : k.cont = .idle) :
    (finish P s k fs).st = (if s.st k.i = .aborting ∨ s.st k.i = .restarting then s.st else upd s.st k.i .starting) := by
  simp [finish, hact, hc]

theorem fired_step {P : Prog} (hP : Plain P) {tr : List Ev} {s s' : M} (ha : AInv P tr s) (hi : PlainInv P s) (hF : FiredInv s) {x : Inp} {ev : List Ev}
    (h : step P s x = some (s', ev)) : FiredInv s' := by
  have hupd : ∀ (i : Nat) (v : SState), (v = .aborting ∨ v = .terminated ∨ v = .idle) → ∀ j, s.fired j = true →
      upd s.st i v j = .aborting ∨ upd s.st i v j = .terminated ∨ upd s.st i v j = .idle := by
    intro i v hv j hj
    by_cases hji : j = i
    · rw [hji, upd_same]; exact hv
    · rw [upd_other _ _ _ _ hji]; exact hF j hj
  by_cases hpoll : ∃ k fs o os m ms, s.frames = .check k :: fs ∧ k.os = o :: os ∧ k.ms = some (m :: ms)
  · obtain ⟨k, fs, o, os, m, ms, hf, ho, hms⟩ := hpoll
    rcases plain_poll hP ha h hf ho hms with ⟨rfl, rfl⟩ | ⟨hfd, rfl, rfl⟩ | ⟨hfd, rfl, rfl⟩
    · exact hF
    · exact hF
    · intro i hi'
      simp only at hi' ⊢
      by_cases hio : i = o
      · rw [hio, upd_same]; exact Or.inl rfl
      · rw [upd_other _ _ _ _ hio] at hi' ⊢; exact hF i hi'
  · rcases step_micro P s s' x ev h with h1 | ⟨s1, o, m, ev2, h1, h2, rfl⟩
    · cases h1 with
      | call j hc hj => exact hF
      | dead => exact hF
      | spawn j => exact hF
      | leave i fs v hf => exact hF
      | idle i r fs hf hs =>
        intro j hj
        simp only at hj ⊢
        by_cases hji : j = i
        · rw [hji, upd_same] at hj; cases hj
        · rw [upd_other _ _ _ _ hji] at hj; exact hF j hj
      | enter i r fs hf hs =>
        intro j hj
        simp only at hj ⊢
        by_cases hji : j = i
        · subst hji
          rcases hF j hj with h | h | h <;> rw [hs] at h <;> cases h
        · rw [upd_other _ _ _ _ hji]; exact hF j hj
      | refuse i r fs hf hs => exact hupd i _ (Or.inr (Or.inl rfl))
      | run i r fs hf hs => exact hF
      | abort i r fs hf hs => exact hupd i _ (Or.inr (Or.inl rfl))
      | restart i r fs hf hs => exact absurd hs (hi.restart i)
      | ret i r fs hf hs => exact hupd i _ (Or.inr (Or.inr rfl))
      | exitTrue i r fs hf => exact hupd i _ (Or.inr (Or.inl rfl))
      | exitFalse i r fs hf => exact hF
      | after k o m fs hf => exact absurd (by rw [hf]; simp) (hi.exc k o m)
      | finish k fs hf hos =>
        rcases finish_cases P s k fs with he | ⟨f, hff, h5, h6, h7, h8, h9⟩
        · rw [he]; exact hF
        · intro j hj
          rw [h6] at hj
          have hmark : ∀ (b : Beh) (l : List Nat), mark s.fired b l s.st j = .aborting ∨ mark s.fired b l s.st j = .terminated ∨ mark s.fired b l s.st j = .idle := by
            intro b l
            rcases mark_cases s.fired b l s.st j with h | h <;> rw [h]
            · exact hF j hj
            · exact Or.inl rfl
          have hgo : ∀ st : Nat → SState, (st j = .aborting ∨ st j = .terminated ∨ st j = .idle) → (s.fired k.i = true → k.cont = .idle → st k.i = .aborting) →
              k.cont = .idle →
              (if st k.i = .aborting ∨ st k.i = .restarting then st else upd st k.i .starting) j = .aborting ∨
              (if st k.i = .aborting ∨ st k.i = .restarting then st else upd st k.i .starting) j = .terminated ∨
              (if st k.i = .aborting ∨ st k.i = .restarting then st else upd st k.i .starting) j = .idle := by
            intro st h1 h2 hc
            by_cases h3 : st k.i = .aborting ∨ st k.i = .restarting
            · rw [if_pos h3]; exact h1
            · rw [if_neg h3]
              by_cases hjk : j = k.i
              · rw [hjk] at hj
                exact absurd (Or.inl (h2 hj hc)) h3
              · rw [upd_other _ _ _ _ hjk]; exact h1
          unfold finish
          cases hact : k.act with
          | none =>
            cases hc : k.cont with
            | idle => exact hgo s.st (hF j hj) (fun h1 h2 => hi.own k fs hf h2 h1) hc
            | run => exact hF j hj
          | some a =>
            cases hb : s.active a with
            | none => simp only [hb]; exact hF j hj
            | some m =>
              simp only [hb]
              cases hc : k.cont with
              | idle =>
                refine hgo _ (hmark _ _) ?_ hc
                intro h1 h2
                rw [mark_fired _ _ _ _ _ h1]
                exact hi.own k fs hf h2 h1
              | run => exact hmark _ _
      | skip k fs o os hf ho hms hin => exact hF
      | opn k fs o os hf ho hms hin => exact hF
      | next k fs o os hf ho hms => exact hF
      | pollFalse k fs o os m ms hf ho hms => exact hF
      | pollFired k fs o os m ms hf ho hms hfd => exact hF
      | fire k fs o os m ms hf ho hms hfd => exact absurd ⟨k, fs, o, os, m, ms, hf, ho, hms⟩ hpoll
    · cases h1 with
      | fire k fs o os m ms hf ho hms hfd => exact absurd ⟨k, fs, o, os, m, ms, hf, ho, hms⟩ hpoll

theorem fired_reach {P : Prog} (hP : Plain P) {tr : List Ev} {s : M} (h : ReachW P tr s) : FiredInv s := by
  induction h with
  | init => intro i hi; simp [Sequencer.init] at hi
  | step tr s x s' ev hr hs hw ih => exact fired_step hP (reach_ainv hr) (plain_reach hP hr) ih hs

/-! ### The measure -/

/-- Length of the checks of the monitors of `os`. -/
def sumMons (P : Prog) (os : List Nat) : Nat := (os.map (fun o => 2 + (P.mons o).length)).sum

def chkLen (P : Prog) (i : Nat) : Nat := sumMons P (P.cstack i) + 1

def remLen (P : Prog) (k : Chk) : Nat :=
  (match k.ms with
    | none => sumMons P k.os
    | some l => l.length + 1 + sumMons P k.os.tail) + 1

/-- Steps of a running sequence up to its return. -/
def runLen (P : Prog) (i : Nat) : Nat := chkLen P i + 4

def loopLen (P : Prog) (i : Nat) : SState → Nat
  | .terminated => 1
  | .aborting => 2
  | .running => runLen P i
  | .starting => runLen P i + 2
  | .idle => chkLen P i + 3
  | .restarting => 1

/-- The check finds, or has found, a reason to abort. -/
def Sees (P : Prog) (flag : Nat → Bool) (k : Chk) : Prop := k.act ≠ none ∨ ∃ o, flag o = true ∧ abortMon ∈ P.mons o ∧ Ahead o abortMon k

open Classical in
noncomputable def topLen (P : Prog) (flag : Nat → Bool) (st : Nat → SState) : Frame → Nat
  | .loop i _ => loopLen P i (st i)
  | .exit i _ => loopLen P i (st i) + 1
  | .body i => runLen P i + 1
  | .check k => remLen P k + (match k.cont with
      | .idle => if Sees P flag k then 2 else runLen P k.i + 2
      | .run => if Sees P flag k then 3 else runLen P k.i + 1)
  | .exc _ _ _ => 0

def lowLen (P : Prog) (fs : List Frame) : Nat := (fs.map (fun f => runLen P f.id + 1)).sum

noncomputable def total (P : Prog) (flag : Nat → Bool) (s : M) : Nat :=
  match s.frames with
  | [] => 0
  | f :: fs => topLen P flag s.st f + lowLen P fs

theorem total_top {P : Prog} {flag : Nat → Bool} {s s' : M} {f f' : Frame} {fs : List Frame} (hf : s.frames = f :: fs) (hf' : s'.frames = f' :: fs)
    (h : topLen P flag s'.st f' < topLen P flag s.st f) : total P flag s' < total P flag s := by
  unfold total
  rw [hf, hf']
  simp only
  omega

theorem loopLen_pos (P : Prog) (i : Nat) (st : SState) : 1 ≤ loopLen P i st := by
  cases st <;> simp [loopLen, runLen]

theorem loopLen_started {P : Prog} {i : Nat} {st : SState} (h : st.started) : loopLen P i st ≤ runLen P i := by
  cases st <;> simp [loopLen, runLen, SState.started] at h ⊢

/-- Every frame has an aborted sequence in its caller stack. -/
def Doomed (P : Prog) (flag : Nat → Bool) (s : M) : Prop :=
  ∀ i ∈ s.frames.map Frame.id, ∃ o ∈ P.cstack i, flag o = true ∧ abortMon ∈ P.mons o

theorem sees_new {P : Prog} {flag : Nat → Bool} {s : M} (hd : Doomed P flag s) {i : Nat} (hi : i ∈ s.frames.map Frame.id) (r : Int) (c : Cont) :
    Sees P flag (newCheck P i r c) := by
  obtain ⟨o, h1, h2, h3⟩ := hd i hi
  exact Or.inr ⟨o, h2, h3, h1, by intro l os _ h; simp [newCheck] at h⟩

theorem remLen_new (P : Prog) (i : Nat) (r : Int) (c : Cont) : remLen P (newCheck P i r c) = chkLen P i := rfl

theorem topLen_check {P : Prog} {flag : Nat → Bool} {st st' : Nat → SState} {k k' : Chk} (hi : k'.i = k.i) (hc : k'.cont = k.cont) (hr : remLen P k' < remLen P k)
    (hs : Sees P flag k → Sees P flag k') : topLen P flag st' (.check k') < topLen P flag st (.check k) := by
  have hR : 4 ≤ runLen P k.i := by unfold runLen; omega
  simp only [topLen]
  rw [hi, hc]
  cases k.cont with
  | idle =>
    simp only
    by_cases h1 : Sees P flag k
    · rw [if_pos h1, if_pos (hs h1)]; omega
    · rw [if_neg h1]
      by_cases h2 : Sees P flag k'
      · rw [if_pos h2]; omega
      · rw [if_neg h2]; omega
  | run =>
    simp only
    by_cases h1 : Sees P flag k
    · rw [if_pos h1, if_pos (hs h1)]; omega
    · rw [if_neg h1]
      by_cases h2 : Sees P flag k'
      · rw [if_pos h2]; omega
      · rw [if_neg h2]; omega

/-- Every step without a start brings the return of all sequences nearer. -/
theorem total_step {P : Prog} (hP : Plain P) {flag : Nat → Bool} {tr : List Ev} {s s' : M} (ha : AInv P tr s) (hi : PlainInv P s) (hF : FiredInv s)
    (hd : Doomed P flag s) {x : Inp} {ev : List Ev} (h : step P s x = some (s', ev)) (hx : ∀ j, x ≠ .call j) (hnn : s'.halt ≠ some .nullDeref)
    (hflag : ∀ o, flag o = true → .poll o abortMon false ∉ ev) : total P flag s' < total P flag s := by
  have hst : ∀ {f0 : Frame} {fs : List Frame}, s.frames = f0 :: fs → ∃ ph, Fits f0 ph (s.st f0.id) := by
    intro f0 fs hf
    obtain ⟨ph, -, h2⟩ := pinv_top ha.p hf
    exact ⟨ph, h2⟩
  by_cases hpoll : ∃ k fs o os m ms, s.frames = .check k :: fs ∧ k.os = o :: os ∧ k.ms = some (m :: ms)
  · obtain ⟨k, fs, o, os, m, ms, hf, ho, hms⟩ := hpoll
    have hrem : ∀ a, remLen P { k with ms := some ms, act := a } < remLen P k := by
      intro a
      simp only [remLen, hms, List.length_cons]
      omega
    rcases plain_poll hP ha h hf ho hms with ⟨rfl, rfl⟩ | ⟨hfd, rfl, rfl⟩ | ⟨hfd, rfl, rfl⟩
    · refine total_top hf rfl (topLen_check rfl rfl (hrem k.act) ?_)
      rintro (h1 | ⟨o', h1, h2, h3, h4⟩)
      · exact Or.inl h1
      · refine Or.inr ⟨o', h1, h2, h3, ?_⟩
        intro l os' h5 h6
        simp only [Option.some.injEq] at h6
        subst h6
        have h7 := h4 _ os' h5 hms
        rcases List.mem_cons.1 h7 with h8 | h8
        · subst h8
          simp only at h5
          rw [ho] at h5
          cases h5
          exact absurd (by simp) (hflag o h1)
        · exact h8
    · exact total_top hf rfl (topLen_check rfl rfl (hrem (some o)) (fun _ => Or.inl (by simp)))
    · exact total_top hf rfl (topLen_check rfl rfl (hrem (some o)) (fun _ => Or.inl (by simp)))
  · obtain ⟨hn1, hn2, hn3⟩ := nocall hP ha h hx
    rcases step_micro P s s' x ev h with h1 | ⟨s1, o, m, ev2, h1, h2, rfl⟩
    · cases h1 with
      | call j hc hj => exact absurd (by simp) (hn1 j)
      | dead => exact absurd rfl hn3
      | spawn j => exact absurd (by simp) (hn2 j)
      | leave i fs v hf =>
        obtain ⟨ph, h2⟩ := hst hf
        refine total_top hf rfl ?_
        have := loopLen_started (P := P) (i := i) h2.2
        simp only [Frame.id] at this
        simp only [topLen]
        omega
      | idle i r fs hf hs =>
        refine total_top hf rfl ?_
        have h1 := sees_new hd (i := i) (by rw [hf]; simp [Frame.id]) r .idle
        simp only [topLen, if_pos h1, remLen_new, hs, loopLen]
        simp only [newCheck]
        omega
      | enter i r fs hf hs =>
        refine total_top hf rfl ?_
        simp only [topLen, hs, loopLen]
        omega
      | refuse i r fs hf hs =>
        refine total_top hf hf ?_
        simp only [topLen, hs, loopLen, upd_same]
        omega
      | run i r fs hf hs =>
        refine total_top hf rfl ?_
        have h1 := sees_new hd (i := i) (by rw [hf]; simp [Frame.id]) r .run
        simp only [topLen, if_pos h1, remLen_new, hs, loopLen, runLen]
        simp only [newCheck]
        omega
      | abort i r fs hf hs =>
        refine total_top hf hf ?_
        simp only [topLen, hs, loopLen, upd_same]
        omega
      | restart i r fs hf hs => exact absurd hs (hi.restart i)
      | ret i r fs hf hs =>
        unfold total
        rw [hf]
        simp only [topLen, hs, loopLen]
        cases fs with
        | nil => show 0 < _; omega
        | cons f fs' =>
          have hlow := ha.p.tail f (by rw [hf]; simp)
          have hne := hi.exc
          cases f with
          | body i' => simp only [lowLen, List.map_cons, List.sum_cons, Frame.id]; omega
          | exc k o m => exact absurd (by rw [hf]; simp) (hne k o m)
          | _ => exact absurd hlow (by simp [Frame.low])
      | exitTrue i r fs hf =>
        refine total_top hf rfl ?_
        have := loopLen_pos P i (s.st i)
        simp only [topLen, upd_same]
        show 1 < _
        omega
      | exitFalse i r fs hf =>
        refine total_top hf rfl ?_
        simp only [topLen]
        omega
      | after k o m fs hf => exact absurd (by rw [hf]; simp) (hi.exc k o m)
      | finish k fs hf hos =>
        have hsh := ha.e.shape (.check k) (by rw [hf]; simp)
        have hms : k.ms = none := by
          cases hm : k.ms with
          | none => rfl
          | some l =>
            obtain ⟨o, os, h3, -⟩ := hsh.2 l hm
            rw [hos] at h3; cases h3
        have hrem : remLen P k = 1 := by simp [remLen, hms, hos, sumMons]
        have hsees : Sees P flag k ↔ k.act ≠ none := by
          constructor
          · rintro (h1 | ⟨o, -, -, h3, -⟩)
            · exact h1
            · rw [hos] at h3; cases h3
          · exact Or.inl
        obtain ⟨h2, h3, h4⟩ := finish_plain ha hi hf
        rcases finish_cases P s k fs with he | ⟨f, hff, h5, h6, h7, h8, h9⟩
        · rw [he] at hnn; exact absurd rfl hnn
        · refine total_top hf h5 ?_
          cases hc : k.cont with
          | idle =>
            have hloop : f = .loop k.i k.ret := by
              have : (finish P s k fs).frames = .loop k.i k.ret :: fs := by
                cases hact : k.act with
                | none => simp [finish, hact, hc]
                | some a =>
                  obtain ⟨-, hne⟩ := ha.n.ok (.check k) (by rw [hf]; simp) a hact
                  cases hb : s.active a with
                  | none => exact absurd hb hne
                  | some m => simp [finish, hact, hc, hb]
              rw [h5] at this
              cases this; rfl
            subst hloop
            by_cases hact : k.act = none
            · have h10 : ¬ Sees P flag k := by rw [hsees]; simp [hact]
              simp only [topLen, hc, if_neg h10, hrem]
              rw [finish_idle_none hact hc]
              by_cases h11 : s.st k.i = .aborting ∨ s.st k.i = .restarting
              · rw [if_pos h11]
                rcases h11 with h11 | h11 <;> rw [h11] <;> simp only [loopLen] <;> omega
              · rw [if_neg h11, upd_same]
                simp only [loopLen]; omega
            · have h10 : Sees P flag k := by rw [hsees]; exact hact
              simp only [topLen, hc, if_pos h10, hrem, h2 hc hact, loopLen]
              omega
          | run =>
            have hexit : f = .exit k.i k.ret := by
              rcases hff with rfl | rfl
              · exfalso
                have h10 := h4 k.i
                have : (finish P s k fs).frames = .exit k.i k.ret :: fs := by
                  cases hact : k.act with
                  | none =>
                    simp only [finish, hact, hc]
                    rw [if_neg (hi.restart k.i)]
                  | some a =>
                    obtain ⟨-, hne⟩ := ha.n.ok (.check k) (by rw [hf]; simp) a hact
                    cases hb : s.active a with
                    | none => exact absurd hb hne
                    | some m =>
                      simp only [finish, hact, hc, hb] at h10 ⊢
                      rw [if_neg h10]
                rw [h5] at this
                cases this
              · rfl
            subst hexit
            by_cases hact : k.act = none
            · have h10 : ¬ Sees P flag k := by rw [hsees]; simp [hact]
              simp only [topLen, hc, if_neg h10, hrem]
              rw [finish_run_none hact hc]
              obtain ⟨ph, hfit⟩ := hst hf
              simp only [Frame.id, Fits] at hfit
              rcases hfit with ⟨h11, -⟩ | ⟨-, -, h11⟩
              · rw [hc] at h11; cases h11
              · have := loopLen_started (P := P) (i := k.i) h11
                omega
            · have h10 : Sees P flag k := by rw [hsees]; exact hact
              simp only [topLen, hc, if_pos h10, hrem]
              rcases finish_abort ha hi hF hf hact hc with h11 | h11 <;> rw [h11] <;> simp only [loopLen] <;> omega
      | skip k fs o os hf ho hms hin => rw [hi.exc.inExc ha] at hin; cases hin
      | opn k fs o os hf ho hms hin =>
        refine total_top hf rfl (topLen_check rfl rfl ?_ ?_)
        · simp only [remLen, hms, ho, sumMons, List.map_cons, List.sum_cons, List.tail_cons]; omega
        · rintro (h1 | ⟨o', h1, h2, h3, h4⟩)
          · exact Or.inl h1
          · refine Or.inr ⟨o', h1, h2, h3, ?_⟩
            intro l os' h5 h6
            simp only at h5 h6
            rw [ho] at h5
            cases h5
            cases h6
            exact h2
      | next k fs o os hf ho hms =>
        refine total_top hf rfl (topLen_check rfl rfl ?_ ?_)
        · simp only [remLen, hms, ho, List.tail_cons, List.length_nil]; omega
        · rintro (h1 | ⟨o', h1, h2, h3, h4⟩)
          · exact Or.inl h1
          · refine Or.inr ⟨o', h1, h2, ?_, by simp⟩
            rw [ho] at h3
            rcases List.mem_cons.1 h3 with h5 | h5
            · subst h5
              exact absurd (h4 [] os ho hms) (by simp)
            · exact h5
      | pollFalse k fs o os m ms hf ho hms => exact absurd ⟨k, fs, o, os, m, ms, hf, ho, hms⟩ hpoll
      | pollFired k fs o os m ms hf ho hms hfd => exact absurd ⟨k, fs, o, os, m, ms, hf, ho, hms⟩ hpoll
      | fire k fs o os m ms hf ho hms hfd => exact absurd ⟨k, fs, o, os, m, ms, hf, ho, hms⟩ hpoll
    · cases h1 with
      | fire k fs o os m ms hf ho hms hfd => exact absurd ⟨k, fs, o, os, m, ms, hf, ho, hms⟩ hpoll

/-- Frames are only removed without starts. -/
theorem ids_shrink {P : Prog} (hP : Plain P) {tr : List Ev} {s s' : M} (ha : AInv P tr s) (hi : PlainInv P s) {x : Inp} {ev : List Ev}
    (h : step P s x = some (s', ev)) (hx : ∀ j, x ≠ .call j) : ∀ i ∈ s'.frames.map Frame.id, i ∈ s.frames.map Frame.id := by
  have htop : ∀ {f f' : Frame} {fs : List Frame}, s.frames = f :: fs → s'.frames = f' :: fs → f'.id = f.id → ∀ i ∈ s'.frames.map Frame.id, i ∈ s.frames.map Frame.id := by
    intro f f' fs h1 h2 h3 i h4
    rw [h2] at h4
    rw [h1]
    simpa [h3] using h4
  by_cases hpoll : ∃ k fs o os m ms, s.frames = .check k :: fs ∧ k.os = o :: os ∧ k.ms = some (m :: ms)
  · obtain ⟨k, fs, o, os, m, ms, hf, ho, hms⟩ := hpoll
    rcases plain_poll hP ha h hf ho hms with ⟨rfl, rfl⟩ | ⟨hfd, rfl, rfl⟩ | ⟨hfd, rfl, rfl⟩ <;> exact htop hf rfl rfl
  · obtain ⟨hn1, hn2, hn3⟩ := nocall hP ha h hx
    rcases step_micro P s s' x ev h with h1 | ⟨s1, o, m, ev2, h1, h2, rfl⟩
    · cases h1 with
      | call j hc hj => exact absurd (by simp) (hn1 j)
      | dead => exact fun i hi => hi
      | spawn j => exact fun i hi => hi
      | leave i fs v hf => exact htop hf rfl rfl
      | idle i r fs hf hs => exact htop hf rfl rfl
      | enter i r fs hf hs => exact htop hf rfl rfl
      | refuse i r fs hf hs => exact fun i hi => hi
      | run i r fs hf hs => exact htop hf rfl rfl
      | abort i r fs hf hs => exact fun i hi => hi
      | restart i r fs hf hs => exact fun i hi => hi
      | ret i r fs hf hs => intro j hj; rw [hf]; exact List.mem_cons_of_mem _ hj
      | exitTrue i r fs hf => exact htop hf rfl rfl
      | exitFalse i r fs hf => exact htop hf rfl rfl
      | after k o m fs hf => exact absurd (by rw [hf]; simp) (hi.exc k o m)
      | finish k fs hf hos =>
        rcases finish_cases P s k fs with he | ⟨f, hff, h5, -⟩
        · rw [he]; exact fun i hi => hi
        · exact htop hf h5 (by rcases hff with rfl | rfl <;> rfl)
      | skip k fs o os hf ho hms hin => exact htop hf rfl rfl
      | opn k fs o os hf ho hms hin => exact htop hf rfl rfl
      | next k fs o os hf ho hms => exact htop hf rfl rfl
      | pollFalse k fs o os m ms hf ho hms => exact htop hf rfl rfl
      | pollFired k fs o os m ms hf ho hms hfd => exact htop hf rfl rfl
      | fire k fs o os m ms hf ho hms hfd => exact htop hf rfl rfl
    · cases h1 with
      | fire k fs o os m ms hf ho hms hfd => exact absurd ⟨k, fs, o, os, m, ms, hf, ho, hms⟩ hpoll

/-- The thread can go on without a start as long as a sequence is active. -/
theorem can_step {P : Prog} {s : T} {tr : List Ev} (ha : AInv P tr s.m) (hi : PlainInv P s.m) (hP : Plain P) (hh : s.m.halt = none) (hf : s.m.frames ≠ []) :
    ∃ x m' ev, (∀ j, x ≠ .call j) ∧ step P s.m x = some (m', ev) ∧ ∀ o b, .poll o abortMon b ∈ ev → b = s.flag o := by
  cases hfr : s.m.frames with
  | nil => exact absurd hfr hf
  | cons f fs =>
    cases f with
    | loop i r =>
      cases hs : s.m.st i with
      | starting => exact ⟨.pre true, _, _, by simp, by simp only [step, hh, hfr, hs, ne_eq, not_true_eq_false, if_false]; rfl, by simp⟩
      | restarting => exact absurd hs (hi.restart i)
      | _ => exact ⟨.tick, _, _, by simp, by simp only [step, hh, hfr, hs, ne_eq, not_true_eq_false, if_false]; rfl, by simp⟩
    | exit i r => exact ⟨.exitc true, _, _, by simp, by simp only [step, hh, hfr, ne_eq, not_true_eq_false, if_false]; rfl, by simp⟩
    | body i => exact ⟨.ret 0, _, _, by simp, by simp only [step, hh, hfr, ne_eq, not_true_eq_false, if_false]; rfl, by simp⟩
    | exc k o m => exact absurd (by rw [hfr]; simp) (hi.exc k o m)
    | check k =>
      cases hos : k.os with
      | nil => exact ⟨.tick, _, _, by simp, by simp only [step, hh, hfr, hos, ne_eq, not_true_eq_false, if_false]; rfl, by simp⟩
      | cons o os =>
        cases hms : k.ms with
        | none =>
          exact ⟨.tick, _, _, by simp, by simp only [step, hh, hfr, hos, hms, hi.exc.inExc ha, ne_eq, not_true_eq_false, if_false, Bool.false_eq_true]; rfl, by simp⟩
        | some l =>
          cases l with
          | nil => exact ⟨.tick, _, _, by simp, by simp only [step, hh, hfr, hos, hms, ne_eq, not_true_eq_false, if_false]; rfl, by simp⟩
          | cons m ms =>
            refine ⟨.cond (s.flag o), (checkMonitor P s.m { k with ms := some ms } o m fs (s.flag o)).1, (checkMonitor P s.m { k with ms := some ms } o m fs (s.flag o)).2,
              by simp, by simp only [step, hh, hfr, hos, hms, ne_eq, not_true_eq_false, if_false], ?_⟩
            have hst : step P s.m (.cond (s.flag o)) = some (checkMonitor P s.m { k with ms := some ms } o m fs (s.flag o)) := by
              simp only [step, hh, hfr, hos, hms, ne_eq, not_true_eq_false, if_false]
            intro o' b hob
            have hsh := ha.e.shape (.check k) (by rw [hfr]; simp)
            obtain ⟨o'', os', h3, h4⟩ := hsh.2 _ hms
            rw [hos] at h3
            cases h3
            obtain ⟨hb, he⟩ := hP o m (h4 m (by simp))
            unfold checkMonitor at hob
            cases hfl : s.flag o with
            | false =>
              rw [hfl] at hob
              simp only [Bool.false_eq_true, if_false, List.mem_singleton, Ev.poll.injEq] at hob
              rw [hob.2.2, hob.1, hfl]
            | true =>
              rw [hfl] at hob
              by_cases hfd : s.m.fired o = true
              · simp only [if_true, hfd, List.mem_singleton, Ev.poll.injEq] at hob
                rw [hob.2.2, hob.1, hfl]
              · simp only [if_true, hfd, he, afterExc, List.mem_cons, Ev.poll.injEq, reduceCtorEq, false_or, or_false, List.not_mem_nil, if_false,
                  Bool.false_eq_true] at hob
                rw [hob.2.2, hob.1, hfl]

/-- What is needed along the runs. -/
theorem runN_inv {P : Prog} (hP : Plain P) {tr : List Ev} {s0 s : T} {n : Nat} (h0 : ReachW P tr s0.m) (hh : s0.m.halt = none) (hd : Doomed P s0.flag s0.m)
    (h : RunN P s0 n s) : (∃ tr', ReachW P tr' s.m) ∧ s.m.halt = none ∧ Doomed P s0.flag s.m ∧ (∀ o, s0.flag o = true → s.flag o = true) ∧
      total P s0.flag s.m + n ≤ total P s0.flag s0.m := by
  induction h with
  | refl => exact ⟨⟨tr, h0⟩, hh, hd, fun _ h => h, by omega⟩
  | set n s i _ ih =>
    obtain ⟨h1, h2, h3, h4, h5⟩ := ih
    exact ⟨h1, h2, h3, fun o ho => set_flag (h4 o ho), h5⟩
  | step n s x m' ev hr hx hs hp ih =>
    obtain ⟨⟨tr', h1⟩, h2, h3, h4, h5⟩ := ih
    have ha := reach_ainv h1
    have hi := plain_reach hP h1
    obtain ⟨hn1, hn2, hn3⟩ := nocall hP ha hs hx
    have h6 : ReachW P (tr' ++ ev) m' := .step _ _ x _ _ h1 hs (fun j hj => absurd hj (hn1 j))
    have hnn := no_null_dereference P _ _ h6
    have hdd : Doomed P s0.flag m' := fun i hi' => h3 i (ids_shrink hP ha hi hs hx i hi')
    have hdf : Doomed P s.flag s.m := by
      intro i hi'
      obtain ⟨o, h7, h8, h9⟩ := h3 i hi'
      exact ⟨o, h7, h4 o h8, h9⟩
    refine ⟨⟨_, h6⟩, ?_, hdd, ?_, ?_⟩
    · cases hm : m'.halt with
      | none => rfl
      | some v =>
        cases v with
        | deadlock => exact absurd hm hn3
        | nullDeref => exact absurd hm hnn
    · intro o ho
      have : starts o ev = false := by
        unfold starts
        rw [List.any_eq_false]
        intro e he
        simp only [Bool.or_eq_true, decide_eq_true_eq, not_or]
        exact ⟨fun h7 => hn1 o (h7 ▸ he), fun h7 => hn2 o (h7 ▸ he)⟩
      simp [h4 o ho, this]
    · have := total_step hP ha hi (fired_reach hP h1) h3 hs hx hnn (by
        intro o ho hpo
        have := hp o false hpo
        rw [h4 o ho] at this
        cases this)
      simp only
      omega

/-! ### Property theorem (C135) -/

/-- After `Sequencer::abort` a thread in which every active sequence is in the list, or has a blocking caller in the list, can always go on, and has no active
sequence left after at most `N` steps, provided that the custom actions no longer start other sequences. -/
theorem abort_ends_partial (P : Prog) (hP : ∀ i, ∀ m ∈ P.mons i, m.beh = .abort ∧ m.exc = none) (l : List Nat) (t1 : List Ev) (s1 : T) (h1 : RunT P T.init t1 s1)
    (hh : s1.m.halt = none) (hl : ∀ i ∈ s1.m.frames.map Frame.id, ∃ o ∈ P.cstack i, o ∈ l ∧ abortMon ∈ P.mons o) :
    ∃ N, ∀ n s2, RunN P (s1.abortAll l) n s2 →
      n ≤ N ∧ s2.m.halt = none ∧ (s2.m.frames ≠ [] → ∃ s3, RunN P (s1.abortAll l) (n + 1) s3) := by
  obtain ⟨h3, h4⟩ := abortAll_spec l s1
  have hre : ReachW P t1 (s1.abortAll l).m := by rw [h3]; exact h1.runW.reachW
  have hd : Doomed P (s1.abortAll l).flag (s1.abortAll l).m := by
    intro i hi
    rw [h3] at hi
    obtain ⟨o, h5, h6, h7⟩ := hl i hi
    exact ⟨o, h5, by rw [h4]; simp [h6], h7⟩
  refine ⟨total P (s1.abortAll l).flag (s1.abortAll l).m, fun n s2 h2 => ?_⟩
  obtain ⟨⟨tr', h5⟩, h6, h7, h8, h9⟩ := runN_inv hP hre (by rw [h3]; exact hh) hd h2
  refine ⟨by omega, h6, fun hf => ?_⟩
  obtain ⟨x, m', ev, h10, h11, h12⟩ := can_step (reach_ainv h5) (plain_reach hP h5) hP h6 hf
  exact ⟨_, .step _ _ x _ _ h2 h10 h11 h12⟩

/-- Case of `abort_ends_partial`: sequence 0 is in its action, sequence 1 is about to be executed; only sequence 0 is in the list. -/
example : ∃ t1 s1, RunT progD T.init t1 s1 ∧ s1.m.halt = none ∧ s1.m.frames.map Frame.id = [1, 0] ∧
    ∀ i ∈ s1.m.frames.map Frame.id, ∃ o ∈ progD.cstack i, o ∈ [0] ∧ abortMon ∈ progD.mons o := by
  cases h1 : execT progD T.init runD with
  | none => exact absurd h1 (by decide +kernel)
  | some r1 =>
    have hr : (execT progD T.init runD).map (fun r => (r.1.m.frames.map Frame.id, r.1.m.halt)) = some ([1, 0], none) := by decide +kernel
    rw [h1] at hr
    simp only [Option.map_some, Option.some.injEq, Prod.mk.injEq] at hr
    refine ⟨_, r1.1, by simpa using runT_execT progD runD T.init T.init [] r1 .refl h1, hr.2, hr.1, ?_⟩
    rw [hr.1]
    intro i hi
    refine ⟨0, ?_, by simp, by simp [progD]⟩
    simp only [List.mem_cons, List.not_mem_nil, or_false] at hi
    rcases hi with rfl | rfl <;> decide

/-- A sequence with the default monitor and without caller. -/
def progSeq : Prog := { caller := fun _ => none, older := by simp, blocking := fun _ => true, mons := fun _ => [abortMon] }

/-- One round of a running sequence with exit condition false and abort flag not set. -/
theorem round {s0 s : T} {n : Nat} (h : RunN progSeq s0 n s) (hf : s.m.frames = [.loop 0 1]) (hs : s.m.st 0 = .running) (hh : s.m.halt = none) (hi : s.m.inExc 0 = false)
    (hfl : s.flag 0 = false) : ∃ s', RunN progSeq s0 (n + 6) s' ∧ s'.m.frames = [.loop 0 1] ∧ s'.m.st 0 = .running ∧ s'.m.halt = none ∧ s'.m.inExc 0 = false ∧ s'.flag 0 = false := by
  have hcs : progSeq.cstack 0 = [0] := by decide
  have e1 : step progSeq s.m .tick = some ({ s.m with frames := [.check (newCheck progSeq 0 1 .run)] }, []) := by simp [step, hh, hf, hs]
  have r1 := RunN.step _ _ .tick _ _ h (by simp) e1 (by simp)
  have e2 : step progSeq { s.m with frames := [.check (newCheck progSeq 0 1 .run)] } .tick =
      some ({ s.m with frames := [.check { newCheck progSeq 0 1 .run with ms := some [abortMon] }] }, []) := by
    simp [step, hh, newCheck, hcs, hi]
    rfl
  have r2 := RunN.step _ _ .tick _ _ r1 (by simp) e2 (by simp)
  have e3 : step progSeq { s.m with frames := [.check { newCheck progSeq 0 1 .run with ms := some [abortMon] }] } (.cond false) =
      some ({ s.m with frames := [.check { newCheck progSeq 0 1 .run with ms := some [] }] }, [.poll 0 abortMon false]) := by
    simp [step, hh, newCheck, hcs, checkMonitor]
  have r3 := RunN.step _ _ (.cond false) _ _ r2 (by simp) e3 (by
    intro o b hob
    simp only [List.mem_singleton, Ev.poll.injEq, true_and] at hob
    obtain ⟨rfl, rfl⟩ := hob
    simp [hfl])
  have e4 : step progSeq { s.m with frames := [.check { newCheck progSeq 0 1 .run with ms := some [] }] } .tick =
      some ({ s.m with frames := [.check { newCheck progSeq 0 1 .run with os := [], ms := none }] }, []) := by
    simp [step, hh, newCheck, hcs]
  have r4 := RunN.step _ _ .tick _ _ r3 (by simp) e4 (by simp)
  have e5 : step progSeq { s.m with frames := [.check { newCheck progSeq 0 1 .run with os := [], ms := none }] } .tick =
      some ({ s.m with frames := [.exit 0 1] }, []) := by
    simp [step, hh, newCheck, finish, hs]
  have r5 := RunN.step _ _ .tick _ _ r4 (by simp) e5 (by simp)
  have e6 : step progSeq { s.m with frames := [.exit 0 1] } (.exitc false) = some ({ s.m with frames := [.loop 0 1] }, []) := by
    simp [step, hh]
  have r6 := RunN.step _ _ (.exitc false) _ _ r5 (by simp) e6 (by simp)
  exact ⟨_, r6, rfl, hs, hh, hi, by simp [hfl]⟩

/-- A sequence which is no longer in the list (`Sequencer::clearList`, Sequencer.cpp:46-49) is not aborted: while its exit condition is false it goes round for ever. -/
theorem cleared_violated (l : List Nat) (h0 : 0 ∉ l) :
    ∃ t1 s1, RunT progSeq T.init t1 s1 ∧ s1.m.frames.map Frame.id = [0] ∧
      ∀ n, ∃ s2, RunN progSeq (s1.abortAll l) (6 * n) s2 ∧ s2.m.frames.map Frame.id = [0] := by
  have hx : (execT progSeq T.init [.call 0, .tick, .tick, .cond false, .tick, .tick, .pre true, .ret 1]).map
      (fun r => (r.1.m.frames, r.1.m.st 0, r.1.m.halt, r.1.m.inExc 0, r.1.flag 0)) = some ([.loop 0 1], .running, none, false, false) := by decide +kernel
  cases h1 : execT progSeq T.init [.call 0, .tick, .tick, .cond false, .tick, .tick, .pre true, .ret 1] with
  | none => rw [h1] at hx; cases hx
  | some r =>
    rw [h1] at hx
    simp only [Option.map_some, Option.some.injEq, Prod.mk.injEq] at hx
    obtain ⟨a1, a2, a3, a4, a5⟩ := hx
    refine ⟨_, r.1, by simpa using runT_execT progSeq _ T.init T.init [] r .refl h1, by simp [a1, Frame.id], ?_⟩
    obtain ⟨h3, h4⟩ := abortAll_spec l r.1
    have key : ∀ n, ∃ s', RunN progSeq (r.1.abortAll l) (6 * n) s' ∧ s'.m.frames = [.loop 0 1] ∧ s'.m.st 0 = .running ∧ s'.m.halt = none ∧ s'.m.inExc 0 = false ∧
        s'.flag 0 = false := by
      intro n
      induction n with
      | zero => exact ⟨_, .refl, by rw [h3, a1], by rw [h3, a2], by rw [h3, a3], by rw [h3, a4], by rw [h4, a5]; simp [h0]⟩
      | succ n ih =>
        obtain ⟨s', b1, b2, b3, b4, b5, b6⟩ := ih
        exact round b1 b2 b3 b4 b5 b6
    intro n
    obtain ⟨s', b1, b2, -⟩ := key n
    exact ⟨s', b1, by simp [b2, Frame.id]⟩

end Verif.Sequencer
