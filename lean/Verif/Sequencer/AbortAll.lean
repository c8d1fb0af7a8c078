import Verif.Sequencer.Abort
import Verif.Sequencer.Witness
/-!
`Sequencer::abort` (src/sequencer/Sequencer.cpp:71-78): the abort flags of all sequences in the list of the sequencer are set (steps are not in the list,
`addSequence` is called by the constructor of `Sequence` only).  The flag is the condition of the default monitor
`monitorAbort` of every sequence (BaseSequence.cpp:13, ConditionAbort.hpp); `start()` of a sequence resets its flag (Sequence.cpp:46, Step.hpp:52).
-/
namespace Verif.Sequencer

/-- `monitorAbort("abort", this, conditionAbort, SequenceProp::abort)`, BaseSequence.cpp:13. -/
def abortMon : Mon := { name := 1, beh := .abort, exc := none }

/-- A thread with the abort flags. -/
structure T where
  m : M
  flag : Nat → Bool

def T.init : T := { m := Sequencer.init, flag := fun _ => false }

/-- Is sequence `i` started by these events? -/
def starts (i : Nat) (ev : List Ev) : Bool := ev.any (fun e => decide (e = .call i) || decide (e = .spawn i))

/-- `conditionAbort.set()`, ConditionAbort.hpp:15, by any thread. -/
def T.set (s : T) (i : Nat) : T := { s with flag := upd s.flag i true }

/-- `Sequencer::abort`, Sequencer.cpp:71-78, for the sequences `l` of the list. -/
def T.abortAll (s : T) (l : List Nat) : T := l.foldl T.set s

/-- Runs of a thread from `s0`, with the events they produce.  Every check of an abort monitor reads the flag, every start resets it; flags may be set at
any time.  Sequences are called while their callers are active, as in `RunW`. -/
inductive RunT (P : Prog) (s0 : T) : List Ev → T → Prop where
  | refl : RunT P s0 [] s0
  | step (tr s x m' ev) : RunT P s0 tr s → Sequencer.step P s.m x = some (m', ev) →
      (∀ j, .call j ∈ ev → ∀ c ∈ P.cstack j, c ≠ j → c ∈ s.m.frames.map Frame.id) →
      (∀ o b, .poll o abortMon b ∈ ev → b = s.flag o) →
      RunT P s0 (tr ++ ev) { m := m', flag := fun i => s.flag i && !starts i ev }
  | set (tr s i) : RunT P s0 tr s → RunT P s0 tr (s.set i)

theorem RunT.runW {P : Prog} {s0 s : T} {tr : List Ev} (h : RunT P s0 tr s) : RunW P s0.m tr s.m := by
  induction h with
  | refl => exact .refl
  | step tr s x m' ev _ hs hw _ ih => exact .step _ _ _ _ _ ih hs hw
  | set tr s i _ ih => exact ih

theorem RunW.reachW {P : Prog} {s : M} {tr : List Ev} (h : RunW P Sequencer.init tr s) : ReachW P tr s := by
  have := ReachW.init.run h
  simpa using this

/-- Programs whose monitors all abort and have no exception sequence, as the default monitors. -/
def Plain (P : Prog) : Prop := ∀ i, ∀ m ∈ P.mons i, m.beh = .abort ∧ m.exc = none

theorem plain_poll {P : Prog} (hP : Plain P) {tr : List Ev} {s s' : M} (ha : AInv P tr s) {x : Inp} {ev : List Ev} (h : step P s x = some (s', ev))
    {k : Chk} {fs : List Frame} {o : Nat} {os : List Nat} {m : Mon} {ms : List Mon} (hf : s.frames = .check k :: fs) (ho : k.os = o :: os)
    (hms : k.ms = some (m :: ms)) :
    (s' = { s with frames := .check { k with ms := some ms } :: fs } ∧ ev = [.poll o m false]) ∨
    (s.fired o = true ∧ s' = { s with frames := .check { k with ms := some ms, act := some o } :: fs } ∧ ev = [.poll o m true]) ∨
    (s.fired o = false ∧ s' = { s with st := upd s.st o .aborting, fired := upd s.fired o true, active := upd s.active o (some m), inExc := upd (upd s.inExc o true) o false, frames := .check { k with ms := some ms, act := some o } :: fs } ∧
      ev = [.poll o m true, .fire o m, .handled o m]) := by
  have hsh := ha.e.shape (.check k) (by rw [hf]; simp)
  obtain ⟨o', os', h3, h4⟩ := hsh.2 _ hms
  rw [ho] at h3
  cases h3
  obtain ⟨hb, he⟩ := hP o m (h4 m (by simp))
  have hh : s.halt = none := by
    by_contra hne
    simp [step, hne] at h
  obtain ⟨ki, kret, kcont, kos, kms, kact⟩ := k
  simp only at ho hms
  subst ho hms
  cases x with
  | cond b =>
    cases b with
    | true =>
      right
      cases hfd : s.fired o with
      | true =>
        simp only [step, hh, hf, checkMonitor, hfd, ne_eq, not_true_eq_false, if_false, if_true, Option.some.injEq, Prod.mk.injEq] at h
        exact Or.inl ⟨rfl, by rw [← h.1, hh], h.2.symm⟩
      | false =>
        simp only [step, hh, hf, checkMonitor, hfd, he, afterExc, hb, ne_eq, not_true_eq_false, if_false, if_true, Option.some.injEq, Prod.mk.injEq,
          Bool.false_eq_true] at h
        exact Or.inr ⟨rfl, by rw [← h.1, hh], h.2.symm⟩
    | false =>
      simp only [step, hh, hf, checkMonitor, ne_eq, not_true_eq_false, if_false, Option.some.injEq, Prod.mk.injEq, Bool.false_eq_true] at h
      exact Or.inl ⟨by rw [← h.1, hh], h.2.symm⟩
  | _ => simp [step, hh, hf] at h

/-- No exception is being processed. -/
def NoExc (s : M) : Prop := ∀ k o m, Frame.exc k o m ∉ s.frames

theorem NoExc.inExc {P : Prog} {tr : List Ev} {s : M} (h : NoExc s) (ha : AInv P tr s) (o : Nat) : s.inExc o = false := by
  have hc := ha.e.count o
  have : excOf o s.frames = 0 := by
    unfold excOf
    rw [List.countP_eq_zero]
    intro f hf
    cases f with
    | exc k o' m => exact absurd hf (h k o' m)
    | _ => simp
  rw [this] at hc
  cases hb : s.inExc o
  · rfl
  · rw [hb] at hc; cases hc

/-- What holds in all runs of plain programs. -/
structure PlainInv (P : Prog) (s : M) : Prop where
  exc : NoExc s
  restart : ∀ i, s.st i ≠ .restarting
  own : ∀ k fs, s.frames = .check k :: fs → k.cont = .idle → s.fired k.i = true → s.st k.i = .aborting
  mon : ∀ o m, s.active o = some m → m.beh = .abort

theorem finish_plain {P : Prog} {tr : List Ev} {s : M} (ha : AInv P tr s) (hi : PlainInv P s) {k : Chk} {fs : List Frame} (hf : s.frames = .check k :: fs) :
    (k.cont = .idle → k.act ≠ none → (finish P s k fs).st k.i = .aborting) ∧
    (k.cont = .run → (finish P s k fs).st k.i ≠ .starting) ∧
    (∀ i, (finish P s k fs).st i ≠ .restarting) := by
  obtain ⟨ph, -, hfit⟩ := pinv_top ha.p hf
  simp only [Frame.id, Fits] at hfit
  have hrun : k.cont = .run → s.st k.i ≠ .starting := by
    intro hc
    rcases hfit with ⟨h1, -⟩ | ⟨-, -, h2⟩
    · rw [hc] at h1; cases h1
    · exact h2.2
  unfold finish
  cases hact : k.act with
  | none =>
    cases hc : k.cont with
    | idle =>
      refine ⟨fun _ h => absurd rfl h, by simp, ?_⟩
      intro i
      simp only
      by_cases h1 : s.st k.i = .aborting ∨ s.st k.i = .restarting
      · rw [if_pos h1]; exact hi.restart i
      · rw [if_neg h1]
        by_cases h2 : i = k.i
        · rw [h2, upd_same]; decide
        · rw [upd_other _ _ _ _ h2]; exact hi.restart i
    | run => exact ⟨by simp, fun _ => hrun hc, hi.restart⟩
  | some a =>
    obtain ⟨hmem, hne⟩ := ha.n.ok (.check k) (by rw [hf]; simp) a hact
    cases hb : s.active a with
    | none => exact absurd hb hne
    | some m =>
      simp only [hb]
      have hm := hi.mon a m hb
      have hmk : ∀ i, mark s.fired m.beh (P.cstack k.i) s.st i ≠ .restarting := by
        intro i
        rcases mark_cases s.fired m.beh (P.cstack k.i) s.st i with h | h <;> rw [h]
        · exact hi.restart i
        · decide
      cases hc : k.cont with
      | idle =>
        have hab : mark s.fired m.beh (P.cstack k.i) s.st k.i = .aborting := by
          cases hfd : s.fired k.i with
          | false => exact mark_self P s.fired m.beh (by rw [hm]; decide) k.i s.st hfd
          | true => rw [mark_fired _ _ _ _ _ hfd]; exact hi.own k fs hf hc hfd
        simp only [hab, true_or, if_true]
        exact ⟨fun _ _ => trivial, by simp, hmk⟩
      | run =>
        refine ⟨by simp, fun _ => ?_, hmk⟩
        rcases mark_cases s.fired m.beh (P.cstack k.i) s.st k.i with h | h <;> simp only [h]
        · exact hrun hc
        · decide

theorem noexc_top {s s' : M} (h : NoExc s) {f0 f1 : Frame} {fs : List Frame} (hf : s.frames = f0 :: fs) (hf' : s'.frames = f1 :: fs)
    (h1 : ∀ k o m, f1 ≠ .exc k o m) : NoExc s' := by
  intro k o m hm
  rw [hf'] at hm
  rcases List.mem_cons.1 hm with h2 | h2
  · exact h1 k o m h2.symm
  · exact h k o m (by rw [hf]; simp [h2])

/-- Effects on the top frame and the state of one sequence. -/
theorem plain_top {P : Prog} {s s' : M} (hi : PlainInv P s) {f0 f1 : Frame} {fs : List Frame} (hf : s.frames = f0 :: fs) (hf' : s'.frames = f1 :: fs)
    (h1 : ∀ k o m, f1 ≠ .exc k o m) (hst : ∀ i, s'.st i ≠ .restarting) (hac : ∀ o m, s'.active o = some m → s.active o = some m)
    (ho : ∀ k, f1 = .check k → k.cont = .idle → s'.fired k.i = true → s'.st k.i = .aborting) : PlainInv P s' := by
  refine ⟨noexc_top hi.exc hf hf' h1, hst, ?_, fun o m h => hi.mon o m (hac o m h)⟩
  intro k fs' hfr
  rw [hf'] at hfr
  injection hfr with h2 h3
  exact ho k h2

theorem plain_step {P : Prog} (hP : Plain P) {tr : List Ev} {s s' : M} (ha : AInv P tr s) (hi : PlainInv P s) {x : Inp} {ev : List Ev}
    (h : step P s x = some (s', ev)) : PlainInv P s' := by
  have hupd : ∀ (i : Nat) (v : SState), v ≠ .restarting → ∀ j, upd s.st i v j ≠ .restarting := by
    intro i v hv j
    by_cases hj : j = i
    · rw [hj, upd_same]; exact hv
    · rw [upd_other _ _ _ _ hj]; exact hi.restart j
  by_cases hpoll : ∃ k fs o os m ms, s.frames = .check k :: fs ∧ k.os = o :: os ∧ k.ms = some (m :: ms)
  · obtain ⟨k, fs, o, os, m, ms, hf, ho, hms⟩ := hpoll
    have hsh := ha.e.shape (.check k) (by rw [hf]; simp)
    obtain ⟨o', os', h3, h4⟩ := hsh.2 _ hms
    rw [ho] at h3
    cases h3
    rcases plain_poll hP ha h hf ho hms with ⟨rfl, rfl⟩ | ⟨hfd, rfl, rfl⟩ | ⟨hfd, rfl, rfl⟩
    · exact plain_top hi hf rfl (by simp) hi.restart (fun _ _ h => h) (by rintro _ ⟨⟩; exact hi.own k fs hf)
    · exact plain_top hi hf rfl (by simp) hi.restart (fun _ _ h => h) (by rintro _ ⟨⟩; exact hi.own k fs hf)
    · refine ⟨noexc_top hi.exc hf rfl (by simp), hupd o .aborting (by decide), ?_, ?_⟩
      · intro k' fs' hfr hc hfd'
        simp only [List.cons.injEq, Frame.check.injEq] at hfr
        obtain ⟨rfl, rfl⟩ := hfr
        simp only at hc hfd' ⊢
        by_cases hk : k.i = o
        · rw [hk, upd_same]
        · rw [upd_other _ _ _ _ hk] at hfd' ⊢
          exact hi.own k fs hf hc hfd'
      · intro o' m' hm'
        simp only [upd] at hm'
        split at hm'
        · cases hm'; exact (hP o m (h4 m (by simp))).1
        · exact hi.mon o' m' hm'
  · rcases step_micro P s s' x ev h with h1 | ⟨s1, o, m, ev2, h1, h2, rfl⟩
    · cases h1 with
      | call j hc hj =>
        refine ⟨?_, hi.restart, by simp, hi.mon⟩
        intro k o m hm
        rcases List.mem_cons.1 hm with h2 | h2
        · cases h2
        · exact hi.exc k o m h2
      | dead => exact ⟨hi.exc, hi.restart, hi.own, hi.mon⟩
      | spawn j => exact hi
      | leave i fs v hf => exact plain_top hi hf rfl (by simp) hi.restart (fun _ _ h => h) (by simp)
      | idle i r fs hf hs =>
        refine plain_top hi hf rfl (by simp) hi.restart ?_ ?_
        · intro o m hm
          simp only [upd] at hm
          split at hm
          · cases hm
          · exact hm
        · rintro k hk
          cases hk
          simp [newCheck, upd]
      | enter i r fs hf hs => exact plain_top hi hf rfl (by simp) (hupd i .running (by decide)) (fun _ _ h => h) (by simp)
      | refuse i r fs hf hs => exact plain_top hi hf hf (by simp) (hupd i .terminated (by decide)) (fun _ _ h => h) (by simp)
      | run i r fs hf hs =>
        refine plain_top hi hf rfl (by simp) hi.restart (fun _ _ h => h) ?_
        rintro k hk hc
        cases hk
        cases hc
      | abort i r fs hf hs => exact plain_top hi hf hf (by simp) (hupd i .terminated (by decide)) (fun _ _ h => h) (by simp)
      | restart i r fs hf hs => exact absurd hs (hi.restart i)
      | ret i r fs hf hs =>
        refine ⟨?_, hupd i .idle (by decide), ?_, hi.mon⟩
        · intro k o m hm
          exact hi.exc k o m (by rw [hf]; exact List.mem_cons_of_mem _ hm)
        · intro k fs' hfr
          have := ha.p.tail (.check k) (by rw [hf]; simp only at hfr; simp [hfr])
          exact absurd this (by simp [Frame.low])
      | exitTrue i r fs hf => exact plain_top hi hf rfl (by simp) (hupd i .terminated (by decide)) (fun _ _ h => h) (by simp)
      | exitFalse i r fs hf => exact plain_top hi hf rfl (by simp) hi.restart (fun _ _ h => h) (by simp)
      | after k o m fs hf => exact absurd (by rw [hf]; simp) (hi.exc k o m)
      | finish k fs hf hos =>
        obtain ⟨-, -, h3⟩ := finish_plain ha hi hf
        rcases finish_cases P s k fs with he | ⟨f, hff, h5, h6, h7, h8, h9⟩
        · have hh := ha.n.halt
          rw [he]
          exact ⟨hi.exc, hi.restart, hi.own, hi.mon⟩
        · refine plain_top hi hf h5 ?_ h3 (by rw [h7]; exact fun _ _ h => h) ?_
          · rcases hff with rfl | rfl <;> simp
          · rcases hff with rfl | rfl <;> simp
      | skip k fs o os hf ho hms hin => rw [hi.exc.inExc ha] at hin; cases hin
      | opn k fs o os hf ho hms hin =>
        exact plain_top hi hf rfl (by simp) hi.restart (fun _ _ h => h) (by rintro _ ⟨⟩; exact hi.own k fs hf)
      | next k fs o os hf ho hms =>
        exact plain_top hi hf rfl (by simp) hi.restart (fun _ _ h => h) (by rintro _ ⟨⟩; exact hi.own k fs hf)
      | pollFalse k fs o os m ms hf ho hms => exact absurd ⟨k, fs, o, os, m, ms, hf, ho, hms⟩ hpoll
      | pollFired k fs o os m ms hf ho hms hfd => exact absurd ⟨k, fs, o, os, m, ms, hf, ho, hms⟩ hpoll
      | fire k fs o os m ms hf ho hms hfd => exact absurd ⟨k, fs, o, os, m, ms, hf, ho, hms⟩ hpoll
    · cases h1 with
      | fire k fs o os m ms hf ho hms hfd => exact absurd ⟨k, fs, o, os, m, ms, hf, ho, hms⟩ hpoll

/-- An action of a callee of `r` (or of `r`) can begin without another look at the abort monitor of `r`. -/
def Danger (P : Prog) (r : Nat) (s : M) : Prop :=
  (∃ c v fs, s.frames = .loop c v :: fs ∧ s.st c = .starting ∧ r ∈ P.cstack c) ∨
  (∃ k fs, s.frames = .check k :: fs ∧ k.cont = .idle ∧ r ∈ P.cstack k.i ∧ k.act = none ∧ ¬ Ahead r abortMon k)

/-- Is the event the beginning of an action of `r` or of a sequence called by it, directly or indirectly? -/
def enters' (P : Prog) (r : Nat) : Ev → Bool
  | .enter c => decide (r ∈ P.cstack c)
  | _ => false

/-- A step while the flag of `r` is set: the number of actions begun and the danger. -/
theorem danger_step {P : Prog} (hP : Plain P) {r : Nat} (hr : abortMon ∈ P.mons r) {tr : List Ev} {s s' : M} (ha : AInv P tr s) (hid : IdleInv s)
    (hi : PlainInv P s) {x : Inp} {ev : List Ev} (h : step P s x = some (s', ev)) (hflag : .poll r abortMon false ∉ ev) :
    (ev.countP (enters' P r) = 0 ∧ (Danger P r s' → Danger P r s)) ∨ (ev.countP (enters' P r) ≤ 1 ∧ Danger P r s ∧ ¬ Danger P r s') := by
  have hst : ∀ {f0 : Frame} {fs : List Frame}, s.frames = f0 :: fs → ∃ ph, Fits f0 ph (s.st f0.id) := by
    intro f0 fs hf
    obtain ⟨ph, -, h2⟩ := pinv_top ha.p hf
    exact ⟨ph, h2⟩
  by_cases hpoll : ∃ k fs o os m ms, s.frames = .check k :: fs ∧ k.os = o :: os ∧ k.ms = some (m :: ms)
  · obtain ⟨k, fs, o, os, m, ms, hf, ho, hms⟩ := hpoll
    left
    rcases plain_poll hP ha h hf ho hms with ⟨rfl, rfl⟩ | ⟨hfd, rfl, rfl⟩ | ⟨hfd, rfl, rfl⟩
    · refine ⟨rfl, ?_⟩
      rintro (⟨c, v, fs', h1, -⟩ | ⟨k', fs', h1, h2, h3, h4, h5⟩)
      · cases h1
      · cases h1
        right
        refine ⟨k, fs, hf, h2, h3, h4, ?_⟩
        rintro ⟨h6, h7⟩
        apply h5
        refine ⟨h6, ?_⟩
        intro l os' h8 h9
        simp only [Option.some.injEq] at h9
        subst h9
        have h10 := h7 _ os' h8 hms
        rcases List.mem_cons.1 h10 with h11 | h11
        · subst h11
          simp only at h8
          rw [ho] at h8
          cases h8
          simp at hflag
        · exact h11
    · refine ⟨rfl, ?_⟩
      rintro (⟨c, v, fs', h1, -⟩ | ⟨k', fs', h1, h2, h3, h4, h5⟩)
      · cases h1
      · cases h1; cases h4
    · refine ⟨rfl, ?_⟩
      rintro (⟨c, v, fs', h1, -⟩ | ⟨k', fs', h1, h2, h3, h4, h5⟩)
      · cases h1
      · cases h1; cases h4
  · rcases step_micro P s s' x ev h with h1 | ⟨s1, o, m, ev2, h1, h2, rfl⟩
    · have hloop : ∀ {f0 : Frame} {fs : List Frame}, s.frames = f0 :: fs → ∀ (i : Nat) (v : Int), s'.frames = .loop i v :: fs → s'.st i ≠ .starting →
          ¬ Danger P r s' := by
        rintro f0 fs hf i v h1 h2 (⟨c, v', fs', h3, h4, -⟩ | ⟨k, fs', h3, -⟩)
        · rw [h1] at h3; cases h3; exact h2 h4
        · rw [h1] at h3; cases h3
      cases h1 with
      | call j hc hj =>
        left
        refine ⟨rfl, fun hd => ?_⟩
        rcases hd with ⟨c, v, fs', h3, h4, -⟩ | ⟨k, fs', h3, -⟩
        · cases h3
          rw [hid j hj] at h4; cases h4
        · cases h3
      | dead =>
        left
        refine ⟨rfl, fun hd => hd⟩
      | spawn j => exact Or.inl ⟨rfl, fun hd => hd⟩
      | leave i fs v hf =>
        obtain ⟨ph, h2⟩ := hst hf
        exact Or.inl ⟨rfl, fun hd => absurd hd (hloop hf i v rfl h2.2.2)⟩
      | idle i r' fs hf hs =>
        left
        refine ⟨rfl, fun hd => ?_⟩
        rcases hd with ⟨c, v, fs', h3, -⟩ | ⟨k, fs', h3, h4, h5, h6, h7⟩
        · cases h3
        · cases h3
          exact absurd ⟨h5, by intro l os _ h; simp [newCheck] at h⟩ h7
      | enter i r' fs hf hs =>
        by_cases hm : r ∈ P.cstack i
        · right
          refine ⟨by simp [enters', hm], Or.inl ⟨i, r', fs, hf, hs, hm⟩, ?_⟩
          rintro (⟨c, v, fs', h3, -⟩ | ⟨k, fs', h3, -⟩) <;> cases h3
        · left
          refine ⟨by simp [enters', hm], ?_⟩
          rintro (⟨c, v, fs', h3, -⟩ | ⟨k, fs', h3, -⟩) <;> cases h3
      | refuse i r' fs hf hs => exact Or.inl ⟨rfl, fun hd => absurd hd (hloop hf i r' hf (by simp [upd]))⟩
      | run i r' fs hf hs =>
        left
        refine ⟨rfl, fun hd => ?_⟩
        rcases hd with ⟨c, v, fs', h3, -⟩ | ⟨k, fs', h3, h4, -⟩
        · cases h3
        · cases h3; cases h4
      | abort i r' fs hf hs => exact Or.inl ⟨rfl, fun hd => absurd hd (hloop hf i r' hf (by simp [upd]))⟩
      | restart i r' fs hf hs => exact absurd hs (hi.restart i)
      | ret i r' fs hf hs =>
        left
        refine ⟨rfl, fun hd => ?_⟩
        rcases hd with ⟨c, v, fs', h3, -⟩ | ⟨k, fs', h3, h4, -⟩
        · have := ha.p.tail (.loop c v) (by rw [hf]; simp only at h3; simp [h3])
          exact absurd this (by simp [Frame.low])
        · have := ha.p.tail (.check k) (by rw [hf]; simp only at h3; simp [h3])
          exact absurd this (by simp [Frame.low])
      | exitTrue i r' fs hf => exact Or.inl ⟨rfl, fun hd => absurd hd (hloop hf i r' rfl (by simp [upd]))⟩
      | exitFalse i r' fs hf =>
        obtain ⟨ph, h2⟩ := hst hf
        exact Or.inl ⟨rfl, fun hd => absurd hd (hloop hf i r' rfl h2.2.2)⟩
      | after k o m fs hf => exact absurd (by rw [hf]; simp) (hi.exc k o m)
      | finish k fs hf hos =>
        left
        refine ⟨rfl, fun hd => ?_⟩
        obtain ⟨h2, h3, -⟩ := finish_plain ha hi hf
        rcases finish_cases P s k fs with he | ⟨f, hff, h5, h6, h7, h8, h9⟩
        · rw [he] at hd
          rcases hd with ⟨c, v, fs', h, h'⟩ | ⟨k', fs', h, h'⟩
          · exact Or.inl ⟨c, v, fs', h, h'⟩
          · exact Or.inr ⟨k', fs', h, h'⟩
        · rcases hd with ⟨c, v, fs', h10, h11, h12⟩ | ⟨k', fs', h10, -⟩
          · rw [h5] at h10
            rcases hff with rfl | rfl
            · cases h10
              right
              cases hc : k.cont with
              | run => exact absurd h11 (h3 hc)
              | idle =>
                refine ⟨k, fs, hf, hc, h12, ?_, ?_⟩
                · by_contra hne
                  rw [h2 hc hne] at h11; cases h11
                · rintro ⟨h13, -⟩
                  rw [hos] at h13; cases h13
            · cases h10
          · rw [h5] at h10
            rcases hff with rfl | rfl <;> cases h10
      | skip k fs o os hf ho hms hin => rw [hi.exc.inExc ha] at hin; cases hin
      | opn k fs o os hf ho hms hin =>
        left
        refine ⟨rfl, fun hd => ?_⟩
        rcases hd with ⟨c, v, fs', h3, -⟩ | ⟨k', fs', h3, h4, h5, h6, h7⟩
        · cases h3
        · cases h3
          right
          refine ⟨k, fs, hf, h4, h5, h6, ?_⟩
          rintro ⟨h8, -⟩
          apply h7
          refine ⟨h8, ?_⟩
          intro l os' h9 h10
          simp only at h9 h10
          rw [ho] at h9
          cases h9
          cases h10
          exact hr
      | next k fs o os hf ho hms =>
        left
        refine ⟨rfl, fun hd => ?_⟩
        rcases hd with ⟨c, v, fs', h3, -⟩ | ⟨k', fs', h3, h4, h5, h6, h7⟩
        · cases h3
        · cases h3
          right
          refine ⟨k, fs, hf, h4, h5, h6, ?_⟩
          rintro ⟨h8, h9⟩
          apply h7
          refine ⟨?_, by simp⟩
          rw [ho] at h8
          rcases List.mem_cons.1 h8 with h10 | h10
          · subst h10
            exact absurd (h9 [] os ho hms) (by simp)
          · exact h10
      | pollFalse k fs o os m ms hf ho hms => exact absurd ⟨k, fs, o, os, m, ms, hf, ho, hms⟩ hpoll
      | pollFired k fs o os m ms hf ho hms hfd => exact absurd ⟨k, fs, o, os, m, ms, hf, ho, hms⟩ hpoll
      | fire k fs o os m ms hf ho hms hfd => exact absurd ⟨k, fs, o, os, m, ms, hf, ho, hms⟩ hpoll
    · cases h1 with
      | fire k fs o os m ms hf ho hms hfd => exact absurd ⟨k, fs, o, os, m, ms, hf, ho, hms⟩ hpoll

theorem plain_reach {P : Prog} (hP : Plain P) {tr : List Ev} {s : M} (h : ReachW P tr s) : PlainInv P s := by
  induction h with
  | init => exact ⟨by intro k o m h; simp [Sequencer.init] at h, by simp [Sequencer.init], by simp [Sequencer.init], by simp [Sequencer.init]⟩
  | step tr s x s' ev hr hs hw ih => exact plain_step hP (reach_ainv hr) ih hs

/-- A sequence stays active until it returns. -/
theorem active_step {P : Prog} {s s' : M} {x : Inp} {ev : List Ev} (h : step P s x = some (s', ev)) {r : Nat} (hr : r ∈ s.frames.map Frame.id)
    (hret : ∀ v, .ret r v ∉ ev) : r ∈ s'.frames.map Frame.id ∧ .call r ∉ ev := by
  have key : ∀ {s s' : M} {ev : List Ev}, Micro P s s' ev → r ∈ s.frames.map Frame.id → (∀ v, .ret r v ∉ ev) → r ∈ s'.frames.map Frame.id ∧ .call r ∉ ev := by
    intro s s' ev hm hr hret
    cases hm with
    | call j hc hj =>
      refine ⟨by simp only [List.map_cons, List.mem_cons]; exact Or.inr hr, ?_⟩
      intro h
      simp only [List.mem_singleton, Ev.call.injEq] at h
      subst h
      exact hj hr
    | dead => exact ⟨hr, by simp⟩
    | spawn j => exact ⟨hr, by simp⟩
    | ret i v fs hf hs =>
      refine ⟨?_, by simp⟩
      rw [hf] at hr
      simp only [List.map_cons, List.mem_cons, Frame.id] at hr
      rcases hr with rfl | hr
      · exact absurd (by simp) (hret v)
      · exact hr
    | finish k fs hf hos =>
      refine ⟨?_, by simp⟩
      rcases finish_cases P s k fs with he | ⟨f, hff, h5, -⟩
      · rw [he]; exact hr
      · rw [h5]
        rw [hf] at hr
        rcases hff with rfl | rfl <;> simpa [Frame.id] using hr
    | after k o m fs hf =>
      refine ⟨?_, by simp⟩
      have hframes : (afterExc s k o m fs).1.frames = .check k :: fs := by cases hb : m.beh <;> simp [afterExc, hb]
      rw [hframes]
      rw [hf] at hr
      simpa [Frame.id] using hr
    | refuse i v fs hf hs => exact ⟨hr, by simp⟩
    | abort i v fs hf hs => exact ⟨hr, by simp⟩
    | restart i v fs hf hs => exact ⟨hr, by simp⟩
    | _ =>
      rename_i hf
      first
        | (refine ⟨?_, by simp⟩; simp_all [Frame.id, newCheck])
  rcases step_micro P s s' x ev h with h1 | ⟨s1, o, m, ev2, h1, h2, rfl⟩
  · exact key h1 hr hret
  · obtain ⟨h3, h4⟩ := key h1 hr (by simp)
    obtain ⟨h5, h6⟩ := key h2 h3 (fun v hv => hret v (by simp [hv]))
    exact ⟨h5, by simpa using h6⟩

theorem set_m (s : T) (i : Nat) : (s.set i).m = s.m := rfl

theorem set_flag {s : T} {i r : Nat} (h : s.flag r = true) : (s.set i).flag r = true := by
  simp only [T.set, upd]
  by_cases hi : r = i
  · rw [if_pos hi]
  · rw [if_neg hi, h]

theorem abortAll_spec (l : List Nat) : ∀ (s : T), (s.abortAll l).m = s.m ∧ ∀ i, (s.abortAll l).flag i = (s.flag i || decide (i ∈ l)) := by
  induction l with
  | nil => intro s; simp [T.abortAll]
  | cons a l ih =>
    intro s
    obtain ⟨h1, h2⟩ := ih (s.set a)
    refine ⟨h1, fun i => ?_⟩
    have h3 := h2 i
    simp only [T.abortAll, List.foldl_cons] at h3 ⊢
    rw [h3]
    by_cases hi : i = a <;> simp [T.set, upd, hi]

/-- A non-blocking start is no call of a blocking sequence. -/
theorem spawn_nonblocking {P : Prog} {s s' : M} {x : Inp} {ev : List Ev} (h : step P s x = some (s', ev)) {j : Nat} (hj : .spawn j ∈ ev) :
    P.blocking j = false := by
  have hstart : ∀ s j', .spawn j ∈ (startSeq P s j').2 → P.blocking j = false := by
    intro s j' h1
    unfold startSeq at h1
    split at h1
    · split at h1 <;> simp at h1
    · rename_i hb
      simp only [List.mem_singleton, Ev.spawn.injEq] at h1
      subst h1
      simpa using hb
  unfold step at h
  split at h
  · cases h
  · split at h
    · simp only [Option.some.injEq] at h; exact hstart _ _ (by rw [h]; exact hj)
    · simp only [Option.some.injEq] at h; exact hstart _ _ (by rw [h]; exact hj)
    · simp only [Option.some.injEq, Prod.mk.injEq] at h; rw [← h.2] at hj; simp at hj
    · split at h <;> simp only [Option.some.injEq, Prod.mk.injEq, reduceCtorEq] at h <;> (rw [← h.2] at hj; simp at hj)
    · simp only [Option.some.injEq, Prod.mk.injEq] at h; rw [← h.2] at hj; simp at hj
    · simp only [Option.some.injEq, afterExc, Prod.mk.injEq] at h; rw [← h.2] at hj; simp at hj
    · split at h
      · simp only [Option.some.injEq, Prod.mk.injEq] at h; rw [← h.2] at hj; simp at hj
      · split at h <;> simp only [Option.some.injEq, Prod.mk.injEq] at h <;> (rw [← h.2] at hj; simp at hj)
      · simp only [Option.some.injEq, Prod.mk.injEq] at h; rw [← h.2] at hj; simp at hj
      · simp only [Option.some.injEq] at h
        unfold checkMonitor at h
        split at h
        · simp only at h
          split at h
          · simp only [Prod.mk.injEq] at h; rw [← h.2] at hj; simp at hj
          · split at h
            · simp only [Prod.mk.injEq, afterExc] at h; rw [← h.2] at hj; simp at hj
            · simp only [Prod.mk.injEq] at h
              rw [← h.2] at hj
              simp only [List.mem_cons, reduceCtorEq, false_or] at hj
              exact hstart _ _ hj
        · simp only [Prod.mk.injEq] at h; rw [← h.2] at hj; simp at hj
      · cases h
    · cases h

/-- Once the flag of an active blocking sequence is set, at most one action of it or of its callees begins before it returns. -/
theorem flag_set {P : Prog} (hP : Plain P) {r : Nat} (hr : abortMon ∈ P.mons r) (hb : P.blocking r = true) {tr : List Ev} {s1 s2 : T} {t2 : List Ev}
    (h1 : ReachW P tr s1.m) (hact : r ∈ s1.m.frames.map Frame.id) (hf : s1.flag r = true) (h2 : RunT P s1 t2 s2) (hret : ∀ v, .ret r v ∉ t2) :
    t2.countP (enters' P r) ≤ 1 ∧ (Danger P r s2.m → t2.countP (enters' P r) = 0) ∧ s2.flag r = true ∧ r ∈ s2.m.frames.map Frame.id := by
  induction h2 with
  | refl => exact ⟨by simp, fun _ => by simp, hf, hact⟩
  | set t s i _ ih =>
    obtain ⟨h3, h4, h5, h6⟩ := ih hret
    exact ⟨h3, h4, set_flag h5, h6⟩
  | step t s x m' ev hrun hs hw hpoll ih =>
    obtain ⟨h3, h4, h5, h6⟩ := ih (fun v hv => hret v (by simp [hv]))
    have hre : ReachW P (tr ++ t) s.m := h1.run hrun.runW
    have ha := reach_ainv hre
    obtain ⟨h7, h8⟩ := active_step hs h6 (fun v hv => hret v (by simp [hv]))
    have hnp : .poll r abortMon false ∉ ev := by
      intro hp
      have := hpoll r false hp
      rw [h5] at this
      cases this
    have hns : starts r ev = false := by
      unfold starts
      rw [List.any_eq_false]
      intro e he
      simp only [Bool.or_eq_true, decide_eq_true_eq, not_or]
      refine ⟨?_, ?_⟩
      · rintro rfl; exact h8 he
      · rintro rfl
        rw [spawn_nonblocking hs he] at hb
        cases hb
    have hd := danger_step hP hr ha (inactive_idle P _ _ hre) (plain_reach hP hre) hs hnp
    refine ⟨?_, ?_, by simp [h5, hns], h7⟩
    · rw [List.countP_append]
      rcases hd with ⟨h9, -⟩ | ⟨h9, h10, -⟩
      · omega
      · have := h4 h10; omega
    · intro hdd
      rw [List.countP_append]
      rcases hd with ⟨h9, h10⟩ | ⟨-, -, h10⟩
      · have := h4 (h10 hdd); omega
      · exact absurd hdd h10

/-! ### Property theorems (C135) -/

/-- After `Sequencer::abort` at most one action of an aborted sequence, or of the blocking sequences and steps below it, begins until it returns.
For sequences with monitors which abort (the default monitors), and without non-blocking starts (`started_later_violated`). -/
theorem abort_all_partial (P : Prog) (hP : ∀ i, ∀ m ∈ P.mons i, m.beh = .abort ∧ m.exc = none) (l : List Nat) (r : Nat) (hl : r ∈ l) (hr : abortMon ∈ P.mons r)
    (hb : P.blocking r = true) (t1 t2 : List Ev) (s1 s2 : T) (h1 : RunT P T.init t1 s1) (hact : r ∈ s1.m.frames.map Frame.id)
    (h2 : RunT P (s1.abortAll l) t2 s2) (hret : ∀ v, .ret r v ∉ t2) :
    t2.countP (fun e => match e with | .enter c => decide (r ∈ P.cstack c) | _ => false) ≤ 1 := by
  obtain ⟨h3, h4⟩ := abortAll_spec l s1
  have hre : ReachW P t1 (s1.abortAll l).m := by rw [h3]; exact h1.runW.reachW
  have := (flag_set hP hr hb hre (by rw [h3]; exact hact) (by rw [h4]; simp [hl]) h2 hret).1
  have he : (fun e => match e with | .enter c => decide (r ∈ P.cstack c) | _ => false) = enters' P r := by
    funext e
    cases e <;> rfl
  rw [he]
  exact this

/-- The flag of an aborted sequence stays set until it returns, so every check of its monitor is true. -/
theorem abort_kept (P : Prog) (hP : ∀ i, ∀ m ∈ P.mons i, m.beh = .abort ∧ m.exc = none) (l : List Nat) (r : Nat) (hl : r ∈ l) (hr : abortMon ∈ P.mons r)
    (hb : P.blocking r = true) (t1 t2 : List Ev) (s1 s2 : T) (h1 : RunT P T.init t1 s1) (hact : r ∈ s1.m.frames.map Frame.id)
    (h2 : RunT P (s1.abortAll l) t2 s2) (hret : ∀ v, .ret r v ∉ t2) : s2.flag r = true ∧ r ∈ s2.m.frames.map Frame.id := by
  obtain ⟨h3, h4⟩ := abortAll_spec l s1
  have hre : ReachW P t1 (s1.abortAll l).m := by rw [h3]; exact h1.runW.reachW
  exact (flag_set hP hr hb hre (by rw [h3]; exact hact) (by rw [h4]; simp [hl]) h2 hret).2.2

/-- The program as seen by the thread of the non-blocking sequence `j`, `Sequence::run`, Sequence.cpp:25-41. -/
def Prog.asThread (P : Prog) (j : Nat) : Prog := { P with blocking := fun i => decide (i = j) || P.blocking i }

/-- A non-blocking sequence started after `abort()` by an action which is still running resets its own flag and executes its action. -/
theorem started_later_violated (P : Prog) (j : Nat) (hb : P.blocking j = false) (hc : P.caller j = none) (hm : P.mons j = [abortMon]) (l : List Nat) (s : T)
    (r : Nat) (fs : List Frame) (hbody : s.m.frames = .body r :: fs) (hh : s.m.halt = none) :
    ∃ s2 s3, RunT P (s.abortAll l) [.spawn j] s2 ∧ RunT (P.asThread j) ⟨init, s2.flag⟩ [.call j, .poll j abortMon false, .enter j] s3 := by
  obtain ⟨h3, h4⟩ := abortAll_spec l s
  have hcs : (P.asThread j).cstack j = [j] := by rw [cstack_eq]; simp [Prog.asThread, hc]
  refine ⟨⟨s.m, fun i => (s.abortAll l).flag i && !starts i [.spawn j]⟩, ?_⟩
  generalize hfl : (fun i => (s.abortAll l).flag i && !starts i [.spawn j]) = fl
  have hfj : fl j = false := by simp [← hfl, starts]
  have e1 : step (P.asThread j) init (.call j) = some ({ init with frames := [.loop j (-1)] }, [.call j]) := by
    simp [step, init, startSeq, Prog.asThread]
  have r1 := RunT.step (P := P.asThread j) (s0 := ⟨init, fl⟩) [] _ (.call j) _ _ .refl e1
    (by intro j' hj' c hcm hne; simp only [List.mem_singleton, Ev.call.injEq] at hj'; subst hj'; rw [hcs] at hcm; simp at hcm; exact absurd hcm hne) (by simp)
  have e2 : step (P.asThread j) { init with frames := [.loop j (-1)] } .tick =
      some ({ init with fired := upd init.fired j false, active := upd init.active j none, frames := [.check (newCheck (P.asThread j) j (-1) .idle)] }, []) := by
    simp [step, init]
  have r2 := RunT.step _ _ .tick _ _ r1 e2 (by simp) (by simp)
  have e3 : step (P.asThread j) { init with fired := upd init.fired j false, active := upd init.active j none, frames := [.check (newCheck (P.asThread j) j (-1) .idle)] } .tick =
      some ({ init with fired := upd init.fired j false, active := upd init.active j none, frames := [.check { newCheck (P.asThread j) j (-1) .idle with ms := some [abortMon] }] }, []) := by
    simp [step, init, newCheck, hcs]
    simp [Prog.asThread, hm]
  have r3 := RunT.step _ _ .tick _ _ r2 e3 (by simp) (by simp)
  have e4 : step (P.asThread j) { init with fired := upd init.fired j false, active := upd init.active j none, frames := [.check { newCheck (P.asThread j) j (-1) .idle with ms := some [abortMon] }] } (.cond false) =
      some ({ init with fired := upd init.fired j false, active := upd init.active j none, frames := [.check { newCheck (P.asThread j) j (-1) .idle with ms := some [] }] }, [.poll j abortMon false]) := by
    simp [step, init, newCheck, hcs, checkMonitor]
  have r4 := RunT.step _ _ (.cond false) _ _ r3 e4 (by simp) (by
    intro o b hob
    simp only [List.mem_singleton, Ev.poll.injEq, true_and] at hob
    obtain ⟨rfl, rfl⟩ := hob
    simp [hfj])
  have e5 : step (P.asThread j) { init with fired := upd init.fired j false, active := upd init.active j none, frames := [.check { newCheck (P.asThread j) j (-1) .idle with ms := some [] }] } .tick =
      some ({ init with fired := upd init.fired j false, active := upd init.active j none, frames := [.check { newCheck (P.asThread j) j (-1) .idle with os := [], ms := none }] }, []) := by
    simp [step, init, newCheck, hcs]
  have r5 := RunT.step _ _ .tick _ _ r4 e5 (by simp) (by simp)
  have e6 : step (P.asThread j) { init with fired := upd init.fired j false, active := upd init.active j none, frames := [.check { newCheck (P.asThread j) j (-1) .idle with os := [], ms := none }] } .tick =
      some ({ init with st := upd init.st j .starting, fired := upd init.fired j false, active := upd init.active j none, frames := [.loop j (-1)] }, []) := by
    simp [step, init, newCheck, finish]
  have r6 := RunT.step _ _ .tick _ _ r5 e6 (by simp) (by simp)
  have e7 : step (P.asThread j) { init with st := upd init.st j .starting, fired := upd init.fired j false, active := upd init.active j none, frames := [.loop j (-1)] } (.pre true) =
      some ({ init with st := upd (upd init.st j .starting) j .running, fired := upd init.fired j false, active := upd init.active j none, frames := [.body j] }, [.enter j]) := by
    simp [step, init, upd]
  have r7 := RunT.step _ _ (.pre true) _ _ r6 e7 (by simp) (by simp)
  refine ⟨_, ?_, r7⟩
  have := RunT.step (P := P) (s0 := s.abortAll l) [] _ (.call j) s.m [.spawn j] .refl
    (by rw [h3]; unfold step; rw [if_neg (by simp [hh]), hbody]; simp [startSeq, hb]) (by simp) (by simp)
  rw [← hfl]
  simpa using this

/-! ### Cases -/

/-- The conditions read are the flags. -/
def flagsRead (s : T) (ev : List Ev) : Bool :=
  ev.all (fun e => match e with
    | .poll o m b => !decide (m = abortMon) || decide (b = s.flag o)
    | _ => true)

/-- Runs of inputs. -/
def execT (P : Prog) : T → List Inp → Option (T × List Ev)
  | s, [] => some (s, [])
  | s, x :: xs => match step P s.m x with
    | none => none
    | some (m', ev) => if nestedCalls P s.m ev && flagsRead s ev then
        (execT P { m := m', flag := fun i => s.flag i && !starts i ev } xs).map (fun r => (r.1, ev ++ r.2)) else none

theorem runT_execT (P : Prog) : ∀ (xs : List Inp) (s0 s : T) (t : List Ev) (r : T × List Ev), RunT P s0 t s → execT P s xs = some r → RunT P s0 (t ++ r.2) r.1 := by
  intro xs
  induction xs with
  | nil => intro s0 s t r h1 h2; simp only [execT, Option.some.injEq] at h2; subst h2; simpa using h1
  | cons x xs ih =>
    intro s0 s t r h1 h2
    unfold execT at h2
    split at h2
    · cases h2
    · rename_i m' ev hs
      split at h2
      · rename_i hn
        rw [Bool.and_eq_true] at hn
        cases he : execT P { m := m', flag := fun i => s.flag i && !starts i ev } xs with
        | none => rw [he] at h2; cases h2
        | some r' =>
          rw [he] at h2
          simp only [Option.map_some, Option.some.injEq] at h2
          subst h2
          have hp : ∀ o b, .poll o abortMon b ∈ ev → b = s.flag o := by
            intro o b hob
            have := List.all_eq_true.1 hn.2 _ hob
            simpa using this
          have := ih s0 _ (t ++ ev) r' (.step t s x m' ev h1 hs (nested_of P s.m ev hn.1) hp) he
          simpa using this
      · cases h2

/-- Sequence 0 calls sequence 1, both with the default monitor; sequence 2 is non-blocking. -/
def progD : Prog :=
  { caller := fun i => if i = 1 then some 0 else none
    older := by intro i c h; by_cases hi : i = 1 <;> simp [hi] at h; omega
    blocking := fun i => decide (i ≠ 2)
    mons := fun _ => [abortMon] }

/-- Sequence 0 is executing, sequence 1 is about to be executed. -/
def runD : List Inp := [.call 0, .tick, .tick, .cond false, .tick, .tick, .pre true, .call 1, .tick, .tick, .cond false, .tick, .tick, .cond false, .tick, .tick]

/-- After `abort()` the action of sequence 1 begins; it ends; sequence 0 calls it again, which has no effect. -/
def moreD : List Inp := [.pre true, .ret 7, .tick, .tick, .cond true, .tick, .tick, .cond true, .tick, .tick, .exitc false, .tick, .tick,
  .call 1, .tick, .tick, .cond false, .tick, .tick, .cond true, .tick, .tick, .tick, .tick]

def traceD : List Ev := [.enter 1, .leave 1 7, .poll 1 abortMon true, .fire 1 abortMon, .handled 1 abortMon, .poll 0 abortMon true, .fire 0 abortMon,
  .handled 0 abortMon, .ret 1 7, .call 1, .poll 1 abortMon false, .poll 0 abortMon true, .ret 1 (-1)]

/-- Case of `abort_all_partial`: the bound is reached. -/
example : ∃ t1 s1 s2, RunT progD T.init t1 s1 ∧ 0 ∈ s1.m.frames.map Frame.id ∧ RunT progD (s1.abortAll [0, 1, 2]) traceD s2 ∧ (∀ v, Ev.ret 0 v ∉ traceD) ∧
    traceD.countP (fun e => match e with | .enter c => decide (0 ∈ progD.cstack c) | _ => false) = 1 := by
  cases h1 : execT progD T.init runD with
  | none => exact absurd h1 (by decide +kernel)
  | some r1 =>
    have hr : (execT progD T.init runD).map (fun r => r.1.m.frames.map Frame.id) = some [1, 0] := by decide +kernel
    have h2 : ((execT progD T.init runD).bind (fun r => execT progD (r.1.abortAll [0, 1, 2]) moreD)).map (·.2) = some traceD := by decide +kernel
    rw [h1] at h2 hr
    simp only [Option.bind_some, Option.map_some, Option.some.injEq] at h2 hr
    cases h3 : execT progD (r1.1.abortAll [0, 1, 2]) moreD with
    | none => rw [h3] at h2; cases h2
    | some r2 =>
      rw [h3] at h2
      simp only [Option.map_some, Option.some.injEq] at h2
      refine ⟨_, r1.1, r2.1, by simpa using runT_execT progD runD T.init T.init [] r1 .refl h1, by rw [hr]; simp, ?_, by simp [traceD], by decide +kernel⟩
      have := runT_execT progD moreD _ _ [] r2 .refl h3
      rw [h2] at this
      simpa using this

/-- The hypotheses on the program hold for `progD`. -/
example : (∀ i, ∀ m ∈ progD.mons i, m.beh = .abort ∧ m.exc = none) ∧ abortMon ∈ progD.mons 0 ∧ progD.blocking 0 = true := by
  refine ⟨?_, by simp [progD], by decide⟩
  intro i m hm
  simp only [progD, List.mem_singleton] at hm
  subst hm
  exact ⟨rfl, rfl⟩

/-- Case of `started_later_violated`: sequence 0 is in its action and starts sequence 2. -/
example : progD.blocking 2 = false ∧ progD.caller 2 = none ∧ progD.mons 2 = [abortMon] ∧
    ((execT progD T.init [.call 0, .tick, .tick, .cond false, .tick, .tick, .pre true]).map (fun r => (r.1.m.frames, r.1.m.halt))) = some ([.body 0], none) := by
  decide +kernel

end Verif.Sequencer
