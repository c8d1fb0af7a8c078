import Verif.Sequencer.AbortEnds
import Mathlib.Tactic.Ring
import Mathlib.Tactic.Linarith
import Mathlib.Algebra.Order.Field.Basic
/-!
C249: how long it can take until the condition of a monitor is evaluated again.  Every monitor of a sequence is checked by the sequence itself and by all its callees
(BaseSequence.cpp:86-96): between two checks of one monitor the thread sleeps (54) at most once and makes a number of other steps which is bounded by the depth of the calls.
-/
namespace Verif.Sequencer

/-! ### Specification -/

/-- The monitors of `o` are to be checked: the thread is not stopped, the sequence it is executing is `o` or has `o` in its caller stack, and no exception of `o` is being processed (89). -/
structure Watched (P : Prog) (o : Nat) (s : M) : Prop where
  alive : s.halt = none
  top : ∃ f fs, s.frames = f :: fs ∧ o ∈ P.cstack f.id
  free : s.inExc o = false

/-- The step ends with `usleep` (54): the exit condition was false and the state is `running`. -/
def sleeps (s : M) (x : Inp) : Bool :=
  match s.frames, x with
  | .exit i _ :: _, .exitc false => decide (s.st i = .running)
  | _, _ => false

def fires (ev : List Ev) : Nat := ev.countP (fun e => match e with | .fire _ _ => true | _ => false)
def spawns (ev : List Ev) : Nat := ev.countP (fun e => match e with | .spawn _ => true | _ => false)

/-- A part of a history from `s0` in which the monitors of `o` are to be checked all the time and the condition of its monitor `m` is not evaluated: which of its steps sleep,
how many monitors fire (of any sequence) and how many sequences are started in their own thread. -/
inductive Unchecked (P : Prog) (o : Nat) (m : Mon) (s0 : M) : List Bool → Nat → Nat → M → Prop where
  | refl : Watched P o s0 → Unchecked P o m s0 [] 0 0 s0
  | step (zs f w s x s' ev) : Unchecked P o m s0 zs f w s → step P s x = some (s', ev) →
      (∀ j, .call j ∈ ev → ∀ c ∈ P.cstack j, c ≠ j → c ∈ s.frames.map Frame.id) → (∀ b, .poll o m b ∉ ev) → Watched P o s' →
      Unchecked P o m s0 (zs ++ [sleeps s x]) (f + fires ev) (w + spawns ev) s'

/-! ### The measure -/
namespace Latency

/-- The next step begins a check of the monitor or the check is on its way to it. -/
def near (o : Nat) (m : Mon) (st : Nat → SState) : Frame → Prop
  | .loop i _ => st i = .idle ∨ st i = .running
  | .check k => Ahead o m k
  | .exc k _ _ => Ahead o m k
  | _ => False

def nearLen (P : Prog) (B : Nat) : Frame → Nat
  | .loop _ _ => B + 1
  | .check k => remLen P k
  | .exc k _ _ => remLen P k + 1
  | _ => 0

def loopT (B : Nat) : SState → Nat
  | .terminated => 1
  | .aborting => 2
  | .running => B + 1
  | .idle => B + 1
  | .starting => B + 3
  | .restarting => B + 4

def full (P : Prog) (B : Nat) (st : Nat → SState) : Frame → Nat
  | .loop i _ => loopT B (st i)
  | .exit i _ => 1 + loopT B (st i)
  | .body i => 1 + max (B + 1) (loopT B (st i))
  | .check k => remLen P k + (B + 6)
  | .exc k _ _ => remLen P k + (B + 7)

def lowOne (P : Prog) (B : Nat) : Frame → Nat
  | .check k => remLen P k + (B + 7)
  | .exc k _ _ => remLen P k + (B + 7)
  | _ => B + 6

def low (P : Prog) (B : Nat) (fs : List Frame) : Nat := (fs.map (lowOne P B)).sum

open Classical in
noncomputable def meas (P : Prog) (B o : Nat) (m : Mon) (s : M) : Nat :=
  match s.frames with
  | [] => 0
  | f :: fs => if near o m s.st f then nearLen P B f else full P B s.st f + low P B fs

theorem loopT_le (B : Nat) (st : SState) : 1 ≤ loopT B st ∧ loopT B st ≤ B + 4 := by cases st <;> simp [loopT]

theorem full_le (P : Prog) (B : Nat) (st : Nat → SState) (f : Frame) : full P B st f ≤ lowOne P B f := by
  cases f with
  | loop i r => have := loopT_le B (st i); simp only [full, lowOne]; omega
  | exit i r => have := loopT_le B (st i); simp only [full, lowOne]; omega
  | body i => have := loopT_le B (st i); simp only [full, lowOne]; omega
  | check k => simp [full, lowOne]
  | exc k o m => simp [full, lowOne]

theorem near_le (P : Prog) (B o : Nat) (m : Mon) (st : Nat → SState) (f : Frame) (h : near o m st f) : nearLen P B f ≤ full P B st f := by
  cases f with
  | loop i r => rcases h with h | h <;> simp [nearLen, full, h, loopT]
  | exit i r => exact h.elim
  | body i => exact h.elim
  | check k => simp [nearLen, full]
  | exc k o m => simp [nearLen, full]

theorem meas_le {P : Prog} {B o : Nat} {m : Mon} {s : M} {f : Frame} {fs : List Frame} (hf : s.frames = f :: fs) : meas P B o m s ≤ full P B s.st f + low P B fs := by
  unfold meas
  rw [hf]
  simp only
  split
  · rename_i h; have := near_le P B o m s.st f h; omega
  · exact Nat.le_refl _

theorem meas_near {P : Prog} {B o : Nat} {m : Mon} {s : M} {f : Frame} {fs : List Frame} (hf : s.frames = f :: fs) (h : near o m s.st f) : meas P B o m s = nearLen P B f := by
  unfold meas
  rw [hf]
  simp only [h, if_true]

theorem meas_far {P : Prog} {B o : Nat} {m : Mon} {s : M} {f : Frame} {fs : List Frame} (hf : s.frames = f :: fs) (h : ¬ near o m s.st f) :
    meas P B o m s = full P B s.st f + low P B fs := by
  unfold meas
  rw [hf]
  simp only [h, if_false]

/-- The top frame is near. -/
def Near (o : Nat) (m : Mon) (s : M) : Prop := ∃ f fs, s.frames = f :: fs ∧ near o m s.st f

/-- What a step shows: the measure decreases up to the weight of the events, and a thread which is near stays near. -/
def Good (P : Prog) (B o : Nat) (m : Mon) (s s' : M) (ev : List Ev) : Prop :=
  meas P B o m s' + 1 ≤ meas P B o m s + fires ev * (B + 2) + spawns ev ∧ (Near o m s → Near o m s')

theorem good_top {P : Prog} {B o : Nat} {m : Mon} {s s' : M} {ev : List Ev} {f f' : Frame} {fs : List Frame} (hf : s.frames = f :: fs) (hf' : s'.frames = f' :: fs)
    (hfar : ¬ near o m s.st f) (h : full P B s'.st f' + 1 ≤ full P B s.st f) : Good P B o m s s' ev := by
  refine ⟨?_, fun ⟨g, gs, h1, h2⟩ => ?_⟩
  · rw [meas_far hf hfar]
    have := meas_le (P := P) (B := B) (o := o) (m := m) hf'
    omega
  · rw [hf] at h1; cases h1; exact absurd h2 hfar

theorem good_near {P : Prog} {B o : Nat} {m : Mon} {s s' : M} {ev : List Ev} {f f' : Frame} {fs fs' : List Frame} (hf : s.frames = f :: fs) (hf' : s'.frames = f' :: fs')
    (hn : near o m s.st f) (hn' : near o m s'.st f') (h : nearLen P B f' + 1 ≤ nearLen P B f + fires ev * (B + 2) + spawns ev) : Good P B o m s s' ev := by
  refine ⟨?_, fun _ => ⟨f', fs', hf', hn'⟩⟩
  rw [meas_near hf hn, meas_near hf' hn']; exact h

/-- Check frames: both cases at once. -/
theorem good_check {P : Prog} {B o : Nat} {m : Mon} {s s' : M} {ev : List Ev} {k k' : Chk} {fs : List Frame} (hf : s.frames = .check k :: fs) (hf' : s'.frames = .check k' :: fs)
    (hk : Ahead o m k → Ahead o m k') (hr : remLen P k' + 1 ≤ remLen P k) : Good P B o m s s' ev := by
  by_cases hn : Ahead o m k
  · exact good_near (f := .check k) (f' := .check k') hf hf' hn (hk hn) (by simp only [nearLen]; omega)
  · exact good_top (f := .check k) (f' := .check k') hf hf' hn (by simp only [full]; omega)

theorem rem_ms (P : Prog) (k : Chk) (m : Mon) (ms : List Mon) (a : Option Nat) (h : k.ms = some (m :: ms)) : remLen P { k with ms := some ms, act := a } + 1 = remLen P k := by
  simp only [remLen, h, List.length_cons]; omega

theorem sumMons_cons (P : Prog) (o : Nat) (os : List Nat) : sumMons P (o :: os) = 2 + (P.mons o).length + sumMons P os := by simp [sumMons]

theorem ahead_ms {o o' : Nat} {m m' : Mon} {k : Chk} {os : List Nat} {ms : List Mon} (a : Option Nat) (ho : k.os = o' :: os) (hms : k.ms = some (m' :: ms)) (hne : ¬ (o' = o ∧ m' = m))
    (h : Ahead o m k) : Ahead o m { k with ms := some ms, act := a } := by
  refine ⟨h.1, fun l os' h1 h2 => ?_⟩
  simp only [Option.some.injEq] at h2
  subst h2
  have h1 : k.os = o :: os' := h1
  rw [ho] at h1
  obtain ⟨rfl, rfl⟩ := List.cons.inj h1
  have := h.2 (m' :: ms) _ ho hms
  rcases List.mem_cons.1 this with rfl | h
  · exact absurd ⟨rfl, rfl⟩ hne
  · exact h

theorem good_exc {P : Prog} {B o : Nat} {m : Mon} {s s' : M} {ev : List Ev} {k k' : Chk} {o' : Nat} {m' : Mon} {fs : List Frame} (hf : s.frames = .check k :: fs)
    (hf' : s'.frames = .exc k' o' m' :: fs) (hk : Ahead o m k → Ahead o m k') (hr : remLen P k' + 1 = remLen P k) (he : 1 ≤ fires ev) : Good P B o m s s' ev := by
  have he := Nat.mul_le_mul_right (B + 2) he
  by_cases hn : Ahead o m k
  · exact good_near (f := .check k) (f' := .exc k' o' m') hf hf' hn (hk hn) (by simp only [nearLen]; omega)
  · refine ⟨?_, fun ⟨g, gs, h1, h2⟩ => by rw [hf] at h1; cases h1; exact absurd h2 hn⟩
    rw [meas_far (f := .check k) hf hn]
    have := meas_le (P := P) (B := B) (o := o) (m := m) hf'
    simp only [full] at *
    omega

theorem micro_good {P : Prog} {B o : Nat} (hB : ∀ i, chkLen P i ≤ B) {m : Mon} (hm : m ∈ P.mons o) {s s' : M} {ev : List Ev} (hidle : ∀ c, c ∉ s.frames.map Frame.id → s.st c = .idle)
    (hw : Watched P o s) (hw' : Watched P o s') (hp : ∀ b, .poll o m b ∉ ev)
    (hx : ∀ j, .call j ∈ ev → ∀ k o' m' fs, s.frames ≠ .exc k o' m' :: fs) (h : Micro P s s' ev) : Good P B o m s s' ev := by
  obtain ⟨f0, fs0, hf0, htop⟩ := hw.top
  cases h with
  | call j h1 h2 =>
    have hj : near o m s.st (.loop j (-1)) := Or.inl (hidle j h2)
    refine ⟨?_, fun _ => ⟨_, _, rfl, hj⟩⟩
    rw [meas_near (s := { s with frames := .loop j (-1) :: s.frames }) rfl hj]
    simp only [nearLen]
    cases f0 with
    | body i =>
      rw [meas_far hf0 (by simp [near])]
      simp only [full]; omega
    | exc k o' m' => exact absurd hf0 (hx j List.mem_cons_self k o' m' fs0)
    | _ => rw [hf0] at h1; exact h1.elim
  | dead => have := hw'.alive; simp at this
  | spawn j => exact ⟨by simp [spawns, fires], id⟩
  | leave i fs v hf =>
    refine good_top (f' := .loop i v) hf rfl (by simp [near]) ?_
    simp only [full]; omega
  | idle i r fs hf hs =>
    rw [hf] at hf0; cases hf0
    refine good_near (f' := .check (newCheck P i r .idle)) hf rfl (Or.inl hs) ⟨htop, by intro l os _ h; simp [newCheck] at h⟩ ?_
    have := hB i
    simp only [nearLen, remLen_new]; omega
  | enter i r fs hf hs =>
    refine good_top (f' := .body i) hf rfl (by simp [near, hs]) ?_
    simp [full, upd, hs, loopT]; omega
  | refuse i r fs hf hs =>
    refine good_top (f' := .loop i r) hf hf (by simp [near, hs]) ?_
    simp [full, upd, hs, loopT]
  | run i r fs hf hs =>
    rw [hf] at hf0; cases hf0
    refine good_near (f' := .check (newCheck P i r .run)) hf rfl (Or.inr hs) ⟨htop, by intro l os _ h; simp [newCheck] at h⟩ ?_
    have := hB i
    simp only [nearLen, remLen_new]; omega
  | abort i r fs hf hs =>
    refine good_top (f' := .loop i r) hf hf (by simp [near, hs]) ?_
    simp [full, upd, hs, loopT]
  | restart i r fs hf hs =>
    refine good_top (f' := .loop i r) hf hf (by simp [near, hs]) ?_
    simp [full, upd, hs, loopT]
  | ret i r fs hf hs =>
    have hfar : ¬ near o m s.st (.loop i r) := by simp [near, hs]
    refine ⟨?_, fun ⟨g, gs, h1, h2⟩ => by rw [hf] at h1; cases h1; exact absurd h2 hfar⟩
    obtain ⟨g, gs, hg, -⟩ := hw'.top
    have hg : fs = g :: gs := hg
    rw [meas_far hf hfar]
    have h1 := meas_le (P := P) (B := B) (o := o) (m := m) (s := { s with st := upd s.st i .idle, frames := fs }) hg
    have h2 := full_le P B (upd s.st i .idle) g
    rw [hg, low, List.map_cons, List.sum_cons, ← low]
    simp only [full, hs, loopT] at *
    subst hg
    omega
  | exitTrue i r fs hf =>
    refine good_top (f' := .loop i r) hf rfl (by simp [near]) ?_
    have := loopT_le B (s.st i)
    have h1 : loopT B (upd s.st i .terminated i) = 1 := by simp [upd, loopT]
    simp only [full, h1]; omega
  | exitFalse i r fs hf =>
    refine good_top (f' := .loop i r) hf rfl (by simp [near]) ?_
    simp only [full]; omega
  | after k o' m' fs hf =>
    have hfr : (afterExc s k o' m' fs).1.frames = .check k :: fs := by
      unfold afterExc; cases m'.beh <;> rfl
    by_cases hn : Ahead o m k
    · exact good_near (f := .exc k o' m') hf hfr hn hn (by simp only [nearLen]; omega)
    · exact good_top (f := .exc k o' m') hf hfr hn (by simp only [full]; omega)
  | finish k fs hf ho =>
    have hfar : ¬ near o m s.st (.check k) := by
      intro h; have := h.1; rw [ho] at this; cases this
    have hrem : 1 ≤ remLen P k := by simp [remLen]
    have h1 : ∃ f', (Sequencer.finish P s k fs).frames = f' :: fs ∧ full P B (Sequencer.finish P s k fs).st f' ≤ B + 5 := by
      have hl := fun st : Nat → SState => loopT_le B (st k.i)
      have go : ∀ st : Nat → SState, ∀ s1 : M, s1 = (match k.cont with
          | .idle => { s with st := (if st k.i = .aborting ∨ st k.i = .restarting then st else upd st k.i .starting), frames := .loop k.i k.ret :: fs }
          | .run => { s with st := st, frames := (if st k.i = .restarting then .loop k.i k.ret else .exit k.i k.ret) :: fs }) →
          ∃ f', s1.frames = f' :: fs ∧ full P B s1.st f' ≤ B + 5 := by
        intro st s1 h
        subst h
        cases k.cont with
        | idle =>
          refine ⟨_, rfl, ?_⟩
          have := hl (if st k.i = .aborting ∨ st k.i = .restarting then st else upd st k.i .starting)
          simp only [full]; omega
        | run =>
          refine ⟨_, rfl, ?_⟩
          have := hl st
          simp only
          split <;> (simp only [full]; omega)
      have halive := hw'.alive
      unfold Sequencer.finish at halive ⊢
      cases hact : k.act with
      | none => exact go s.st _ rfl
      | some a =>
        rw [hact] at halive
        cases hac : s.active a with
        | none => simp only [hac] at halive; cases halive
        | some m1 => simp only [hac]; exact go _ _ rfl
    obtain ⟨f', h1, h2⟩ := h1
    exact good_top (f := .check k) hf h1 hfar (by simp only [full] at *; omega)
  | skip k fs o' os hf ho hms hi =>
    refine good_check (k' := { k with os := os }) hf rfl ?_ ?_
    · intro h
      refine ⟨?_, fun l os' _ h2 => by rw [hms] at h2; cases h2⟩
      have := h.1
      rw [ho] at this
      rcases List.mem_cons.1 this with rfl | h1
      · rw [hw.free] at hi; cases hi
      · exact h1
    · simp only [remLen, hms, ho, sumMons_cons]; omega
  | opn k fs o' os hf ho hms hi =>
    refine good_check (k' := { k with ms := some (P.mons o') }) hf rfl ?_ ?_
    · intro h
      refine ⟨h.1, fun l os' h1 h2 => ?_⟩
      have h1 : k.os = o :: os' := h1
      rw [ho] at h1
      obtain ⟨rfl, rfl⟩ := List.cons.inj h1
      simp only [Option.some.injEq] at h2
      subst h2; exact hm
    · simp only [remLen, hms, ho, sumMons_cons, List.tail_cons]; omega
  | next k fs o' os hf ho hms =>
    refine good_check (k' := { k with os := os, ms := none }) hf rfl ?_ ?_
    · intro h
      refine ⟨?_, fun l os' _ h2 => by cases h2⟩
      have h0 := h.1
      rw [ho] at h0
      rcases List.mem_cons.1 h0 with rfl | h1
      · have := h.2 [] os ho hms; cases this
      · exact h1
    · simp only [remLen, hms, ho, List.tail_cons, List.length_nil]; omega
  | pollFalse k fs o' os m' ms hf ho hms =>
    refine good_check (k' := { k with ms := some ms }) hf rfl (ahead_ms k.act ho hms ?_) (le_of_eq (rem_ms P k m' ms k.act hms))
    rintro ⟨rfl, rfl⟩; first | exact hp true List.mem_cons_self | exact hp false List.mem_cons_self
  | pollFired k fs o' os m' ms hf ho hms hfd =>
    refine good_check (k' := { k with ms := some ms, act := some o' }) hf rfl (ahead_ms _ ho hms ?_) (le_of_eq (rem_ms P k m' ms _ hms))
    rintro ⟨rfl, rfl⟩; first | exact hp true List.mem_cons_self | exact hp false List.mem_cons_self
  | fire k fs o' os m' ms hf ho hms hfd =>
    have hr := rem_ms P k m' ms (some o') hms
    refine good_exc hf rfl (ahead_ms _ ho hms ?_) hr (by simp [fires])
    rintro ⟨rfl, rfl⟩; exact hp true List.mem_cons_self

/-- A monitor fires, and its exception sequence is started. -/
theorem fire_good {P : Prog} {B o : Nat} {m : Mon} {s s' : M} {ev2 : List Ev} (hidle : ∀ c, c ∉ s.frames.map Frame.id → s.st c = .idle)
    (hw' : Watched P o s') {k : Chk} {fs : List Frame} {o' : Nat} {os : List Nat} {m' : Mon} {ms : List Mon} (hne : ¬ (o' = o ∧ m' = m))
    (hf : s.frames = .check k :: fs) (ho : k.os = o' :: os) (hms : k.ms = some (m' :: ms)) {s1 : M} (hst : s1.st = s.st)
    (hf1 : s1.frames = .exc { k with ms := some ms, act := some o' } o' m' :: fs) (h : Micro P s1 s' ev2) : Good P B o m s s' (.poll o' m' true :: .fire o' m' :: ev2) := by
  have hr := rem_ms P k m' ms (some o') hms
  have ha := ahead_ms (o := o) (m := m) (some o') ho hms hne
  have hfi : ∀ l, 1 ≤ fires (.poll o' m' true :: .fire o' m' :: l) := by intro l; simp [fires]
  cases h with
  | call j h1 h2 =>
    have h3 : j ∉ s.frames.map Frame.id := by rw [hf]; rw [hf1] at h2; exact h2
    have hj : near o m s1.st (.loop j (-1)) := Or.inl (by rw [hst]; exact hidle j h3)
    refine ⟨?_, fun _ => ⟨_, _, rfl, hj⟩⟩
    rw [meas_near (s := { s1 with frames := .loop j (-1) :: s1.frames }) rfl hj]
    have := Nat.mul_le_mul_right (B + 2) (hfi [.call j])
    simp only [nearLen]; omega
  | dead => have := hw'.alive; simp at this
  | spawn j => exact good_exc hf hf1 ha hr (hfi _)
  | after k1 o1 m1 fs1 h1 =>
    rw [hf1] at h1
    simp only [List.cons.injEq, Frame.exc.injEq] at h1
    obtain ⟨⟨rfl, rfl, rfl⟩, rfl⟩ := h1
    refine good_check (k' := { k with ms := some ms, act := some o' }) hf ?_ ha (le_of_eq hr)
    unfold afterExc; cases m'.beh <;> rfl
  | fire k1 fs1 o1 os1 m1 ms1 h1 => rw [hf1] at h1; cases h1
  | leave _ _ _ h1 => rw [hf1] at h1; cases h1
  | idle _ _ _ h1 => rw [hf1] at h1; cases h1
  | enter _ _ _ h1 => rw [hf1] at h1; cases h1
  | refuse _ _ _ h1 => rw [hf1] at h1; cases h1
  | run _ _ _ h1 => rw [hf1] at h1; cases h1
  | abort _ _ _ h1 => rw [hf1] at h1; cases h1
  | restart _ _ _ h1 => rw [hf1] at h1; cases h1
  | ret _ _ _ h1 => rw [hf1] at h1; cases h1
  | exitTrue _ _ _ h1 => rw [hf1] at h1; cases h1
  | exitFalse _ _ _ h1 => rw [hf1] at h1; cases h1
  | finish _ _ h1 => rw [hf1] at h1; cases h1
  | skip _ _ _ _ h1 => rw [hf1] at h1; cases h1
  | opn _ _ _ _ h1 => rw [hf1] at h1; cases h1
  | next _ _ _ _ h1 => rw [hf1] at h1; cases h1
  | pollFalse _ _ _ _ _ _ h1 => rw [hf1] at h1; cases h1
  | pollFired _ _ _ _ _ _ h1 => rw [hf1] at h1; cases h1

/-- From the line which waits for the exception sequence nothing is called. -/
theorem exc_no_call {P : Prog} {s s' : M} {x : Inp} {ev : List Ev} (h : step P s x = some (s', ev)) (j : Nat) (hj : Ev.call j ∈ ev) (k : Chk) (o : Nat) (m : Mon) (fs : List Frame) :
    s.frames ≠ .exc k o m :: fs := by
  intro hf
  unfold step at h
  rw [hf] at h
  split at h
  · cases h
  · cases x <;> simp only [Option.some.injEq, reduceCtorEq] at h
    have := congrArg Prod.snd h
    simp only [afterExc] at this
    rw [← this] at hj; simp at hj

theorem step_good {P : Prog} {B o : Nat} (hB : ∀ i, chkLen P i ≤ B) {m : Mon} (hm : m ∈ P.mons o) {s s' : M} {x : Inp} {ev : List Ev}
    (hidle : ∀ c, c ∉ s.frames.map Frame.id → s.st c = .idle) (hw : Watched P o s) (hw' : Watched P o s') (hp : ∀ b, .poll o m b ∉ ev) (h : step P s x = some (s', ev)) :
    Good P B o m s s' ev := by
  rcases step_micro P s s' x ev h with h1 | ⟨s1, o', m', ev2, h1, h2, rfl⟩
  · exact micro_good hB hm hidle hw hw' hp (exc_no_call h) h1
  · have hne : ¬ (o' = o ∧ m' = m) := by rintro ⟨rfl, rfl⟩; exact hp true List.mem_cons_self
    cases h1 with
    | fire k fs _ os _ ms hf ho hms hfd => exact fire_good hidle hw' hne hf ho hms (by rfl) (by rfl) h2

/-- After a sleep the thread is at the head of the loop and running. -/
theorem sleep_near {P : Prog} {o : Nat} {m : Mon} {s s' : M} {x : Inp} {ev : List Ev} (h : step P s x = some (s', ev)) (hz : sleeps s x = true) : Near o m s' ∧ ¬ Near o m s := by
  unfold sleeps at hz
  split at hz
  · rename_i i r fs hf
    unfold step at h
    rw [hf] at h
    split at h
    · cases h
    · simp only [Bool.false_eq_true, if_false, Option.some.injEq, Prod.mk.injEq] at h
      obtain ⟨rfl, -⟩ := h
      refine ⟨⟨_, _, rfl, Or.inr (by simpa using hz)⟩, ?_⟩
      rintro ⟨g, gs, h1, h2⟩
      rw [hf] at h1; cases h1; exact h2
  · cases hz

/-! ### Check frames hold no more work than a fresh check -/

def remF (P : Prog) : Frame → Nat
  | .check k => remLen P k
  | .exc k _ _ => remLen P k
  | _ => 0

def FInv (P : Prog) (B : Nat) (s : M) : Prop := ∀ f ∈ s.frames, remF P f ≤ B

theorem finv_top {P : Prog} {B : Nat} {s s' : M} {f f' : Frame} {fs : List Frame} (h : FInv P B s) (hf : s.frames = f :: fs) (hf' : s'.frames = f' :: fs) (hr : remF P f' ≤ B) : FInv P B s' := by
  intro g hg
  rw [hf'] at hg
  rcases List.mem_cons.1 hg with rfl | hg
  · exact hr
  · exact h g (by rw [hf]; exact List.mem_cons_of_mem _ hg)

theorem finv_micro {P : Prog} {B : Nat} (hB : ∀ i, chkLen P i ≤ B) {s s' : M} {ev : List Ev} (h : FInv P B s) (hm : Micro P s s' ev) : FInv P B s' := by
  have top : ∀ f fs, s.frames = f :: fs → remF P f ≤ B := fun f fs hf => h f (by rw [hf]; exact List.mem_cons_self)
  cases hm with
  | call j h1 h2 =>
    intro g hg
    rcases List.mem_cons.1 hg with rfl | hg
    · exact Nat.zero_le _
    · exact h g hg
  | dead => exact h
  | spawn j => exact h
  | leave i fs v hf => exact finv_top h hf rfl (Nat.zero_le _)
  | idle i r fs hf hs => exact finv_top h hf rfl (hB i)
  | enter i r fs hf hs => exact finv_top h hf rfl (Nat.zero_le _)
  | refuse i r fs hf hs => exact h
  | run i r fs hf hs => exact finv_top h hf rfl (hB i)
  | abort i r fs hf hs => exact h
  | restart i r fs hf hs => exact h
  | ret i r fs hf hs => exact fun g hg => h g (by rw [hf]; exact List.mem_cons_of_mem _ hg)
  | exitTrue i r fs hf => exact finv_top h hf rfl (Nat.zero_le _)
  | exitFalse i r fs hf => exact finv_top h hf rfl (Nat.zero_le _)
  | after k o' m' fs hf =>
    refine finv_top (f' := .check k) h hf ?_ (top (.exc k o' m') _ hf)
    unfold afterExc; cases m'.beh <;> rfl
  | finish k fs hf ho =>
    have h0 : ∀ f, remF P f = 0 → ∀ s1 : M, s1.frames = f :: fs → FInv P B s1 := fun f h0 s1 h1 => finv_top h hf h1 (by omega)
    have h2 : ∀ st : Nat → SState, remF P (if st k.i = .restarting then .loop k.i k.ret else .exit k.i k.ret) = 0 := by intro st; split <;> rfl
    unfold Sequencer.finish
    cases hc : k.cont <;> cases ha : k.act with
    | none => first | exact h0 (.loop k.i k.ret) rfl _ rfl | exact h0 _ (h2 _) _ rfl
    | some a =>
      cases hac : s.active a with
      | none => simp only [hac]; exact h
      | some m1 => simp only [hac]; first | exact h0 (.loop k.i k.ret) rfl _ rfl | exact h0 _ (h2 _) _ rfl
  | skip k fs o' os hf ho hms hi =>
    refine finv_top h hf rfl ?_
    have := top _ _ hf
    simp only [remF, remLen, hms, ho, sumMons_cons] at *; omega
  | opn k fs o' os hf ho hms hi =>
    refine finv_top h hf rfl ?_
    have := top _ _ hf
    simp only [remF, remLen, hms, ho, sumMons_cons, List.tail_cons] at *; omega
  | next k fs o' os hf ho hms =>
    refine finv_top h hf rfl ?_
    have := top _ _ hf
    simp only [remF, remLen, hms, ho, List.tail_cons] at *; omega
  | pollFalse k fs o' os m' ms hf ho hms =>
    refine finv_top h hf rfl ?_
    have := top _ _ hf
    simp only [remF, remLen, hms, List.length_cons] at *; omega
  | pollFired k fs o' os m' ms hf ho hms hfd =>
    refine finv_top h hf rfl ?_
    have := top _ _ hf
    simp only [remF, remLen, hms, List.length_cons] at *; omega
  | fire k fs o' os m' ms hf ho hms hfd =>
    refine finv_top h hf rfl ?_
    have := top _ _ hf
    simp only [remF, remLen, hms, List.length_cons] at *; omega

theorem finv_reach {P : Prog} {B : Nat} (hB : ∀ i, chkLen P i ≤ B) {tr : List Ev} {s : M} (h : ReachW P tr s) : FInv P B s := by
  induction h with
  | init => intro f hf; cases hf
  | step tr s x s' ev _ hs _ ih =>
    rcases step_micro P s s' x ev hs with h1 | ⟨s1, o', m', ev2, h1, h2, rfl⟩
    · exact finv_micro hB ih h1
    · exact finv_micro hB (finv_micro hB ih h1) h2

theorem lowOne_le {P : Prog} {B : Nat} {f : Frame} (h : remF P f ≤ B) : lowOne P B f ≤ 2 * B + 7 := by
  cases f <;> simp only [lowOne, remF] at * <;> omega

theorem meas_bound {P : Prog} {B o : Nat} {m : Mon} {s : M} (h : FInv P B s) : meas P B o m s ≤ (2 * B + 7) * s.frames.length := by
  cases hf : s.frames with
  | nil => simp [meas, hf]
  | cons f fs =>
    have h1 := meas_le (P := P) (B := B) (o := o) (m := m) hf
    have h2 := full_le P B s.st f
    have h3 : ∀ l : List Frame, (∀ g ∈ l, remF P g ≤ B) → low P B l ≤ (2 * B + 7) * l.length := by
      intro l
      induction l with
      | nil => intro _; simp [low]
      | cons g l ih =>
        intro hl
        have h1 := ih (fun x hx => hl x (List.mem_cons_of_mem _ hx))
        have h2 := lowOne_le (hl g List.mem_cons_self)
        simp only [low, List.map_cons, List.sum_cons, List.length_cons, Nat.mul_succ] at *
        omega
    have h4 := h3 fs (fun g hg => h g (by rw [hf]; exact List.mem_cons_of_mem _ hg))
    have h5 := lowOne_le (h f (by rw [hf]; exact List.mem_cons_self))
    simp only [List.length_cons, Nat.mul_succ]
    omega

theorem unchecked_inv {P : Prog} {B o : Nat} (hB : ∀ i, chkLen P i ≤ B) {m : Mon} (hm : m ∈ P.mons o) {tr : List Ev} {s0 : M} (h0 : ReachW P tr s0) {zs : List Bool} {f w : Nat} {s : M}
    (h : Unchecked P o m s0 zs f w s) :
    (∃ tr', ReachW P tr' s) ∧ Watched P o s ∧ meas P B o m s + zs.length ≤ meas P B o m s0 + f * (B + 2) + w ∧ (zs.count true = 0 ∨ zs.count true = 1 ∧ Near o m s) := by
  induction h with
  | refl hw => exact ⟨⟨tr, h0⟩, hw, by simp, Or.inl (by simp)⟩
  | step zs f w s x s' ev _ hs hc hp hw' ih =>
    obtain ⟨⟨tr', hr⟩, hw, hle, hz⟩ := ih
    have hg := step_good hB hm (inactive_idle P tr' s hr) hw hw' hp hs
    refine ⟨⟨_, .step _ _ _ _ _ hr hs hc⟩, hw', ?_, ?_⟩
    · have := hg.1
      rw [List.length_append, List.length_singleton, Nat.add_mul]; omega
    · rw [List.count_append]
      cases hsl : sleeps s x with
      | false =>
        rcases hz with hz | ⟨hz, hn⟩
        · exact Or.inl (by rw [hz]; rfl)
        · exact Or.inr ⟨by rw [hz]; rfl, hg.2 hn⟩
      | true =>
        obtain ⟨h1, h2⟩ := sleep_near (o := o) (m := m) hs hsl
        rcases hz with hz | ⟨-, hn⟩
        · exact Or.inr ⟨by rw [hz]; rfl, h1⟩
        · exact absurd hn h2

end Latency

/-! ### The property theorems (C249) -/

/-- As long as the monitors of `o` are to be checked, the thread sleeps at most once between two evaluations of the condition of a monitor of `o`. -/
theorem one_sleep_between_checks (P : Prog) (o : Nat) (m : Mon) (hm : m ∈ P.mons o) (tr : List Ev) (s0 : M) (h0 : ReachW P tr s0) (B : Nat)
    (hB : ∀ i, ((P.cstack i).map (fun c => 2 + (P.mons c).length)).sum < B) (zs : List Bool) (f w : Nat) (s : M) (h : Unchecked P o m s0 zs f w s) : zs.count true ≤ 1 := by
  rcases (Latency.unchecked_inv (B := B) (fun i => hB i) hm h0 h).2.2.2 with h | h <;> omega

/-- And it makes a number of steps which is bounded by the number of active calls at the beginning, the number of monitors in a caller stack and the number of monitors which fire. -/
theorem steps_between_checks (P : Prog) (o : Nat) (m : Mon) (hm : m ∈ P.mons o) (tr : List Ev) (s0 : M) (h0 : ReachW P tr s0) (B : Nat)
    (hB : ∀ i, ((P.cstack i).map (fun c => 2 + (P.mons c).length)).sum < B) (zs : List Bool) (f w : Nat) (s : M) (h : Unchecked P o m s0 zs f w s) :
    zs.length ≤ (2 * B + 7) * s0.frames.length + f * (B + 2) + w := by
  have h1 := (Latency.unchecked_inv (B := B) (fun i => hB i) hm h0 h).2.2.1
  have h2 := Latency.meas_bound (o := o) (m := m) (Latency.finv_reach (B := B) (fun i => hB i) h0)
  omega

/-- Time: if no step takes longer than `a` and a sleep adds at most `p`, the condition is evaluated again after at most `p` plus `a` for each of these steps. -/
theorem time_between_checks {K : Type} [Field K] [LinearOrder K] [IsStrictOrderedRing K] (P : Prog) (o : Nat) (m : Mon) (hm : m ∈ P.mons o) (tr : List Ev) (s0 : M) (h0 : ReachW P tr s0)
    (B : Nat) (hB : ∀ i, ((P.cstack i).map (fun c => 2 + (P.mons c).length)).sum < B) (zs : List Bool) (f w : Nat) (s : M) (h : Unchecked P o m s0 zs f w s)
    (a p : K) (ha : 0 ≤ a) (hp : 0 ≤ p) (ds : List K) (hd : List.Forall₂ (fun z d => d ≤ a + (if z then p else 0)) zs ds) :
    ds.sum ≤ p + a * (((2 * B + 7) * s0.frames.length + f * (B + 2) + w : Nat) : K) := by
  have h1 := one_sleep_between_checks P o m hm tr s0 h0 B hB zs f w s h
  have h2 := steps_between_checks P o m hm tr s0 h0 B hB zs f w s h
  have h3 : ds.sum ≤ a * (zs.length : K) + p * ((zs.count true : Nat) : K) := by
    clear h h1 h2
    induction hd with
    | nil => simp
    | @cons z d zs ds hz _ ih =>
      rw [List.sum_cons, List.length_cons, List.count_cons]
      cases z <;> simp at hz ⊢ <;> linarith
  have h4 : (zs.length : K) ≤ (((2 * B + 7) * s0.frames.length + f * (B + 2) + w : Nat) : K) := by exact_mod_cast h2
  have h5 : ((zs.count true : Nat) : K) ≤ 1 := by exact_mod_cast h1
  have h6 := mul_le_mul_of_nonneg_left h4 ha
  have h7 := mul_le_mul_of_nonneg_left h5 hp
  linarith

/-! ### The hypotheses are met -/
namespace Latency

def watchedB (P : Prog) (o : Nat) (s : M) : Bool :=
  decide (s.halt = none) && !s.inExc o && (match s.frames with | [] => false | f :: _ => decide (o ∈ P.cstack f.id))

theorem watched_of {P : Prog} {o : Nat} {s : M} (h : watchedB P o s = true) : Watched P o s := by
  unfold watchedB at h
  simp only [Bool.and_eq_true, decide_eq_true_eq, Bool.not_eq_true'] at h
  obtain ⟨⟨h1, h2⟩, h3⟩ := h
  refine ⟨h1, ?_, h2⟩
  split at h3
  · cases h3
  · rename_i f fs hf; exact ⟨f, fs, hf, by simpa using h3⟩

def execU (P : Prog) (o : Nat) (m : Mon) : M → List Inp → Option (List Bool)
  | _, [] => some []
  | s, x :: xs => match step P s x with
    | none => none
    | some (s', ev) =>
      if nestedCalls P s ev && decide (.poll o m true ∉ ev) && decide (.poll o m false ∉ ev) && watchedB P o s' then (execU P o m s' xs).map (sleeps s x :: ·) else none

theorem unchecked_of {P : Prog} {o : Nat} {m : Mon} {s0 : M} (xs : List Inp) : ∀ (zs : List Bool) (f w : Nat) (s : M) (r : List Bool), Unchecked P o m s0 zs f w s → execU P o m s xs = some r →
    ∃ f w s', Unchecked P o m s0 (zs ++ r) f w s' := by
  induction xs with
  | nil => intro zs f w s r h1 h2; simp only [execU, Option.some.injEq] at h2; subst h2; exact ⟨f, w, s, by simpa using h1⟩
  | cons x xs ih =>
    intro zs f w s r h1 h2
    unfold execU at h2
    split at h2
    · cases h2
    · rename_i s' ev hs
      split at h2
      · rename_i hn
        simp only [Bool.and_eq_true, decide_eq_true_eq] at hn
        cases he : execU P o m s' xs with
        | none => rw [he] at h2; cases h2
        | some r' =>
          rw [he] at h2
          simp only [Option.map_some, Option.some.injEq] at h2
          subst h2
          have := ih _ _ _ s' r' (.step _ _ _ _ _ _ _ h1 hs (nested_of P s ev hn.1.1.1) (by rintro (_ | _); exacts [hn.1.2, hn.1.1.2]) (watched_of hn.2)) he
          simpa using this
      · cases h2

/-- Sequence 0 with one monitor calls the step 1. -/
def prog : Prog :=
  { caller := fun i => if i = 1 then some 0 else none
    older := by intro i c h; by_cases hi : i = 1 <;> simp [hi] at h; omega
    blocking := fun _ => true
    mons := fun i => if i = 0 then [monA] else [] }

theorem prog_bound (i : Nat) : ((prog.cstack i).map (fun c => 2 + (prog.mons c).length)).sum < 6 := by
  rw [cstack_eq]
  by_cases h1 : i = 1
  · subst h1; decide
  · by_cases h0 : i = 0
    · subst h0; decide
    · simp [prog, h1, h0]

/-- Sequence 0 has called step 1, its action has returned, and the monitor has just been checked: the steps up to its next check, of which one sleeps. -/
example : ∃ tr s0 f w s, ReachW prog tr s0 ∧ Unchecked prog 0 monA s0 [false, false, true, false, false] f w s := by
  cases h1 : execW prog init [.call 0, .tick, .tick, .cond false, .tick, .tick, .pre true, .call 1, .tick, .tick, .tick, .tick, .cond false, .tick, .tick, .pre true, .ret 0,
      .tick, .tick, .tick, .tick, .cond false] with
  | none => exact absurd h1 (by decide +kernel)
  | some r =>
    have h2 : (execW prog init [.call 0, .tick, .tick, .cond false, .tick, .tick, .pre true, .call 1, .tick, .tick, .tick, .tick, .cond false, .tick, .tick, .pre true, .ret 0,
      .tick, .tick, .tick, .tick, .cond false]).map (fun r => (watchedB prog 0 r.1, execU prog 0 monA r.1 [.tick, .tick, .exitc false, .tick, .tick])) =
      some (true, some [false, false, true, false, false]) := by decide +kernel
    rw [h1] at h2
    simp only [Option.map_some, Option.some.injEq, Prod.mk.injEq] at h2
    obtain ⟨f, w, s, h⟩ := unchecked_of _ _ _ _ _ _ (.refl (watched_of h2.1)) h2.2
    exact ⟨r.2, r.1, f, w, s, reachW_execW prog _ r h1, h⟩

end Latency

end Verif.Sequencer
