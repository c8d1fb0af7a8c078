import Verif.Sequencer.Exceptions
import Verif.Sequencer.Timeout
/-!
C262-C264: the thread machine of `Machine.lean` together with the clock.  The condition of the timeout monitor of a sequence is no longer an arbitrary input but `ConditionTimeout::validate`
(ConditionTimeout.hpp:14-23) on the time of the check, the timeout is reset when the sequence is started (Sequence.cpp:45, Step.hpp:51) and restarted (BaseSequence.cpp:68); the exit
condition of a `Wait` step (Wait.hpp:38-39) compares the time since its action with its waiting time.

Simplified: the clock does not advance within one step of the machine; a `Wait` compares exact numbers.
-/
namespace Verif.Sequencer.Timed
open Verif.Sequencer Verif.Sequencer.Timeout
variable {K : Type} [Field K] [LinearOrder K] [IsStrictOrderedRing K]

/-- What is recorded: events of the machine, `setTimeoutTime`, `resetTimeout` called by user code, and a `Wait` step getting its waiting time (Wait.hpp:35). -/
inductive TEv (K : Type) where
  | ev (e : Ev)
  | set (j : Nat) (v : K)
  | reset (j : Nat)
  | dur (j : Nat) (v : K)
deriving DecidableEq

structure T (K : Type) where
  m : M
  now : Int
  tmo : Nat → Cond K
  dur : Nat → K
  since : Nat → Int

/-- The timeout monitors are those with number 0 (`monitorTimeout`, BaseSequence.cpp:13 and 19). -/
def Mon.timeout (m : Mon) : Bool := decide (m.name = 0)

/-- What an event does to the timeout conditions and to `Wait::time`. -/
def T.note (s : T K) : Ev → T K
  | .call j => { s with tmo := upd s.tmo j ((s.tmo j).reset s.now) }
  | .spawn j => { s with tmo := upd s.tmo j ((s.tmo j).reset s.now) }
  | .restart j => { s with tmo := upd s.tmo j ((s.tmo j).reset s.now) }
  | .poll o m _ => if Mon.timeout m then { s with tmo := upd s.tmo o ((s.tmo o).validate s.now).1 } else s
  | .enter j => { s with since := upd s.since j s.now }
  | _ => s

/-- One step: time passes, user code sets or resets a timeout or a waiting time, or the machine makes a step in which timeout monitors and `Wait` steps get the answers of their conditions.
`W` says which sequences are `Wait` steps. -/
inductive TStep (W : Nat → Bool) (P : Prog) (s : T K) : List (Int × TEv K) → T K → Prop where
  | pass (d : Int) : 0 ≤ d → TStep W P s [] { s with now := s.now + d }
  | set (j v) : TStep W P s [(s.now, .set j v)] { s with tmo := upd s.tmo j ((s.tmo j).setTimeout v) }
  | reset (j) : TStep W P s [(s.now, .reset j)] { s with tmo := upd s.tmo j ((s.tmo j).reset s.now) }
  | dur (j v) : TStep W P s [(s.now, .dur j v)] { s with dur := upd s.dur j v }
  | mach (x m' ev) : step P s.m x = some (m', ev) →
      (∀ o m b, .poll o m b ∈ ev → Mon.timeout m = true → b = ((s.tmo o).validate s.now).2) →
      (∀ i r fs b, s.m.frames = .exit i r :: fs → W i = true → x = .exitc b → b = decide (((s.now - s.since i : Int) : K) > s.dur i * 1000000000)) →
      TStep W P s (ev.map fun e => (s.now, .ev e)) { ev.foldl T.note s with m := m' }

def tinit : T K := { m := init, now := 0, tmo := fun _ => Cond.new, dur := fun _ => 0, since := fun _ => 0 }

inductive TReach (W : Nat → Bool) (P : Prog) : List (Int × TEv K) → T K → Prop where
  | init : TReach W P [] tinit
  | step (tr s new s') : TReach W P tr s → TStep W P s new s' → TReach W P (tr ++ new) s'

/-! ### Specification -/

/-- The events which start the clock of the timeout of `o` anew. -/
def Starts (o : Nat) : TEv K → Prop
  | .ev (.call j) => j = o
  | .ev (.spawn j) => j = o
  | .ev (.restart j) => j = o
  | .reset j => j = o
  | _ => False

/-- The timeout of `o` set last, 0 if none was set. -/
def timeoutOf (o : Nat) (tr : List (Int × TEv K)) : K := tr.foldl (fun v x => match x.2 with | .set j w => if j = o then w else v | _ => v) 0

/-- The events of the machine. -/
def machine (tr : List (Int × TEv K)) : List Ev := tr.filterMap (fun x => match x.2 with | .ev e => some e | _ => none)

/-! ### Proofs -/

theorem machine_append (a b : List (Int × TEv K)) : machine (a ++ b) = machine a ++ machine b := by simp [machine]

theorem machine_map (t : Int) (ev : List Ev) : machine (K := K) (ev.map fun e => (t, .ev e)) = ev := by
  induction ev with
  | nil => rfl
  | cons e ev ih => simpa [machine] using ih

/-- The machine does in time what it can do without. -/
theorem treach_reach {W : Nat → Bool} {P : Prog} {tr : List (Int × TEv K)} {s : T K} (h : TReach W P tr s) : Reach P (machine tr) s.m := by
  induction h with
  | init => exact .init
  | step tr s new s' _ hs ih =>
    cases hs with
    | pass d hd => simpa [machine] using ih
    | set j v => simpa [machine] using ih
    | reset j => simpa [machine] using ih
    | dur j v => simpa [machine] using ih
    | mach x m' ev hst _ _ =>
      rw [machine_append, machine_map]
      exact .step _ _ _ _ _ ih hst

theorem note_now (ev : List Ev) : ∀ s : T K, (ev.foldl T.note s).now = s.now := by
  induction ev with
  | nil => intro s; rfl
  | cons e ev ih =>
    intro s
    rw [List.foldl_cons, ih]
    cases e <;> simp only [T.note]
    split <;> rfl

/-- The clock of the timeout of `o` and the timeout, as they follow from the record. -/
def clockStep (o : Nat) (c : Option Int × K) (x : Int × TEv K) : Option Int × K :=
  match x.2 with
  | .ev (.call j) => if j = o then (some x.1, c.2) else c
  | .ev (.spawn j) => if j = o then (some x.1, c.2) else c
  | .ev (.restart j) => if j = o then (some x.1, c.2) else c
  | .ev (.poll j m _) => if j = o ∧ Mon.timeout m = true ∧ c.2 ≠ 0 ∧ c.1 = none then (some x.1, c.2) else c
  | .reset j => if j = o then (some x.1, c.2) else c
  | .set j v => if j = o then (c.1, v) else c
  | _ => c

def clock (o : Nat) (tr : List (Int × TEv K)) : Option Int × K := tr.foldl (clockStep o) (none, 0)

def view (c : Cond K) : Option Int × K := (if c.started then some c.startTime else none, c.timeout)

theorem view_reset (c : Cond K) (t : Int) : view (c.reset t) = (some t, (view c).2) := by simp [view, Cond.reset]
theorem view_set (c : Cond K) (v : K) : view (c.setTimeout v) = ((view c).1, v) := rfl

theorem view_validate (c : Cond K) (t : Int) : view (c.validate t).1 = if (view c).2 ≠ 0 ∧ (view c).1 = none then (some t, (view c).2) else view c := by
  unfold Cond.validate
  by_cases h0 : c.timeout = 0
  · simp [h0, view]
  · cases hs : c.started <;> simp [h0, hs, view, Cond.reset]

theorem validate_view (c : Cond K) (t : Int) : (c.validate t).2 = true ↔
    (view c).2 ≠ 0 ∧ ∃ t0, (view c).1 = some t0 ∧ ((Int.tdiv (t - t0) 1000000 : Int) : K) > (view c).2 * 1000 := by
  unfold Cond.validate
  by_cases h0 : c.timeout = 0
  · simp [h0, view]
  · cases hs : c.started <;> simp [h0, hs, view]

theorem note_clock (o : Nat) (e : Ev) (s : T K) : view ((s.note e).tmo o) = clockStep o (view (s.tmo o)) (s.now, .ev e) := by
  cases e with
  | call j =>
    simp only [T.note, clockStep]
    by_cases h : j = o
    · subst h; simp [upd, view_reset]
    · have : o ≠ j := fun h' => h h'.symm
      simp [upd, h, this]
  | spawn j =>
    simp only [T.note, clockStep]
    by_cases h : j = o
    · subst h; simp [upd, view_reset]
    · have : o ≠ j := fun h' => h h'.symm
      simp [upd, h, this]
  | restart j =>
    simp only [T.note, clockStep]
    by_cases h : j = o
    · subst h; simp [upd, view_reset]
    · have : o ≠ j := fun h' => h h'.symm
      simp [upd, h, this]
  | poll j m b =>
    simp only [T.note, clockStep]
    by_cases hm : Mon.timeout m = true
    · by_cases h : j = o
      · subst h; simp [upd, hm, view_validate]
      · have : o ≠ j := fun h' => h h'.symm
        simp [upd, h, this, hm]
    · simp [hm]
  | refuse j => rfl
  | enter j => rfl
  | leave j v => rfl
  | ret j v => rfl
  | fire j m => rfl
  | handled j m => rfl

theorem note_foldl (o : Nat) (ev : List Ev) : ∀ s : T K, view ((ev.foldl T.note s).tmo o) = (ev.map fun e => ((s.now, .ev e) : Int × TEv K)).foldl (clockStep o) (view (s.tmo o)) := by
  induction ev with
  | nil => intro s; rfl
  | cons e ev ih =>
    intro s
    rw [List.foldl_cons, ih, List.map_cons, List.foldl_cons, note_clock]
    have : (s.note e).now = s.now := note_now [e] s
    rw [this]

structure TInv (tr : List (Int × TEv K)) (s : T K) : Prop where
  clk : ∀ o, view (s.tmo o) = clock o tr
  le : ∀ x ∈ tr, x.1 ≤ s.now
  sorted : tr.Pairwise (fun x y => x.1 ≤ y.1)

theorem clock_append (o : Nat) (a b : List (Int × TEv K)) : clock o (a ++ b) = b.foldl (clockStep o) (clock o a) := by simp [clock]

theorem tstep_le {W : Nat → Bool} {P : Prog} {s s' : T K} {new} (h : TStep W P s new s') : s.now ≤ s'.now ∧ ∀ x ∈ new, x.1 = s.now := by
  cases h with
  | pass d hd => exact ⟨by show s.now ≤ s.now + d; omega, by simp⟩
  | set j v => exact ⟨le_refl _, by simp⟩
  | reset j => exact ⟨le_refl _, by simp⟩
  | dur j v => exact ⟨le_refl _, by simp⟩
  | mach x m' ev _ _ _ => exact ⟨by show s.now ≤ (ev.foldl T.note s).now; rw [note_now], by simp⟩

theorem tinv {W : Nat → Bool} {P : Prog} {tr : List (Int × TEv K)} {s : T K} (h : TReach W P tr s) : TInv tr s := by
  induction h with
  | init => exact ⟨fun o => rfl, by simp, List.Pairwise.nil⟩
  | step tr s new s' _ hs ih =>
    obtain ⟨hle, hnew⟩ := tstep_le hs
    refine ⟨?_, ?_, ?_⟩
    · intro o
      rw [clock_append, ← ih.clk o]
      cases hs with
      | pass d hd => rfl
      | set j v =>
        simp only [List.foldl_cons, List.foldl_nil, clockStep]
        by_cases h : j = o
        · subst h; simp [upd, view_set]
        · have : o ≠ j := fun h' => h h'.symm
          simp [upd, h, this]
      | reset j =>
        simp only [List.foldl_cons, List.foldl_nil, clockStep]
        by_cases h : j = o
        · subst h; simp [upd, view_reset]
        · have : o ≠ j := fun h' => h h'.symm
          simp [upd, h, this]
      | dur j v => rfl
      | mach x m' ev _ _ _ => exact note_foldl o ev s
    · intro x hx
      rcases List.mem_append.1 hx with hx | hx
      · exact le_trans (ih.le x hx) hle
      · rw [hnew x hx]; exact hle
    · rw [List.pairwise_append]
      refine ⟨ih.sorted, ?_, fun x hx y hy => by rw [hnew y hy]; exact ih.le x hx⟩
      refine List.Pairwise.imp_of_mem (R := fun _ _ => True) ?_ (List.pairwise_of_forall (fun _ _ => trivial))
      intro a b ha hb _
      rw [hnew a ha, hnew b hb]

/-- A poll is the first event of its step. -/
theorem poll_first {P : Prog} {s s' : M} {x : Inp} {ev a b : List Ev} {o m v} (h : step P s x = some (s', ev)) (he : ev = a ++ .poll o m v :: b) : a = [] := by
  subst he
  cases a with
  | nil => rfl
  | cons e a =>
    exfalso
    have hmem : ∀ (s s' : M) (l : List Ev), Micro P s s' l → ∀ y t, l = y :: t → .poll o m v ∉ t := by
      intro s s' l hm y t hl
      cases hm <;> simp_all <;> (obtain ⟨-, rfl⟩ := hl; simp)
    rcases step_micro P s s' x _ h with h1 | ⟨s1, o', m', ev2, h1, h2, he⟩
    · exact hmem _ _ _ h1 e _ rfl (by simp)
    · have h3 : Ev.poll o m v ∈ ev2 := by
        simp only [List.cons_append, List.cons.injEq] at he
        have : Ev.poll o m v ∈ Ev.fire o' m' :: ev2 := by rw [← he.2]; simp
        simpa using this
      have h1' := h1
      cases h1' with
      | fire k fs o'' os m'' ms hf ho hms hfi =>
        cases h2 <;> simp_all

/-- The record of a step, cut at one of its events, belongs to the record before and to the step. -/
theorem poll_split {W : Nat → Bool} {P : Prog} {tr : List (Int × TEv K)} {s : T K} (h : TReach W P tr s) : ∀ (t1 t2 : List (Int × TEv K)) (t : Int) (o : Nat) (m : Mon) (b : Bool),
    tr = t1 ++ (t, .ev (.poll o m b)) :: t2 → ∃ s0, TReach W P t1 s0 ∧ s0.now = t ∧ (Mon.timeout m = true → b = ((s0.tmo o).validate t).2) ∧
      ∃ x m' ev, step P s0.m x = some (m', ev) ∧ ∃ ev', ev = .poll o m b :: ev' ∧ ∃ t3, t2 = ev'.map (fun e => (t, TEv.ev e)) ++ t3 := by
  induction h with
  | init => intro t1 t2 t o m b h; simp at h
  | step tr s new s' hr hs ih =>
    intro t1 t2 t o m b h
    rcases List.append_eq_append_iff.1 h with ⟨c, h1, h2⟩ | ⟨c, h1, h2⟩
    · -- the event is in the new part
      cases hs with
      | pass d hd => simp at h2
      | set j v => cases c <;> simp at h2
      | reset j => cases c <;> simp at h2
      | dur j v => cases c <;> simp at h2
      | mach x m' ev hst hpoll hex =>
        obtain ⟨a, b', hev, ha, hb⟩ := List.map_eq_append_iff.1 h2
        obtain ⟨e, r, rfl, he, hrr⟩ := List.map_eq_cons_iff.1 hb
        simp only [Prod.mk.injEq, TEv.ev.injEq] at he
        obtain ⟨rfl, rfl⟩ := he
        have ha0 := poll_first hst hev
        subst ha0
        simp only [List.map_nil] at ha
        subst ha
        simp only [List.nil_append] at hev
        rw [List.append_nil] at h1
        subst h1
        refine ⟨s, hr, rfl, ?_, x, m', ev, hst, r, hev, [], by rw [← hrr]; simp⟩
        intro hm
        exact hpoll o m b (by rw [hev]; simp) hm
    · cases c with
      | nil =>
        simp only [List.nil_append] at h2
        rw [List.append_nil] at h1
        subst h1
        -- the event is the first of the new part
        cases hs with
        | pass d hd => simp at h2
        | set j v => simp at h2
        | reset j => simp at h2
        | dur j v => simp at h2
        | mach x m' ev hst hpoll hex =>
          obtain ⟨e, r, hev, he, hrr⟩ := List.map_eq_cons_iff.1 h2.symm
          simp only [Prod.mk.injEq, TEv.ev.injEq] at he
          obtain ⟨rfl, rfl⟩ := he
          refine ⟨s, hr, rfl, ?_, x, m', ev, hst, r, hev, [], by rw [← hrr]; simp⟩
          intro hm
          exact hpoll o m b (by rw [hev]; simp) hm
      | cons y c =>
        simp only [List.cons_append, List.cons.injEq] at h2
        obtain ⟨rfl, h2⟩ := h2
        obtain ⟨s0, g1, g2, g3, x, m', ev, g4, ev', g5, t3, g6⟩ := ih t1 c t o m b h1
        exact ⟨s0, g1, g2, g3, x, m', ev, g4, ev', g5, t3 ++ new, by rw [h2, g6, List.append_assoc]⟩

theorem fire_second {P : Prog} {s s' : M} {x : Inp} {ev a b : List Ev} {o m} (h : step P s x = some (s', ev)) (he : ev = a ++ .fire o m :: b) : a = [.poll o m true] := by
  subst he
  have hno : ∀ (s s' : M) (l : List Ev), Micro P s s' l → .fire o m ∈ l → l = [.poll o m true, .fire o m] := by
    intro s s' l hm hl
    cases hm <;> simp_all
  rcases step_micro P s s' x _ h with h1 | ⟨s1, o', m', ev2, h1, h2, he⟩
  · have h3 := hno _ _ _ h1 (by simp)
    cases a with
    | nil => simp at h3
    | cons y a => cases a with
      | nil => simp at h3; rw [h3.1]
      | cons z a => simp at h3
  · cases a with
    | nil => simp at he
    | cons y a =>
      simp only [List.cons_append, List.cons.injEq] at he
      obtain ⟨rfl, he⟩ := he
      cases a with
      | nil => simp only [List.nil_append, List.cons.injEq, Ev.fire.injEq] at he; rw [he.1.1, he.1.2]
      | cons z a =>
        exfalso
        simp only [List.cons_append, List.cons.injEq] at he
        have h3 := hno _ _ _ h2 (by rw [← he.2]; simp)
        subst h3
        cases h1; cases h2; simp_all

/-- A monitor fires in the step of its poll. -/
theorem fire_split {W : Nat → Bool} {P : Prog} {tr : List (Int × TEv K)} {s : T K} (h : TReach W P tr s) : ∀ (t1 t2 : List (Int × TEv K)) (t : Int) (o : Nat) (m : Mon),
    tr = t1 ++ (t, .ev (.fire o m)) :: t2 → ∃ t1', t1 = t1' ++ [(t, .ev (.poll o m true))] := by
  induction h with
  | init => intro t1 t2 t o m h; simp at h
  | step tr s new s' hr hs ih =>
    intro t1 t2 t o m h
    rcases List.append_eq_append_iff.1 h with ⟨c, h1, h2⟩ | ⟨c, h1, h2⟩
    · cases hs with
      | pass d hd => simp at h2
      | set j v => cases c <;> simp at h2
      | reset j => cases c <;> simp at h2
      | dur j v => cases c <;> simp at h2
      | mach x m' ev hst hpoll hex =>
        obtain ⟨a, b', hev, ha, hb⟩ := List.map_eq_append_iff.1 h2
        obtain ⟨e, r, rfl, he, hrr⟩ := List.map_eq_cons_iff.1 hb
        simp only [Prod.mk.injEq, TEv.ev.injEq] at he
        obtain ⟨rfl, rfl⟩ := he
        have ha0 := fire_second hst hev
        subst ha0
        exact ⟨tr, by rw [h1, ← ha]; rfl⟩
    · cases c with
      | nil =>
        simp only [List.nil_append] at h2
        rw [List.append_nil] at h1
        subst h1
        cases hs with
        | pass d hd => simp at h2
        | set j v => simp at h2
        | reset j => simp at h2
        | dur j v => simp at h2
        | mach x m' ev hst hpoll hex =>
          obtain ⟨e, r, hev, he, hrr⟩ := List.map_eq_cons_iff.1 h2.symm
          simp only [Prod.mk.injEq, TEv.ev.injEq] at he
          obtain ⟨rfl, rfl⟩ := he
          have := fire_second (a := []) hst hev
          simp at this
      | cons y c =>
        simp only [List.cons_append, List.cons.injEq] at h2
        obtain ⟨rfl, h2⟩ := h2
        exact ih t1 c t o m h1

theorem clock_timeout (o : Nat) (tr : List (Int × TEv K)) : (clock o tr).2 = timeoutOf o tr := by
  unfold clock timeoutOf
  have : ∀ (tr : List (Int × TEv K)) (c : Option Int × K), (tr.foldl (clockStep o) c).2 =
      tr.foldl (fun v x => match x.2 with | .set j w => if j = o then w else v | _ => v) c.2 := by
    intro tr
    induction tr with
    | nil => intro c; rfl
    | cons x tr ih =>
      intro c
      rw [List.foldl_cons, List.foldl_cons, ih]
      congr 1
      obtain ⟨t, e⟩ := x
      cases e with
      | ev e => cases e <;> simp only [clockStep] <;> split <;> rfl
      | set j v => simp only [clockStep]; split <;> rfl
      | reset j => simp only [clockStep]; split <;> rfl
      | dur j v => rfl
  exact this tr (none, 0)

theorem clockStep_starts {o : Nat} {c : Option Int × K} {x : Int × TEv K} (h : Starts o x.2) : (clockStep o c x).1 = some x.1 := by
  obtain ⟨t, e⟩ := x
  cases e with
  | ev e => cases e <;> simp_all [Starts, clockStep]
  | set j v => simp [Starts] at h
  | reset j => simp_all [Starts, clockStep]
  | dur j v => simp [Starts] at h

theorem clockStep_other {o : Nat} {c : Option Int × K} {x : Int × TEv K} (h : ¬ Starts o x.2) (t0 : Int) (hc : c.1 = some t0) : (clockStep o c x).1 = some t0 := by
  obtain ⟨t, e⟩ := x
  cases e with
  | ev e => cases e <;> simp_all [Starts, clockStep]
  | set j v => simp only [clockStep]; split <;> simp [hc]
  | reset j => simp_all [Starts, clockStep]
  | dur j v => simpa [clockStep] using hc

theorem foldl_other {o : Nat} (l : List (Int × TEv K)) (h : ∀ x ∈ l, ¬ Starts o x.2) : ∀ (c : Option Int × K) (t0 : Int), c.1 = some t0 → (l.foldl (clockStep o) c).1 = some t0 := by
  induction l with
  | nil => intro c t0 hc; exact hc
  | cons x l ih => intro c t0 hc; exact ih (fun y hy => h y (by simp [hy])) _ _ (clockStep_other (h x (by simp)) t0 hc)

theorem clock_last {o : Nat} {t1 t2 : List (Int × TEv K)} {t0 : Int} {e : TEv K} (he : Starts o e) (h2 : ∀ x ∈ t2, ¬ Starts o x.2) : (clock o (t1 ++ (t0, e) :: t2)).1 = some t0 := by
  rw [clock_append, List.foldl_cons]
  exact foldl_other t2 h2 _ _ (clockStep_starts (x := (t0, e)) he)

theorem exists_last (o : Nat) (l : List (Int × TEv K)) : ∀ y ∈ l, Starts o y.2 → ∃ t1 t0 e t2, l = t1 ++ (t0, e) :: t2 ∧ Starts o e ∧ (∀ x ∈ t2, ¬ Starts o x.2) ∧ (l.Pairwise (fun x y => x.1 ≤ y.1) → y.1 ≤ t0) := by
  induction l with
  | nil => intro y hy; simp at hy
  | cons a l ih =>
    intro y hy hs
    by_cases hl : ∃ z ∈ l, Starts o z.2
    · obtain ⟨z, hz, hsz⟩ := hl
      obtain ⟨t1, t0, e, t2, h1, h2, h3, h4⟩ := ih z hz hsz
      refine ⟨a :: t1, t0, e, t2, by rw [h1]; rfl, h2, h3, ?_⟩
      intro hp
      rw [List.pairwise_cons] at hp
      rcases List.mem_cons.1 hy with rfl | hy
      · exact hp.1 (t0, e) (by rw [h1]; simp)
      · obtain ⟨t1', t0', e', t2', h1', h2', h3', h4'⟩ := ih y hy hs
        have hc1 := clock_last (t1 := t1) (t0 := t0) h2 h3
        have hc2 := clock_last (t1 := t1') (t0 := t0') h2' h3'
        rw [← h1] at hc1
        rw [← h1', hc1] at hc2
        simp only [Option.some.injEq] at hc2
        rw [hc2]
        exact h4' hp.2
    · refine ⟨[], a.1, a.2, l, rfl, ?_, fun x hx hsx => hl ⟨x, hx, hsx⟩, ?_⟩
      · rcases List.mem_cons.1 hy with rfl | hy
        · exact hs
        · exact absurd ⟨y, hy, hs⟩ hl
      · intro _
        rcases List.mem_cons.1 hy with rfl | hy
        · exact le_refl _
        · exact absurd ⟨y, hy, hs⟩ hl

theorem poll_clock {W : Nat → Bool} {P : Prog} {t1 t2 : List (Int × TEv K)} {t : Int} {o : Nat} {m : Mon} {b : Bool} {s : T K}
    (h : TReach W P (t1 ++ (t, .ev (.poll o m b)) :: t2) s) (hm : Mon.timeout m = true) : b = true ↔
      (clock o t1).2 ≠ 0 ∧ ∃ t0, (clock o t1).1 = some t0 ∧ ((Int.tdiv (t - t0) 1000000 : Int) : K) > (clock o t1).2 * 1000 := by
  obtain ⟨s0, h0, -, hb, -⟩ := poll_split h t1 t2 t o m b rfl
  rw [hb hm, validate_view, (tinv h0).clk]

/-! ### The property theorems -/

/-- C262.  In every timed history of the thread, for every check of the timeout monitor of a sequence `o` which was last started, restarted or reset at `t0`: the timeout is found to have expired
iff one is set and more than the timeout, in whole milliseconds, has elapsed since `t0`. -/
theorem timeout_iff (W : Nat → Bool) (P : Prog) (t1 t2 t3 : List (Int × TEv K)) (t0 t : Int) (e : TEv K) (o : Nat) (m : Mon) (b : Bool) (s : T K)
    (h : TReach W P (t1 ++ (t0, e) :: t2 ++ (t, .ev (.poll o m b)) :: t3) s) (hm : Mon.timeout m = true) (he : Starts o e) (h2 : ∀ x ∈ t2, ¬ Starts o x.2) :
    b = true ↔ timeoutOf o (t1 ++ (t0, e) :: t2) ≠ 0 ∧ ((Int.tdiv (t - t0) 1000000 : Int) : K) > timeoutOf o (t1 ++ (t0, e) :: t2) * 1000 := by
  rw [poll_clock h hm, clock_last he h2, clock_timeout]
  simp

/-- C262.  In every timed history of the thread: when the timeout monitor of `o` fires, a timeout is set, and it has elapsed since every start, restart and reset of `o` so far. -/
theorem timeout_fires_late (W : Nat → Bool) (P : Prog) (t1 t2 : List (Int × TEv K)) (t : Int) (o : Nat) (m : Mon) (s : T K)
    (h : TReach W P (t1 ++ (t, .ev (.fire o m)) :: t2) s) (hm : Mon.timeout m = true) :
    timeoutOf o t1 ≠ 0 ∧ ∀ x ∈ t1, Starts o x.2 → ((t - x.1 : Int) : K) > timeoutOf o t1 * 1000000000 := by
  obtain ⟨t1', rfl⟩ := fire_split h t1 t2 t o m rfl
  have h' := h
  rw [List.append_assoc] at h'
  have hp := (poll_clock h' hm).1 rfl
  have htm : timeoutOf o (t1' ++ [(t, .ev (.poll o m true))]) = timeoutOf o t1' := by simp [timeoutOf]
  rw [htm]
  rw [clock_timeout] at hp
  obtain ⟨hv, t0, hc, hgt⟩ := hp
  refine ⟨hv, ?_⟩
  intro x hx hs
  have hx' : x ∈ t1' := by
    rcases List.mem_append.1 hx with hx | hx
    · exact hx
    · simp only [List.mem_singleton] at hx
      subst hx
      simp [Starts] at hs
  have hsorted := (tinv h').sorted
  have hso : t1'.Pairwise (fun x y => x.1 ≤ y.1) := (List.pairwise_append.1 hsorted).1
  obtain ⟨u1, u0, e, u2, h1, h2, h3, h4⟩ := exists_last o t1' x hx' hs
  have hu := clock_last (t1 := u1) (t0 := u0) h2 h3
  rw [← h1, hc] at hu
  simp only [Option.some.injEq] at hu
  have hle : x.1 ≤ t0 := by rw [hu]; exact h4 hso
  have ht0 : t0 ≤ t := by
    rw [hu]
    exact (List.pairwise_append.1 hsorted).2.2 (u0, e) (by rw [h1]; simp) (t, .ev (.poll o m true)) (by simp)
  have hd : Int.tdiv (t - t0) 1000000 * 1000000 ≤ t - t0 := by
    rw [Int.tdiv_eq_ediv_of_nonneg (by omega)]
    exact Int.ediv_mul_le _ (by decide)
  have hd' : ((Int.tdiv (t - t0) 1000000 : Int) : K) * 1000000 ≤ ((t - t0 : Int) : K) := by exact_mod_cast hd
  have hx0 : ((t - t0 : Int) : K) ≤ ((t - x.1 : Int) : K) := by
    have : t - t0 ≤ t - x.1 := by omega
    exact_mod_cast this
  have h5 : timeoutOf o t1' * 1000 * 1000000 < ((Int.tdiv (t - t0) 1000000 : Int) : K) * 1000000 := mul_lt_mul_of_pos_right hgt (by norm_num)
  calc timeoutOf o t1' * 1000000000 = timeoutOf o t1' * 1000 * 1000000 := by ring
    _ < _ := h5
    _ ≤ _ := hd'
    _ ≤ _ := hx0

/-- C263.  Violated for timeouts with behavior resume, in every timed history of the thread: once the timeout monitor of `o` has fired, every later check finds the timeout expired, until the timeout is reset
(by hand, or because the sequence is started or restarted) or set anew. -/
theorem timeout_stays (W : Nat → Bool) (P : Prog) (t1 t2 t3 : List (Int × TEv K)) (t0 t : Int) (o : Nat) (m m' : Mon) (b : Bool) (s : T K)
    (h : TReach W P (t1 ++ (t0, .ev (.fire o m)) :: t2 ++ (t, .ev (.poll o m' b)) :: t3) s) (hm : Mon.timeout m = true) (hm' : Mon.timeout m' = true)
    (h2 : ∀ x ∈ t2, ¬ Starts o x.2) (hset : ∀ u v, (u, TEv.set o v) ∉ t2) : b = true := by
  have hf : TReach W P (t1 ++ (t0, .ev (.fire o m)) :: (t2 ++ (t, .ev (.poll o m' b)) :: t3)) s := by
    rw [List.append_assoc, List.cons_append] at h; exact h
  obtain ⟨t1', rfl⟩ := fire_split hf t1 _ t0 o m rfl
  have hp : TReach W P (t1' ++ (t0, .ev (.poll o m true)) :: ((t0, .ev (.fire o m)) :: (t2 ++ (t, .ev (.poll o m' b)) :: t3))) s := by
    rw [List.append_assoc] at hf; exact hf
  obtain ⟨hv, u, hc, hgt⟩ := (poll_clock hp hm).1 rfl
  rw [poll_clock h hm']
  have htm : timeoutOf o (t1' ++ [(t0, .ev (.poll o m true))] ++ (t0, .ev (.fire o m)) :: t2) = timeoutOf o t1' := by
    have : ∀ (l : List (Int × TEv K)), (∀ u v, (u, TEv.set o v) ∉ l) → ∀ v0 : K, l.foldl (fun v x => match x.2 with | .set j w => if j = o then w else v | _ => v) v0 = v0 := by
      intro l
      induction l with
      | nil => intro _ v0; rfl
      | cons x l ih =>
        intro hl v0
        rw [List.foldl_cons, ih (fun u v hu => hl u v (by simp [hu]))]
        obtain ⟨u, e⟩ := x
        cases e with
        | set j w =>
          have : j ≠ o := by rintro rfl; exact hl u w (by simp)
          simp [this]
        | _ => rfl
    simp only [timeoutOf, List.foldl_append, List.foldl_cons, List.foldl_nil]
    exact this t2 hset _
  have hcl : (clock o (t1' ++ [(t0, .ev (.poll o m true))] ++ (t0, .ev (.fire o m)) :: t2)).1 = some u := by
    rw [List.append_assoc, clock_append]
    refine foldl_other _ ?_ _ _ hc
    intro x hx
    simp only [List.mem_append, List.mem_cons, List.not_mem_nil, or_false] at hx
    rcases hx with rfl | rfl | hx
    · simp [Starts]
    · simp [Starts]
    · exact h2 x hx
  rw [hcl, clock_timeout, htm]
  rw [clock_timeout] at hv hgt
  refine ⟨hv, u, rfl, lt_of_lt_of_le hgt ?_⟩
  have hle : t0 ≤ t := by
    have hsorted := (tinv h).sorted
    exact (List.pairwise_append.1 hsorted).2.2 (t0, .ev (.fire o m)) (by simp) (t, .ev (.poll o m' b)) (by simp)
  have hmono : Int.tdiv (t0 - u) 1000000 ≤ Int.tdiv (t - u) 1000000 := Int.tdiv_le_tdiv (by decide) (by omega)
  exact_mod_cast hmono

/-- With monitors of behavior resume only, `monitorFired` is set only during an exception. -/
theorem resume_fired {P : Prog} {o : Nat} (hres : ∀ m ∈ P.mons o, m.beh = .resume) {tr : List Ev} {s : M} (h : Reach P tr s) : s.fired o = true → s.inExc o = true := by
  have key : PInv tr s ∧ EInv P tr s ∧ (s.fired o = true → s.inExc o = true) := by
    refine reach_inv (fun tr s => PInv tr s ∧ EInv P tr s ∧ (s.fired o = true → s.inExc o = true)) ⟨pinv_init, einv_init P, by simp [init]⟩ ?_ h
    rintro tr s s' ev ⟨hp, he, hq⟩ hm
    refine ⟨pinv_micro P tr s s' ev hp hm, einv_micro P tr s s' ev hp he hm, ?_⟩
    cases hm with
    | idle i r fs hf hs =>
      simp only [upd]
      split
      · simp
      · exact hq
    | restart i r fs hf hs =>
      simp only [upd]
      split
      · simp
      · exact hq
    | after k o' m fs hf =>
      have hmm : m ∈ P.mons o' := by
        have := he.shape (.exc k o' m) (by rw [hf]; simp)
        exact this.2.2.2
      by_cases ho : o = o'
      · subst ho
        simp [afterExc, hres m hmm, upd]
      · intro hfi
        have h1 : s.fired o = true := by
          cases hb : m.beh <;> simpa [afterExc, hb, upd, ho] using hfi
        have h2 := hq h1
        cases hb : m.beh <;> simpa [afterExc, hb, upd, ho] using h2
    | fire k fs o' os m ms hf ho hms hfi =>
      simp only [upd]
      split
      · simp
      · exact hq
    | finish k fs hf ho =>
      have h1 : (finish P s k fs).fired = s.fired ∧ (finish P s k fs).inExc = s.inExc := by
        rcases finish_cases P s k fs with h | ⟨f, -, -, h1, -, h2, -⟩
        · rw [h]; exact ⟨rfl, rfl⟩
        · exact ⟨h1, h2⟩
      rw [h1.1, h1.2]; exact hq
    | _ => exact hq
  exact key.2.2

/-- C263.  Violated, in every timed history of the thread: if all monitors of `o` have the behavior resume, then after its timeout monitor has fired it fires again at each of its checks, with its exception sequence
started each time, until the timeout is reset or set anew. -/
theorem timeout_fires_again_violated (W : Nat → Bool) (P : Prog) (t1 t2 t3 : List (Int × TEv K)) (t0 t : Int) (o : Nat) (m m' : Mon) (b : Bool) (s : T K)
    (h : TReach W P (t1 ++ (t0, .ev (.fire o m)) :: t2 ++ (t, .ev (.poll o m' b)) :: t3) s) (hm : Mon.timeout m = true) (hm' : Mon.timeout m' = true)
    (hres : ∀ x ∈ P.mons o, x.beh = .resume) (h2 : ∀ x ∈ t2, ¬ Starts o x.2) (hset : ∀ u v, (u, TEv.set o v) ∉ t2) : ∃ t4, t3 = (t, .ev (.fire o m')) :: t4 := by
  have hb := timeout_stays W P t1 t2 t3 t0 t o m m' b s h hm hm' h2 hset
  subst hb
  obtain ⟨s0, h0, -, -, x, m1, ev, hst, ev', hev, u, hu⟩ := poll_split h _ t3 t o m' true rfl
  have hr := treach_reach h0
  rcases step_micro P s0.m m1 x ev hst with hmi | ⟨s1, o1, m2, ev2, -, -, he⟩
  · rw [hev] at hmi
    have hE := reach_einv hr
    cases hmi with
    | pollFired k fs o os m ms hf ho hms hfi =>
      have := hE.top k fs _ os _ hf ho hms
      rw [resume_fired hres hr hfi] at this
      simp at this
    | fire k fs o os m ms hf ho hms hfi => exact ⟨u, hu⟩
  · rw [hev] at he
    simp only [List.cons.injEq, Ev.poll.injEq, and_true] at he
    obtain ⟨⟨rfl, rfl⟩, rfl⟩ := he
    exact ⟨ev2.map (fun e => (t, TEv.ev e)) ++ u, by rw [hu]; rfl⟩

/-- C263 (partial).  In every timed history of the thread: between two firings of the timeout of `o` more than the timeout has passed if it was started anew in between, and with a behavior other than resume
the sequence was called or restarted in between.  Missing: a timeout with behavior resume which nobody resets, for which the claim is false (`timeout_fires_again_violated`). -/
theorem timeout_once_partial (W : Nat → Bool) (P : Prog) (t1 t2 t3 : List (Int × TEv K)) (t t' : Int) (o : Nat) (m m' : Mon) (s : T K)
    (h : TReach W P (t1 ++ (t, .ev (.fire o m)) :: t2 ++ (t', .ev (.fire o m')) :: t3) s) (hm' : Mon.timeout m' = true) :
    ((∃ x ∈ t2, Starts o x.2) → ((t' - t : Int) : K) > timeoutOf o (t1 ++ (t, .ev (.fire o m)) :: t2) * 1000000000) ∧
    (m.beh ≠ .resume → ∃ x ∈ t2, x.2 = .ev (.call o) ∨ x.2 = .ev (.restart o)) := by
  constructor
  · rintro ⟨x, hx, hs⟩
    have h1 := (timeout_fires_late W P _ t3 t' o m' s h hm').2 x (by simp [hx]) hs
    refine lt_of_lt_of_le h1 ?_
    have hsorted := (List.pairwise_append.1 (tinv h).sorted).1
    have hle := (List.pairwise_cons.1 (List.pairwise_append.1 hsorted).2.1).1 x hx
    have : t' - x.1 ≤ t' - t := by simp only at hle; omega
    exact_mod_cast this
  · intro hb
    have hr := treach_reach h
    rw [machine_append, machine_append] at hr
    have hc : ∀ (u : Int) (e : Ev) (l : List (Int × TEv K)), machine ((u, .ev e) :: l) = e :: machine l := fun _ _ _ => rfl
    rw [hc, hc] at hr
    have hmem : ∀ e, e ∈ machine t2 → ∃ x ∈ t2, x.2 = .ev e := by
      intro e he
      obtain ⟨x, hx, hxe⟩ := List.mem_filterMap.1 he
      obtain ⟨u, y⟩ := x
      cases y with
      | ev y => simp only [Option.some.injEq] at hxe; exact ⟨_, hx, by rw [hxe]⟩
      | set j v => simp at hxe
      | reset j => simp at hxe
      | dur j v => simp at hxe
    rcases exception_once P _ _ _ _ o m m' hb hr with he | he
    · obtain ⟨x, hx, hxe⟩ := hmem _ he; exact ⟨x, hx, Or.inl hxe⟩
    · obtain ⟨x, hx, hxe⟩ := hmem _ he; exact ⟨x, hx, Or.inr hxe⟩

/-! ### Wait steps -/

/-- Frames between the action of `i` and the top of the stack while no condition of a monitor is true. -/
def Quiet : Frame → Prop
  | .check k => k.act = none
  | .exc _ _ _ => False
  | _ => True

def OwnQuiet : Frame → Prop
  | .check k => k.act = none ∧ k.cont = .run
  | .exc _ _ _ => False
  | _ => True

structure Live (i : Nat) (s : M) (g : List Frame) (x : Frame) (fs : List Frame) : Prop where
  frames : s.frames = g ++ x :: fs
  own : x.id = i
  others : ∀ f ∈ g, f.id ≠ i ∧ Quiet f
  quiet : OwnQuiet x
  st : s.st i = .running

/-- The action of `i` was entered and no monitor condition was true since: `i` is running. -/
def Running (i : Nat) (s : M) : Prop := ∃ g x fs, Live i s g x fs

def Done (i : Nat) (s : M) : Prop := ∃ r fs, s.frames = .loop i r :: fs ∧ s.st i = .terminated

theorem upd_keeps {st : Nat → SState} {i j : Nat} {v w : SState} (h : i ≠ j) (hi : st i = w) : upd st j v i = w := by rw [upd_other _ _ _ _ h]; exact hi

theorem running_micro {P : Prog} {i : Nat} {s s' : M} {ev : List Ev} (h : Running i s) (hm : Micro P s s' ev) (hp : ∀ o m, .poll o m true ∉ ev)
    (hx : ∀ r fs, s.frames ≠ .exit i r :: fs) : Running i s' := by
  obtain ⟨g, x, fs, hL⟩ := h
  obtain ⟨hfr, hown, hoth, hq, hst⟩ := hL
  -- replace the top frame
  have repl : ∀ (f0 f1 : Frame) (rest : List Frame) (st' : Nat → SState), s.frames = f0 :: rest → f1.id = f0.id → (Quiet f0 → Quiet f1) → (OwnQuiet f0 → s.st f0.id = .running → OwnQuiet f1) →
      (f0.id ≠ i → st' i = .running) → (f0.id = i → st' i = .running) → ∀ s'' : M, s''.frames = f1 :: rest → s''.st = st' → Running i s'' := by
    intro f0 f1 rest st' h0 hid hqu hou h1 h2 s'' hs1 hs2
    cases g with
    | nil =>
      simp only [List.nil_append, h0, List.cons.injEq] at hfr
      obtain ⟨rfl, rfl⟩ := hfr
      exact ⟨[], f1, rest, ⟨by rw [hs1]; rfl, by rw [hid]; exact hown, by simp, hou hq (by rw [hown]; exact hst), by rw [hs2]; exact h2 hown⟩⟩
    | cons y g =>
      simp only [List.cons_append, h0, List.cons.injEq] at hfr
      obtain ⟨rfl, rfl⟩ := hfr
      have hy := hoth f0 (by simp)
      refine ⟨f1 :: g, x, fs, ⟨by rw [hs1]; rfl, hown, ?_, hq, by rw [hs2]; exact h1 hy.1⟩⟩
      intro f hf
      rcases List.mem_cons.1 hf with rfl | hf
      · exact ⟨by rw [hid]; exact hy.1, hqu hy.2⟩
      · exact hoth f (by simp [hf])
  -- the top frame belongs to another sequence if its state is not running
  have other : ∀ (f0 : Frame) (rest : List Frame), s.frames = f0 :: rest → s.st f0.id ≠ .running → f0.id ≠ i := by
    intro f0 rest _ hne heq
    rw [heq] at hne; exact hne hst
  have noexc : ∀ k o m rest, s.frames ≠ .exc k o m :: rest := by
    intro k o m rest h0
    cases g with
    | nil =>
      simp only [List.nil_append, h0, List.cons.injEq] at hfr
      obtain ⟨rfl, -⟩ := hfr
      exact hq
    | cons y g =>
      simp only [List.cons_append, h0, List.cons.injEq] at hfr
      obtain ⟨rfl, -⟩ := hfr
      exact (hoth _ (List.mem_cons_self ..)).2
  cases hm with
  | call j hc hj =>
    refine ⟨.loop j (-1) :: g, x, fs, ⟨by simp [hfr], hown, ?_, hq, hst⟩⟩
    intro f hf
    rcases List.mem_cons.1 hf with rfl | hf
    · refine ⟨?_, trivial⟩
      show j ≠ i
      rintro rfl
      apply hj
      rw [hfr]
      simp [hown]
    · exact hoth f hf
  | dead => exact ⟨g, x, fs, ⟨hfr, hown, hoth, hq, hst⟩⟩
  | spawn j => exact ⟨g, x, fs, ⟨hfr, hown, hoth, hq, hst⟩⟩
  | leave j rest v hf => exact repl _ (.loop j v) rest s.st hf rfl (fun _ => trivial) (fun _ _ => trivial) (fun _ => hst) (fun _ => hst) _ rfl rfl
  | idle j r rest hf hs =>
    exact repl _ (.check (newCheck P j r .idle)) rest s.st hf rfl (fun _ => rfl) (fun _ hr => absurd hr (by show s.st j ≠ _; rw [hs]; decide)) (fun _ => hst) (fun _ => hst) _ rfl rfl
  | enter j r rest hf hs =>
    have hne := other _ _ hf (by show s.st j ≠ _; rw [hs]; decide)
    exact repl _ (.body j) rest _ hf rfl (fun _ => trivial) (fun _ _ => trivial) (fun h => upd_keeps (fun h' => h h'.symm) hst) (fun h => absurd h hne) _ rfl rfl
  | refuse j r rest hf hs =>
    have hne := other _ _ hf (by show s.st j ≠ _; rw [hs]; decide)
    exact repl _ (.loop j r) rest _ hf rfl (fun _ => trivial) (fun _ _ => trivial) (fun h => upd_keeps (fun h' => h h'.symm) hst) (fun h => absurd h hne) _ hf rfl
  | run j r rest hf hs =>
    exact repl _ (.check (newCheck P j r .run)) rest s.st hf rfl (fun _ => rfl) (fun _ _ => ⟨rfl, rfl⟩) (fun _ => hst) (fun _ => hst) _ rfl rfl
  | abort j r rest hf hs =>
    have hne := other _ _ hf (by show s.st j ≠ _; rw [hs]; decide)
    exact repl _ (.loop j r) rest _ hf rfl (fun _ => trivial) (fun _ _ => trivial) (fun h => upd_keeps (fun h' => h h'.symm) hst) (fun h => absurd h hne) _ hf rfl
  | restart j r rest hf hs =>
    have hne := other _ _ hf (by show s.st j ≠ _; rw [hs]; decide)
    exact repl _ (.loop j r) rest _ hf rfl (fun _ => trivial) (fun _ _ => trivial) (fun h => upd_keeps (fun h' => h h'.symm) hst) (fun h => absurd h hne) _ hf rfl
  | ret j r rest hf hs =>
    have hne := other _ _ hf (by show s.st j ≠ _; rw [hs]; decide)
    cases g with
    | nil =>
      simp only [List.nil_append, hf, List.cons.injEq] at hfr
      obtain ⟨rfl, -⟩ := hfr
      exact absurd hown hne
    | cons y g =>
      simp only [List.cons_append, hf, List.cons.injEq] at hfr
      obtain ⟨rfl, rfl⟩ := hfr
      exact ⟨g, x, fs, ⟨rfl, hown, fun f hf' => hoth f (by simp [hf']), hq, upd_keeps (fun h' => hne h'.symm) hst⟩⟩
  | exitTrue j r rest hf =>
    have hne : j ≠ i := by rintro rfl; exact hx r rest hf
    exact repl _ (.loop j r) rest _ hf rfl (fun _ => trivial) (fun _ _ => trivial) (fun h => upd_keeps (fun h' => h h'.symm) hst) (fun h => absurd h hne) _ rfl rfl
  | exitFalse j r rest hf => exact repl _ (.loop j r) rest s.st hf rfl (fun _ => trivial) (fun _ _ => trivial) (fun _ => hst) (fun _ => hst) _ rfl rfl
  | after k o m rest hf => exact absurd hf (noexc k o m rest)
  | skip k rest o os hf ho hms hi => exact repl _ (.check { k with os := os }) rest s.st hf rfl (fun h => h) (fun h _ => h) (fun _ => hst) (fun _ => hst) _ rfl rfl
  | opn k rest o os hf ho hms hi => exact repl _ (.check { k with ms := some (P.mons o) }) rest s.st hf rfl (fun h => h) (fun h _ => h) (fun _ => hst) (fun _ => hst) _ rfl rfl
  | next k rest o os hf ho hms => exact repl _ (.check { k with os := os, ms := none }) rest s.st hf rfl (fun h => h) (fun h _ => h) (fun _ => hst) (fun _ => hst) _ rfl rfl
  | pollFalse k rest o os m ms hf ho hms => exact repl _ (.check { k with ms := some ms }) rest s.st hf rfl (fun h => h) (fun h _ => h) (fun _ => hst) (fun _ => hst) _ rfl rfl
  | pollFired k rest o os m ms hf ho hms hfi => exact absurd (by simp) (hp o m)
  | fire k rest o os m ms hf ho hms hfi => exact absurd (by simp) (hp o m)
  | finish k rest hf ho =>
    cases g with
    | nil =>
      simp only [List.nil_append, hf, List.cons.injEq] at hfr
      obtain ⟨rfl, rfl⟩ := hfr
      obtain ⟨ha, hc⟩ := hq
      have hown' : k.i = i := hown
      refine ⟨[], .exit k.i k.ret, rest, ⟨?_, hown, by simp, trivial, ?_⟩⟩
      · simp [finish, ha, hc, hown', hst]
      · simp [finish, ha, hc, hst]
    | cons y g =>
      simp only [List.cons_append, hf, List.cons.injEq] at hfr
      obtain ⟨rfl, rfl⟩ := hfr
      have hy := hoth _ (List.mem_cons_self ..)
      have ha : k.act = none := hy.2
      have hne : k.i ≠ i := hy.1
      have hg : ∀ f ∈ g, f.id ≠ i ∧ Quiet f := fun f hf' => hoth f (by simp [hf'])
      cases hc : k.cont with
      | idle =>
        refine ⟨.loop k.i k.ret :: g, x, fs, ⟨by simp [finish, ha, hc], hown, ?_, hq, ?_⟩⟩
        · intro f hf'
          rcases List.mem_cons.1 hf' with rfl | hf'
          · exact ⟨hne, trivial⟩
          · exact hg f hf'
        · simp only [finish, ha, hc]
          split
          · exact hst
          · exact upd_keeps (fun h' => hne h'.symm) hst
      | run =>
        refine ⟨(if s.st k.i = .restarting then .loop k.i k.ret else .exit k.i k.ret) :: g, x, fs, ⟨by simp [finish, ha, hc], hown, ?_, hq, by simp [finish, ha, hc, hst]⟩⟩
        intro f hf'
        rcases List.mem_cons.1 hf' with rfl | hf'
        · split <;> exact ⟨hne, trivial⟩
        · exact hg f hf'

theorem step_exit {P : Prog} {s s' : M} {x : Inp} {ev : List Ev} {i r fs} (h : step P s x = some (s', ev)) (hf : s.frames = .exit i r :: fs) :
    ∃ b, x = .exitc b ∧ ev = [] ∧ s'.frames = .loop i r :: fs ∧ s'.st = if b then upd s.st i .terminated else s.st := by
  unfold step at h
  split at h
  · cases h
  rw [hf] at h
  cases x with
  | exitc b =>
    simp only [Option.some.injEq, Prod.mk.injEq] at h
    obtain ⟨rfl, rfl⟩ := h
    exact ⟨b, rfl, rfl, rfl, rfl⟩
  | _ => simp at h

theorem step_done {P : Prog} {i : Nat} {s s' : M} {x : Inp} {ev : List Ev} (h : step P s x = some (s', ev)) (hd : Done i s) : ∃ r, ev = [.ret i r] := by
  obtain ⟨r, fs, hf, hs⟩ := hd
  unfold step at h
  split at h
  · cases h
  rw [hf] at h
  simp only [hs] at h
  cases x <;> simp_all
  exact ⟨r, h.2.symm⟩

theorem step_running {P : Prog} {i : Nat} {s s' : M} {x : Inp} {ev : List Ev} (h : step P s x = some (s', ev)) (hr : Running i s) (hp : ∀ o m, .poll o m true ∉ ev)
    (hx : ∀ r fs, s.frames ≠ .exit i r :: fs) : Running i s' := by
  rcases step_micro P s s' x ev h with h1 | ⟨s1, o, m, ev2, -, -, rfl⟩
  · exact running_micro hr h1 hp hx
  · exact absurd (by simp) (hp o m)

/-- The waiting time of `i` set last. -/
def durOf (i : Nat) (tr : List (Int × TEv K)) : K := tr.foldl (fun v x => match x.2 with | .dur j w => if j = i then w else v | _ => v) 0

theorem note_dur (ev : List Ev) : ∀ s : T K, (ev.foldl T.note s).dur = s.dur := by
  induction ev with
  | nil => intro s; rfl
  | cons e ev ih =>
    intro s
    rw [List.foldl_cons, ih]
    cases e <;> simp only [T.note]
    split <;> rfl

theorem note_since (i : Nat) (ev : List Ev) (h : .enter i ∉ ev) : ∀ s : T K, (ev.foldl T.note s).since i = s.since i := by
  induction ev with
  | nil => intro s; rfl
  | cons e ev ih =>
    intro s
    rw [List.foldl_cons, ih (fun h' => h (by simp [h']))]
    cases e with
    | enter j =>
      have : i ≠ j := by rintro rfl; exact h (by simp)
      simp [T.note, upd, this]
    | poll o m b => simp only [T.note]; split <;> rfl
    | _ => rfl

theorem dur_reach {W : Nat → Bool} {P : Prog} {tr : List (Int × TEv K)} {s : T K} (h : TReach W P tr s) (i : Nat) : s.dur i = durOf i tr := by
  induction h with
  | init => rfl
  | step tr s new s' _ hs ih =>
    unfold durOf at ih ⊢
    rw [List.foldl_append, ← ih]
    cases hs with
    | pass d hd => rfl
    | set j v => rfl
    | reset j => rfl
    | dur j v =>
      simp only [List.foldl_cons, List.foldl_nil, upd]
      by_cases h : j = i
      · subst h; simp
      · have : i ≠ j := fun h' => h h'.symm
        simp [h, this]
    | mach x m' ev _ _ _ =>
      show (ev.foldl T.note s).dur i = _
      rw [note_dur]
      have : ∀ (l : List Ev) (v0 : K), (l.map fun e => ((s.now, TEv.ev e) : Int × TEv K)).foldl (fun v x => match x.2 with | .dur j w => if j = i then w else v | _ => v) v0 = v0 := by
        intro l
        induction l with
        | nil => intro v0; rfl
        | cons e l ih => intro v0; exact ih v0
      rw [this]

/-- Nothing in the record which would shorten the waiting of `i`: no condition of a monitor was true, `i` did not return or begin anew, its waiting time was not changed. -/
def Undisturbed (i : Nat) (l : List (Int × TEv K)) : Prop :=
  ∀ x ∈ l, (∀ o m, x.2 ≠ .ev (.poll o m true)) ∧ (∀ v, x.2 ≠ .ev (.ret i v)) ∧ x.2 ≠ .ev (.enter i) ∧ ∀ v, x.2 ≠ .dur i v

/-- While waiting. -/
def Waits (i : Nat) (t0 : Int) (s : T K) : Prop :=
  s.since i = t0 ∧ (Running i s.m ∨ (Done i s.m ∧ ((s.now - t0 : Int) : K) > s.dur i * 1000000000))

theorem enter_only {P : Prog} {s s' : M} {x : Inp} {ev a b : List Ev} {i} (h : step P s x = some (s', ev)) (he : ev = a ++ .enter i :: b) : a = [] ∧ b = [] ∧ Running i s' := by
  subst he
  rcases step_micro P s s' x _ h with h1 | ⟨s1, o, m, ev2, h1, h2, he⟩
  · generalize hl : a ++ Ev.enter i :: b = l at h1
    cases h1 with
    | enter j r fs hf hs =>
      cases a with
      | nil =>
        simp only [List.nil_append, List.cons.injEq, Ev.enter.injEq] at hl
        obtain ⟨rfl, rfl⟩ := hl
        exact ⟨rfl, rfl, [], .body i, fs, ⟨rfl, rfl, by simp, trivial, by simp [upd]⟩⟩
      | cons y a => simp at hl
    | _ =>
      have hmem : Ev.enter i ∈ a ++ Ev.enter i :: b := by simp
      rw [hl] at hmem
      simp at hmem
  · have hmem : Ev.enter i ∈ a ++ Ev.enter i :: b := by simp
    rw [he] at hmem
    have h3 : Ev.enter i ∈ ev2 := by simpa using hmem
    cases h1
    cases h2 <;> simp_all

theorem waits {W : Nat → Bool} {P : Prog} {i : Nat} (hW : W i = true) {tr : List (Int × TEv K)} {s : T K} (h : TReach W P tr s) : ∀ (t1 t2 : List (Int × TEv K)) (t0 : Int),
    tr = t1 ++ (t0, .ev (.enter i)) :: t2 → Undisturbed i t2 → Waits i t0 s := by
  induction h with
  | init => intro t1 t2 t0 h; simp at h
  | step tr s new s' hr hs ih =>
    -- the step after the entry
    have later : ∀ t0, Waits i t0 s → Undisturbed i new → Waits i t0 s' := by
      intro t0 hw hu
      obtain ⟨h1, h2⟩ := hw
      cases hs with
      | pass d hd =>
        refine ⟨h1, ?_⟩
        rcases h2 with h2 | ⟨h2, h3⟩
        · exact Or.inl h2
        · refine Or.inr ⟨h2, lt_of_lt_of_le h3 ?_⟩
          have : s.now - t0 ≤ s.now + d - t0 := by omega
          exact_mod_cast this
      | set j v => exact ⟨h1, h2⟩
      | reset j => exact ⟨h1, h2⟩
      | dur j v =>
        have hne : i ≠ j := by
          rintro rfl
          exact (hu (s.now, .dur i v) (by simp)).2.2.2 v rfl
        refine ⟨h1, ?_⟩
        simpa [upd, hne] using h2
      | mach x m' ev hst hpoll hex =>
        have hen : Ev.enter i ∉ ev := fun he => (hu (s.now, .ev (.enter i)) (List.mem_map_of_mem (f := fun e => ((s.now, TEv.ev e) : Int × TEv K)) he)).2.2.1 rfl
        have hpo : ∀ o m, Ev.poll o m true ∉ ev := fun o m he => (hu (s.now, .ev (.poll o m true)) (List.mem_map_of_mem (f := fun e => ((s.now, TEv.ev e) : Int × TEv K)) he)).1 o m rfl
        have hre : ∀ v, Ev.ret i v ∉ ev := fun v he => (hu (s.now, .ev (.ret i v)) (List.mem_map_of_mem (f := fun e => ((s.now, TEv.ev e) : Int × TEv K)) he)).2.1 v rfl
        refine ⟨by show (ev.foldl T.note s).since i = t0; rw [note_since i ev hen, h1], ?_⟩
        rcases h2 with h2 | ⟨h2, -⟩
        · by_cases hxx : ∃ r fs, s.m.frames = .exit i r :: fs
          · obtain ⟨r, fs, hf⟩ := hxx
            obtain ⟨b, rfl, rfl, hf', hs'⟩ := step_exit hst hf
            have hb := hex i r fs b hf hW rfl
            obtain ⟨g, y, rest, hL⟩ := h2
            cases b with
            | true =>
              right
              refine ⟨⟨r, fs, hf', by show m'.st i = _; rw [hs']; simp [upd]⟩, ?_⟩
              have := of_decide_eq_true hb.symm
              rw [h1] at this
              exact this
            | false =>
              left
              exact ⟨[], .loop i r, fs, ⟨hf', rfl, by simp, trivial, by show m'.st i = _; rw [hs']; exact hL.st⟩⟩
          · exact Or.inl (step_running hst h2 hpo (fun r fs hf => hxx ⟨r, fs, hf⟩))
        · obtain ⟨r, rfl⟩ := step_done hst h2
          exact absurd (by simp) (hre r)
    intro t1 t2 t0 h hu
    rcases List.append_eq_append_iff.1 h with ⟨c, h1, h2⟩ | ⟨c, h1, h2⟩
    · -- the entry is in the new part
      have hmach : ∃ x m' ev, step P s.m x = some (m', ev) ∧ new = ev.map (fun e => ((s.now, TEv.ev e) : Int × TEv K)) ∧ s' = { ev.foldl T.note s with m := m' } := by
        cases hs with
        | pass d hd => simp at h2
        | set j v => cases c <;> simp at h2
        | reset j => cases c <;> simp at h2
        | dur j v => cases c <;> simp at h2
        | mach x m' ev hst hpoll hex => exact ⟨x, m', ev, hst, rfl, rfl⟩
      obtain ⟨x, m', ev, hst, hnew, rfl⟩ := hmach
      rw [hnew] at h2
      obtain ⟨a, b', hev, ha, hb⟩ := List.map_eq_append_iff.1 h2
      obtain ⟨e, r, rfl, he, hrr⟩ := List.map_eq_cons_iff.1 hb
      simp only [Prod.mk.injEq, TEv.ev.injEq] at he
      obtain ⟨rfl, rfl⟩ := he
      obtain ⟨rfl, rfl, hrun⟩ := enter_only hst hev
      subst hev
      exact ⟨by simp [T.note, upd], Or.inl hrun⟩
    · cases c with
      | nil =>
        simp only [List.nil_append] at h2
        have hmach : ∃ x m' ev, step P s.m x = some (m', ev) ∧ new = ev.map (fun e => ((s.now, TEv.ev e) : Int × TEv K)) ∧ s' = { ev.foldl T.note s with m := m' } := by
          cases hs with
          | pass d hd => simp at h2
          | set j v => simp at h2
          | reset j => simp at h2
          | dur j v => simp at h2
          | mach x m' ev hst hpoll hex => exact ⟨x, m', ev, hst, rfl, rfl⟩
        obtain ⟨x, m', ev, hst, hnew, rfl⟩ := hmach
        rw [hnew] at h2
        obtain ⟨e, r, hev, he, hrr⟩ := List.map_eq_cons_iff.1 h2.symm
        simp only [Prod.mk.injEq, TEv.ev.injEq] at he
        obtain ⟨rfl, rfl⟩ := he
        obtain ⟨-, rfl, hrun⟩ := enter_only (a := []) hst hev
        subst hev
        exact ⟨by simp [T.note, upd], Or.inl hrun⟩
      | cons y c =>
        simp only [List.cons_append, List.cons.injEq] at h2
        obtain ⟨rfl, rfl⟩ := h2
        exact later t0 (ih t1 c t0 h1 (fun x hx => hu x (by simp [hx]))) (fun x hx => hu x (by simp [hx]))

theorem ret_only {P : Prog} {s s' : M} {x : Inp} {ev a b : List Ev} {i v} (h : step P s x = some (s', ev)) (he : ev = a ++ .ret i v :: b) : a = [] ∧ s.st i = .terminated := by
  subst he
  rcases step_micro P s s' x _ h with h1 | ⟨s1, o, m, ev2, h1, h2, he⟩
  · generalize hl : a ++ Ev.ret i v :: b = l at h1
    cases h1 with
    | ret j r fs hf hs =>
      cases a with
      | nil =>
        simp only [List.nil_append, List.cons.injEq, Ev.ret.injEq] at hl
        obtain ⟨⟨rfl, rfl⟩, rfl⟩ := hl
        exact ⟨rfl, hs⟩
      | cons y a => simp at hl
    | _ =>
      have hmem : Ev.ret i v ∈ a ++ Ev.ret i v :: b := by simp
      rw [hl] at hmem
      simp at hmem
  · have hmem : Ev.ret i v ∈ a ++ Ev.ret i v :: b := by simp
    rw [he] at hmem
    have h3 : Ev.ret i v ∈ ev2 := by simpa using hmem
    cases h1
    cases h2 <;> simp_all

theorem ret_split {W : Nat → Bool} {P : Prog} {tr : List (Int × TEv K)} {s : T K} (h : TReach W P tr s) : ∀ (t1 t2 : List (Int × TEv K)) (t : Int) (i : Nat) (v : Int),
    tr = t1 ++ (t, .ev (.ret i v)) :: t2 → ∃ s0, TReach W P t1 s0 ∧ s0.now = t ∧ s0.m.st i = .terminated := by
  induction h with
  | init => intro t1 t2 t i v h; simp at h
  | step tr s new s' hr hs ih =>
    intro t1 t2 t i v h
    rcases List.append_eq_append_iff.1 h with ⟨c, h1, h2⟩ | ⟨c, h1, h2⟩
    · cases hs with
      | pass d hd => simp at h2
      | set j v => cases c <;> simp at h2
      | reset j => cases c <;> simp at h2
      | dur j v => cases c <;> simp at h2
      | mach x m' ev hst hpoll hex =>
        obtain ⟨a, b', hev, ha, hb⟩ := List.map_eq_append_iff.1 h2
        obtain ⟨e, r, rfl, he, hrr⟩ := List.map_eq_cons_iff.1 hb
        simp only [Prod.mk.injEq, TEv.ev.injEq] at he
        obtain ⟨rfl, rfl⟩ := he
        obtain ⟨rfl, hst'⟩ := ret_only hst hev
        simp only [List.map_nil] at ha
        subst ha
        rw [List.append_nil] at h1
        subst h1
        exact ⟨s, hr, rfl, hst'⟩
    · cases c with
      | nil =>
        simp only [List.nil_append] at h2
        rw [List.append_nil] at h1
        subst h1
        cases hs with
        | pass d hd => simp at h2
        | set j v => simp at h2
        | reset j => simp at h2
        | dur j v => simp at h2
        | mach x m' ev hst hpoll hex =>
          obtain ⟨e, r, hev, he, hrr⟩ := List.map_eq_cons_iff.1 h2.symm
          simp only [Prod.mk.injEq, TEv.ev.injEq] at he
          obtain ⟨rfl, rfl⟩ := he
          exact ⟨s, hr, rfl, (ret_only (a := []) hst hev).2⟩
      | cons y c =>
        simp only [List.cons_append, List.cons.injEq] at h2
        obtain ⟨rfl, h2⟩ := h2
        exact ih t1 c t i v h1

/-- C264.  In every timed history of the thread: a `Wait` step which was not disturbed, no condition of any monitor being found true meanwhile, returns only after more than its waiting time. -/
theorem wait_full (W : Nat → Bool) (P : Prog) (t1 t2 t3 : List (Int × TEv K)) (t0 t : Int) (i : Nat) (v : Int) (s : T K) (hW : W i = true)
    (h : TReach W P (t1 ++ (t0, .ev (.enter i)) :: t2 ++ (t, .ev (.ret i v)) :: t3) s) (hu : Undisturbed i t2) :
    ((t - t0 : Int) : K) > durOf i (t1 ++ (t0, .ev (.enter i)) :: t2) * 1000000000 := by
  obtain ⟨s0, h0, hn, hst⟩ := ret_split h _ t3 t i v rfl
  obtain ⟨-, h1 | ⟨-, h2⟩⟩ := waits hW h0 t1 t2 t0 rfl hu
  · obtain ⟨g, x, fs, hL⟩ := h1
    rw [hL.st] at hst
    cases hst
  · rw [← dur_reach h0, ← hn]
    exact h2

/-! ### Cases -/

/-- What to do in a case. -/
inductive Act where
  | pass (d : Nat)
  | set (j : Nat) (v : ℚ)
  | reset (j : Nat)
  | dur (j : Nat) (v : ℚ)
  | mach (x : Inp)

def pollsOk (s : T ℚ) (ev : List Ev) : Bool :=
  ev.all (fun e => match e with | .poll o m b => !Mon.timeout m || b == ((s.tmo o).validate s.now).2 | _ => true)

def exitOk (W : Nat → Bool) (s : T ℚ) (x : Inp) : Bool :=
  match s.m.frames, x with
  | .exit i _ :: _, .exitc b => !W i || b == decide (((s.now - s.since i : Int) : ℚ) > s.dur i * 1000000000)
  | _, _ => true

def act (W : Nat → Bool) (P : Prog) (s : T ℚ) : Act → Option (List (Int × TEv ℚ) × T ℚ)
  | .pass d => some ([], { s with now := s.now + d })
  | .set j v => some ([(s.now, .set j v)], { s with tmo := upd s.tmo j ((s.tmo j).setTimeout v) })
  | .reset j => some ([(s.now, .reset j)], { s with tmo := upd s.tmo j ((s.tmo j).reset s.now) })
  | .dur j v => some ([(s.now, .dur j v)], { s with dur := upd s.dur j v })
  | .mach x => match step P s.m x with
    | none => none
    | some (m', ev) => if pollsOk s ev && exitOk W s x then some (ev.map fun e => (s.now, .ev e), { ev.foldl T.note s with m := m' }) else none

def acts (W : Nat → Bool) (P : Prog) : T ℚ → List Act → Option (List (Int × TEv ℚ) × T ℚ)
  | s, [] => some ([], s)
  | s, a :: as => match act W P s a with
    | none => none
    | some (l, s') => (acts W P s' as).map (fun r => (l ++ r.1, r.2))

theorem act_step {W : Nat → Bool} {P : Prog} {s s' : T ℚ} {a : Act} {l} (h : act W P s a = some (l, s')) : TStep W P s l s' := by
  cases a with
  | pass d => simp only [act, Option.some.injEq, Prod.mk.injEq] at h; obtain ⟨rfl, rfl⟩ := h; exact .pass _ (by omega)
  | set j v => simp only [act, Option.some.injEq, Prod.mk.injEq] at h; obtain ⟨rfl, rfl⟩ := h; exact .set j v
  | reset j => simp only [act, Option.some.injEq, Prod.mk.injEq] at h; obtain ⟨rfl, rfl⟩ := h; exact .reset j
  | dur j v => simp only [act, Option.some.injEq, Prod.mk.injEq] at h; obtain ⟨rfl, rfl⟩ := h; exact .dur j v
  | mach x =>
    simp only [act] at h
    split at h
    · cases h
    · rename_i m' ev hst
      split at h
      · rename_i hok
        simp only [Option.some.injEq, Prod.mk.injEq] at h
        obtain ⟨rfl, rfl⟩ := h
        simp only [Bool.and_eq_true] at hok
        refine .mach x m' ev hst ?_ ?_
        · intro o m b hmem hm
          have := List.all_eq_true.1 hok.1 _ hmem
          simpa [hm] using this
        · intro i r fs b hf hW hx
          subst hx
          have := hok.2
          simp only [exitOk, hf, hW, Bool.not_true, Bool.false_or, beq_iff_eq] at this
          exact this
      · cases h

theorem acts_reach {W : Nat → Bool} {P : Prog} (as : List Act) : ∀ {tr : List (Int × TEv ℚ)} {s s' : T ℚ} {l}, TReach W P tr s → acts W P s as = some (l, s') → TReach W P (tr ++ l) s' := by
  induction as with
  | nil =>
    intro tr s s' l h ha
    simp only [acts, Option.some.injEq, Prod.mk.injEq] at ha
    obtain ⟨rfl, rfl⟩ := ha
    simpa using h
  | cons a as ih =>
    intro tr s s' l h ha
    simp only [acts] at ha
    split at ha
    · cases ha
    · rename_i l1 s1 h1
      cases h2 : acts W P s1 as with
      | none => simp [h2] at ha
      | some r =>
        simp only [h2, Option.map_some, Option.some.injEq, Prod.mk.injEq] at ha
        obtain ⟨rfl, rfl⟩ := ha
        rw [← List.append_assoc]
        exact ih (.step _ _ _ _ h (act_step h1)) h2

/-- The record of a case can be reached. -/
theorem case_reach {W : Nat → Bool} {P : Prog} (as : List Act) (tr : List (Int × TEv ℚ)) (h : (acts W P tinit as).map Prod.fst = some tr) : ∃ s, TReach W P tr s := by
  cases h2 : acts W P tinit as with
  | none => simp [h2] at h
  | some r =>
    simp only [h2, Option.map_some, Option.some.injEq] at h
    exact ⟨r.2, by simpa [h] using acts_reach as TReach.init h2⟩

def tmon : Mon := ⟨0, .resume, none⟩

/-- Sequence 0 with a timeout monitor of behavior resume, sequence 1 is a `Wait` step called by it. -/
def demoT : Prog where
  caller i := if i = 1 then some 0 else none
  older := by intro i c h; split at h <;> simp_all
  blocking _ := true
  mons i := if i = 0 then [tmon] else []

def isWait (i : Nat) : Bool := decide (i = 1)

def start0 : List Act := [.set 0 (1/2), .mach (.call 0), .mach .tick, .mach .tick, .mach (.cond false), .mach .tick, .mach .tick, .mach (.pre true)]
/-- One check of the wait step with answer `b` of the timeout of sequence 0. -/
def check1 (b : Bool) : List Act := [.mach .tick, .mach .tick, .mach .tick, .mach .tick, .mach (.cond b), .mach .tick, .mach .tick]
def wait1 : List Act := [.dur 1 1, .mach (.call 1)] ++ check1 false ++ [.mach (.pre true), .mach (.ret 0)]

def recA : List (Int × TEv ℚ) := [(0, .set 0 (1/2)), (0, .ev (.call 0)), (0, .ev (.poll 0 tmon false)), (0, .ev (.enter 0)), (0, .dur 1 1), (0, .ev (.call 1)), (0, .ev (.poll 0 tmon false)),
  (0, .ev (.enter 1)), (0, .ev (.leave 1 0))]

/-- Case of `timeout_iff` and `timeout_fires_late`: a timeout of half a second is not expired after 400 ms, expired after 600 ms, when it fires. -/
example : ∃ s : T ℚ, TReach isWait demoT (recA ++ [(400000000, .ev (.poll 0 tmon false)), (600000000, .ev (.poll 0 tmon true)), (600000000, .ev (.fire 0 tmon)), (600000000, .ev (.handled 0 tmon))]) s ∧
    Mon.timeout tmon = true ∧ Starts (K := ℚ) 0 (.ev (.call 0)) :=
  let as := start0 ++ wait1 ++ [.pass 400000000] ++ check1 false ++ [.mach (.exitc false), .pass 200000000] ++ check1 true
  ⟨_, (case_reach as _ (by decide +kernel)).choose_spec, rfl, rfl⟩

/-- Case of `timeout_stays` and `timeout_fires_again_violated`: the next check 100 ms later makes it fire again. -/
example : ∃ s : T ℚ, TReach isWait demoT (recA ++ [(600000000, .ev (.poll 0 tmon true))] ++ (600000000, .ev (.fire 0 tmon)) :: [(600000000, .ev (.handled 0 tmon))] ++
    (700000000, .ev (.poll 0 tmon true)) :: [(700000000, .ev (.fire 0 tmon)), (700000000, .ev (.handled 0 tmon))]) s ∧ ∀ x ∈ demoT.mons 0, x.beh = .resume :=
  let as := start0 ++ wait1 ++ [.pass 600000000] ++ check1 true ++ [.mach (.exitc false), .pass 100000000] ++ check1 true
  ⟨_, (case_reach as _ (by decide +kernel)).choose_spec, by decide⟩

/-- Case of `timeout_once_partial`: the timeout is reset by hand after it has fired. -/
example : ∃ s : T ℚ, TReach isWait demoT (recA ++ [(600000000, .ev (.poll 0 tmon true))] ++ (600000000, .ev (.fire 0 tmon)) :: [(600000000, .ev (.handled 0 tmon)), (600000000, .reset 0),
    (700000000, .ev (.poll 0 tmon false)), (1200000000, .ev (.poll 0 tmon true))] ++ (1200000000, .ev (.fire 0 tmon)) :: [(1200000000, .ev (.handled 0 tmon))]) s ∧
    Starts (K := ℚ) 0 (.reset 0) :=
  let as := start0 ++ wait1 ++ [.pass 600000000] ++ check1 true ++ [.mach (.exitc false), .reset 0, .pass 100000000] ++ check1 false ++ [.mach (.exitc false), .pass 500000000] ++ check1 true
  ⟨_, (case_reach as _ (by decide +kernel)).choose_spec, rfl⟩

/-- Case of `wait_full`: without a timeout the step waits for one second. -/
example : ∃ s : T ℚ, TReach isWait demoT ([(0, .ev (.call 0)), (0, .ev (.poll 0 tmon false)), (0, .ev (.enter 0)), (0, .dur 1 1), (0, .ev (.call 1)), (0, .ev (.poll 0 tmon false))] ++
    (0, .ev (.enter 1)) :: [(0, .ev (.leave 1 0)), (900000000, .ev (.poll 0 tmon false)), (1100000000, .ev (.poll 0 tmon false))] ++ (1100000000, .ev (.ret 1 0)) :: []) s ∧ isWait 1 = true ∧
    Undisturbed (K := ℚ) 1 [(0, .ev (.leave 1 0)), (900000000, .ev (.poll 0 tmon false)), (1100000000, .ev (.poll 0 tmon false))] :=
  let as := start0.tail ++ wait1 ++ [.pass 900000000] ++ check1 false ++ [.mach (.exitc false), .pass 200000000] ++ check1 false ++ [.mach (.exitc true), .mach .tick]
  ⟨_, (case_reach as _ (by decide +kernel)).choose_spec, rfl, by intro x hx; simp at hx; rcases hx with rfl | rfl | rfl <;> simp⟩

end Verif.Sequencer.Timed
