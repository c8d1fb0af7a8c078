import Verif.Examples.App
import Verif.Control.Integrator
import Verif.Control.SignalChecker
import Mathlib.Tactic.Linarith
import Mathlib.Tactic.NormNum
import Mathlib.Tactic.Ring
import Mathlib.Tactic.Positivity
import Mathlib.Algebra.Order.Ring.Rat
import Mathlib.Algebra.Field.Rat
/-!
C208: examples/system/SystemTest3.cpp: a ramp of 0.5 per second, a signal checker which triggers the event reset when the ramp leaves (-0.001, 5), a safety system which holds the ramp at 0 for
3 s and then lets it go again.  Composed from the models of the integrator, the signal checker and the safety system.  The time domain runs in its own thread.  Simplified: the run of the
checker and a run of the safety system are one step each, that of the integrator two (it reads its state, then stores it); the level action counts with exact numbers (SystemTest3.cpp:57,
`n * 0.01 > 3` for `n > 300`).
-/
namespace Verif.Examples.SystemTest3
open Verif Verif.Control Verif.Safety
variable {K : Type} [Field K] [LinearOrder K]

abbrev start : LevelRef := 0
abbrev rampingUp : LevelRef := 1
abbrev startRampingUp : EventId := 10
abbrev reset : EventId := 11

/-- The safety properties, SystemTest3.cpp:45-64. -/
def props : Properties Bool :=
  let p : Properties Bool := { lvl := fun _ => { id := -1 } }
  let p := (p.addLevel start).addLevel rampingUp
  let p := p.addEventToLevel start startRampingUp rampingUp .priv
  let p := p.addEventToLevel rampingUp reset start .pub
  let p := p.setLvl start { p.lvl start with hasAction := true }
  { p with entryLevel := some start }

/-- The events triggered by the level action of `start`, 56-59; there is no exit function. -/
def app : App Bool := ⟨props, [], fun l n => if l = start ∧ 300 < n then [startRampingUp] else []⟩

structure St (K : Type) where
  sys : Sys
  i : Integrator.St K
  /-- what `I::run` has computed but not yet stored, I.hpp:65-74 -/
  busy : Option (Integrator.St K)
  ch : SignalChecker.St K
  /-- values of the output of the integrator, last one first; `none` is NaN -/
  outs : List (Option K)

/-- The constructors, 20-30 and 83-88; `M` is the largest double. -/
def init (M : K) : St K where
  sys := ⟨some start, some start, fun _ => 0⟩
  i := { Integrator.new M with hasLevel := true }
  busy := none
  ch := { SignalChecker.new (-1/1000) 5 false with registered := true, hasLevel := true }
  outs := []

/-- `getCurrentLevel() >= slRampingUp`. -/
def reached (s : Sys) : Bool := match s.cur with
  | some c => decide ((props.lvl rampingUp).id ≤ (props.lvl c).id)
  | none => false

/-- Value of a signal which may be NaN. -/
def sig : Option K → XVal K
  | some q => .fin q
  | none => .nan

/-- Nothing else triggers events. -/
def quiet : Env Bool := ⟨fun _ => false, [], fun _ => [], fun _ => []⟩

inductive Step where
  /-- `I::run` reads its state at the time stamp of its input and computes -/
  | iBegin (ts : Nat)
  /-- `I::run` stores the result -/
  | iEnd
  /-- `SignalChecker::run` -/
  | chRun
  /-- `SafetySystem::run` with the level action, 54-60 -/
  | ssRun

def step (s : St K) : Step → Except Err (St K)
  | .iBegin ts => .ok { s with busy := some (Integrator.run s.i (some (1/2)) ts (reached s.sys)) }
  | .iEnd => match s.busy with
    | some i => .ok { s with i := i, busy := none, outs := i.out :: s.outs }
    | none => .ok s
  | .chRun =>
    let r := SignalChecker.run s.ch (sig s.i.out) (reached s.sys)
    match triggers props s.sys (if r.2 then [⟨reset, false⟩] else []) with
    | .ok (sys, _) => .ok { s with sys := sys, ch := r.1 }
    | .error e => .error e
  | .ssRun => match Examples.step app s.sys (.run quiet) with
    | .ok (sys, _) =>
      let level := s.sys.next.getD 0
      .ok { s with
        sys := sys
        i := if level = start then Integrator.step s.i (.setInit 0) else s.i
        ch := if level = start ∧ 300 < s.sys.nofAct start + 1 then (SignalChecker.step s.ch .reset).1 else s.ch }
    | .error e => .error e

def exec (s : St K) : List Step → Except Err (St K)
  | [] => .ok s
  | x :: xs => match step s x with
    | .ok s' => exec s' xs
    | .error e => .error e

/-! ### Specification -/

/-- A cycle of the time domain with time stamp `ts`: at most one run of the safety system falls into the run of the integrator, `a` before the checker, `b + 1` before the next cycle. -/
structure Cycle where
  ts : Nat
  mid : Bool
  a : Nat
  b : Nat

def Cycle.steps (c : Cycle) : List Step :=
  [.iBegin c.ts] ++ (if c.mid then [.ssRun] else []) ++ [.iEnd] ++ List.replicate c.a .ssRun ++ [.chRun] ++ List.replicate (c.b + 1) .ssRun

/-- Time stamps do not go back, and at most `d` nanoseconds pass from one cycle to the next. -/
def InTime (d : Nat) : Nat → List Cycle → Prop
  | _, [] => True
  | t, c :: l => t ≤ c.ts ∧ c.ts ≤ t + d ∧ InTime d c.ts l

/-- The program: some runs of the safety system, then cycles. -/
def program (k : Nat) (cs : List Cycle) : List Step := List.replicate k .ssRun ++ cs.flatMap Cycle.steps

/-- The state is reached by cycles in time, the last one with time stamp `t`. -/
def Reached (M : K) (d t : Nat) (s : St K) : Prop := ∃ k t0 cs c, InTime d t0 (cs ++ [c]) ∧ c.ts = t ∧ exec (init M) (program k (cs ++ [c])) = .ok s

/-- The time stamp of the last cycle. -/
def last (t : Nat) (cs : List Cycle) : Nat := (cs.map Cycle.ts).getLast?.getD t

/-- A value of the output which is allowed. -/
def Good (d : Nat) (o : Option K) : Prop := ∀ v, o = some v → 0 ≤ v ∧ v < 5 + (d : K) / 2000000000

/-! ### Lemmas -/

theorem exec_append (s : St K) (l m : List Step) : exec s (l ++ m) = match exec s l with | .ok s' => exec s' m | .error e => .error e := by
  induction l generalizing s with
  | nil => rfl
  | cons x l ih =>
    simp only [List.cons_append, exec]
    cases step s x with
    | ok s' => exact ih s'
    | error e => rfl

/-- The safety system between its runs: the level is current and next. -/
def At (s : Sys) (c : LevelRef) : Prop := s.cur = some c ∧ s.next = some c

theorem reached_start {s : Sys} (h : s.cur = some start) : reached s = false := by unfold reached; rw [h]; decide
theorem reached_ramp {s : Sys} (h : s.cur = some rampingUp) : reached s = true := by unfold reached; rw [h]; decide

theorem lvl_start : props.lvl start = { id := 0, transitions := [(startRampingUp, (rampingUp, .priv))], hasAction := true } := rfl
theorem lvl_ramp : props.lvl rampingUp = { id := 1, transitions := [(reset, (start, .pub))] } := rfl

/-- A run in `start`. -/
theorem run_start {s : Sys} (h : s.next = some start) : ∃ s' o, Examples.step app s (.run quiet) = .ok (s', o) ∧
    (s.nofAct start < 300 → At s' start ∧ s'.nofAct start = s.nofAct start + 1) ∧ (300 ≤ s.nofAct start → At s' rampingUp) := by
  obtain ⟨c, n, f⟩ := s
  simp only at h
  subst h
  by_cases hn : 300 < f start + 1
  · refine ⟨⟨some rampingUp, some rampingUp, fun r => if r = rampingUp then 0 else if r = start then f start + 1 else f r⟩,
      [.level start, .action start, .trig ⟨startRampingUp, true⟩, .level rampingUp], ?_, fun h' => ?_, fun _ => ⟨rfl, rfl⟩⟩
    · simp only [Examples.step, App.env, app, Safety.run, takeNext, Option.getD_some, Sys.setAct, hn, and_self, if_true, lvl_start, runInputs, runAction, runOutputs, quiet, pubTrigs, priv,
        List.map_cons, List.map_nil, triggers, trigger, Level.dest, findTrans, bind, Except.bind, Pure.pure, Except.pure]
      rfl
    · have h' : f start < 300 := h'
      omega
  · refine ⟨⟨some start, some start, fun r => if r = start then f start + 1 else f r⟩, [.level start, .action start, .level start], ?_, fun _ => ⟨⟨rfl, rfl⟩, rfl⟩, fun h' => ?_⟩
    · simp only [Examples.step, App.env, app, Safety.run, takeNext, Option.getD_some, Sys.setAct, hn, and_false, if_true, if_false, lvl_start, runInputs, runAction, runOutputs, quiet, pubTrigs, priv,
        List.map_nil, triggers, bind, Except.bind, Pure.pure, Except.pure]
      rfl
    · have h' : 300 ≤ f start := h'
      omega

/-- A run in `rampingUp`. -/
theorem run_ramp {s : Sys} (h : s.next = some rampingUp) : ∃ s' o, Examples.step app s (.run quiet) = .ok (s', o) ∧ At s' rampingUp := by
  obtain ⟨c, n, f⟩ := s
  simp only at h
  subst h
  refine ⟨⟨some rampingUp, some rampingUp, fun r => if r = rampingUp then f rampingUp + 1 else f r⟩, [.level rampingUp, .level rampingUp], ?_, rfl, rfl⟩
  simp only [Examples.step, App.env, app, Safety.run, takeNext, Option.getD_some, Sys.setAct, lvl_ramp, runInputs, runAction, runOutputs, quiet, pubTrigs, priv,
    List.map_nil, triggers, bind, Except.bind, Pure.pure, Except.pure]
  rfl

/-- What never changes. -/
structure Ok (s : St K) (M : K) : Prop where
  up : s.i.upper = M
  lo : s.i.lower = -M
  lvl : s.i.hasLevel = true
  chLo : s.ch.lower = -1/1000
  chUp : s.ch.upper = 5
  reg : s.ch.registered = true
  chLvl : s.ch.hasLevel = true
  off : s.ch.offRange = false

/-- Effect of a run of the safety system on everything. -/
theorem ss_start {s : St K} (h : s.sys.next = some start) : ∃ s', step s .ssRun = .ok s' ∧ s'.i = { s.i with prev := some 0 } ∧ s'.busy = s.busy ∧ s'.outs = s.outs ∧
    ((At s'.sys start ∧ s'.ch = s.ch ∧ s.sys.nofAct start < 300 ∧ s'.sys.nofAct start = s.sys.nofAct start + 1) ∨
     (At s'.sys rampingUp ∧ s'.ch = { s.ch with fired := false } ∧ 300 ≤ s.sys.nofAct start)) := by
  obtain ⟨s', o, h1, h2, h3⟩ := run_start h
  refine ⟨⟨s', { s.i with prev := some 0 }, s.busy, if 300 < s.sys.nofAct start + 1 then { s.ch with fired := false } else s.ch, s.outs⟩,
    by simp only [step, h1, h, Option.getD_some, if_true, true_and, Integrator.step, SignalChecker.step], rfl, rfl, rfl, ?_⟩
  by_cases hn : s.sys.nofAct start < 300
  · left
    have : ¬ 300 < s.sys.nofAct start + 1 := by omega
    exact ⟨(h2 hn).1, by simp [this], hn, (h2 hn).2⟩
  · right
    have : 300 < s.sys.nofAct start + 1 := by omega
    refine ⟨h3 (by omega), ?_, by omega⟩
    simp [this]

theorem ss_ramp {s : St K} (h : s.sys.next = some rampingUp) : ∃ s', step s .ssRun = .ok s' ∧ s'.i = s.i ∧ s'.busy = s.busy ∧ s'.outs = s.outs ∧ At s'.sys rampingUp ∧ s'.ch = s.ch := by
  obtain ⟨s', o, h1, h2⟩ := run_ramp h
  exact ⟨⟨s', s.i, s.busy, s.ch, s.outs⟩, by simp [step, h1, h], rfl, rfl, rfl, h2, rfl⟩

/-- The checker does not let the output pass. -/
def Fires (s : St K) : Prop := SignalChecker.exceeded s.ch (sig s.i.out) = true

def Fine (s : St K) : Prop := ∃ v, s.i.prev = some v ∧ 0 ≤ v ∧ v < 5

/-- Before the checker runs. -/
def B (s : St K) : Prop := At s.sys start ∨ (At s.sys rampingUp ∧ s.ch.fired = false ∧ (Fine s ∨ Fires s))
/-- After the checker has run. -/
def C (s : St K) : Prop := s.sys.next = some start ∨ (At s.sys rampingUp ∧ s.ch.fired = false ∧ Fine s)
/-- After the next run of the safety system. -/
def A (s : St K) : Prop := (At s.sys start ∧ s.i.prev = some 0) ∨ (At s.sys rampingUp ∧ s.ch.fired = false ∧ Fine s)

variable [IsStrictOrderedRing K]

theorem ok_of {s s' : St K} {M : K} (h : Ok s M) (hi : s'.i = s.i ∨ s'.i = { s.i with prev := some 0 }) (hc : s'.ch = s.ch ∨ s'.ch = { s.ch with fired := false } ∨ s'.ch = { s.ch with fired := true }) :
    Ok s' M := by
  rcases hi with hi | hi <;> rcases hc with hc | hc | hc <;> constructor <;> simp only [hi, hc] <;> first | exact h.up | exact h.lo | exact h.lvl | exact h.chLo | exact h.chUp | exact h.reg | exact h.chLvl | exact h.off

theorem ss_B {s : St K} {M : K} (ho : Ok s M) (h : B s) : ∃ s', step s .ssRun = .ok s' ∧ Ok s' M ∧ B s' ∧ s'.busy = s.busy ∧ s'.outs = s.outs ∧ s'.i.out = s.i.out ∧ s'.i.first = s.i.first ∧
    s'.i.prevTs = s.i.prevTs := by
  rcases h with h | ⟨h, hf, hx⟩
  · obtain ⟨s', h1, hi, hb, hou, hc⟩ := ss_start h.2
    refine ⟨s', h1, ok_of ho (Or.inr hi) (by tauto), ?_, hb, hou, by rw [hi], by rw [hi], by rw [hi]⟩
    rcases hc with ⟨hc, -⟩ | ⟨hc, hch, -⟩
    · exact Or.inl hc
    · exact Or.inr ⟨hc, by rw [hch], Or.inl ⟨0, by rw [hi], le_refl _, by norm_num⟩⟩
  · obtain ⟨s', h1, hi, hb, hou, hc, hch⟩ := ss_ramp h.2
    refine ⟨s', h1, ok_of ho (Or.inl hi) (Or.inl hch), Or.inr ⟨hc, by rw [hch, hf], ?_⟩, hb, hou, by rw [hi], by rw [hi], by rw [hi]⟩
    simpa only [Fine, Fires, hi, hch] using hx

theorem ss_C {s : St K} {M : K} (ho : Ok s M) (h : C s) : ∃ s', step s .ssRun = .ok s' ∧ Ok s' M ∧ A s' ∧ s'.busy = s.busy ∧ s'.outs = s.outs ∧ s'.i.out = s.i.out ∧ s'.i.first = s.i.first ∧
    s'.i.prevTs = s.i.prevTs := by
  rcases h with h | ⟨h, hf, hx⟩
  · obtain ⟨s', h1, hi, hb, hou, hc⟩ := ss_start h
    refine ⟨s', h1, ok_of ho (Or.inr hi) (by tauto), ?_, hb, hou, by rw [hi], by rw [hi], by rw [hi]⟩
    rcases hc with ⟨hc, -⟩ | ⟨hc, hch, -⟩
    · exact Or.inl ⟨hc, by rw [hi]⟩
    · exact Or.inr ⟨hc, by rw [hch], ⟨0, by rw [hi], le_refl _, by norm_num⟩⟩
  · obtain ⟨s', h1, hi, hb, hou, hc, hch⟩ := ss_ramp h.2
    refine ⟨s', h1, ok_of ho (Or.inl hi) (Or.inl hch), Or.inr ⟨hc, by rw [hch, hf], ?_⟩, hb, hou, by rw [hi], by rw [hi], by rw [hi]⟩
    simpa only [Fine, hi] using hx

theorem A_C {s : St K} (h : A s) : C s := h.imp (fun h => h.1.2) id

theorem many_B {s : St K} {M : K} (ho : Ok s M) (h : B s) (n : Nat) : ∃ s', exec s (List.replicate n .ssRun) = .ok s' ∧ Ok s' M ∧ B s' ∧ s'.busy = s.busy ∧ s'.outs = s.outs ∧
    s'.i.out = s.i.out ∧ s'.i.first = s.i.first ∧ s'.i.prevTs = s.i.prevTs := by
  induction n generalizing s with
  | zero => exact ⟨s, rfl, ho, h, rfl, rfl, rfl, rfl, rfl⟩
  | succ n ih =>
    obtain ⟨s1, h1, ho1, hB, e1, e2, e3, e4, e5⟩ := ss_B ho h
    obtain ⟨s2, h2, ho2, hB2, f1, f2, f3, f4, f5⟩ := ih ho1 hB
    exact ⟨s2, by simp only [List.replicate_succ, exec, h1, h2], ho2, hB2, f1.trans e1, f2.trans e2, f3.trans e3, f4.trans e4, f5.trans e5⟩

theorem many_A {s : St K} {M : K} (ho : Ok s M) (h : C s) (n : Nat) : ∃ s', exec s (List.replicate (n + 1) .ssRun) = .ok s' ∧ Ok s' M ∧ A s' ∧ s'.busy = s.busy ∧ s'.outs = s.outs ∧
    s'.i.out = s.i.out ∧ s'.i.first = s.i.first ∧ s'.i.prevTs = s.i.prevTs := by
  induction n generalizing s with
  | zero =>
    obtain ⟨s1, h1, h⟩ := ss_C ho h
    exact ⟨s1, by simp only [List.replicate_succ, List.replicate_zero, exec, h1], h⟩
  | succ n ih =>
    obtain ⟨s1, h1, ho1, hA, e1, e2, e3, e4, e5⟩ := ss_C ho h
    obtain ⟨s2, h2, ho2, hB2, f1, f2, f3, f4, f5⟩ := ih ho1 (A_C hA)
    exact ⟨s2, by rw [List.replicate_succ]; simp only [exec, h1, h2], ho2, hB2, f1.trans e1, f2.trans e2, f3.trans e3, f4.trans e4, f5.trans e5⟩

/-- The checker. -/
theorem ch_run {s : St K} {M : K} (ho : Ok s M) (h : B s) : ∃ s', step s .chRun = .ok s' ∧ Ok s' M ∧ C s' ∧ s'.busy = s.busy ∧ s'.outs = s.outs ∧ s'.i = s.i ∧
    (At s.sys rampingUp → Fires s → s'.sys.next = some start ∧ s'.sys.nofAct start = 0 ∧ s'.sys.cur = some rampingUp ∧ s'.ch.fired = true) ∧ (¬ (At s.sys rampingUp ∧ Fires s) → s'.sys = s.sys ∧ s'.ch = s.ch) := by
  rcases h with h | ⟨h, hf, hx⟩
  · have hr := reached_start h.1
    have hrun : SignalChecker.run s.ch (sig s.i.out) false = (s.ch, false) := by
      simp only [SignalChecker.run, ho.reg, ho.chLvl]
      simp
    refine ⟨{ s with sys := s.sys, ch := s.ch }, by simp only [step, hr, hrun]; rfl, ho, Or.inl h.2, rfl, rfl, rfl, ?_, fun _ => ⟨rfl, rfl⟩⟩
    intro h'
    have := h'.1.symm.trans h.1
    simp at this
  · have hr := reached_ramp h.1
    by_cases he : SignalChecker.exceeded s.ch (sig s.i.out) = true
    · have hrun : SignalChecker.run s.ch (sig s.i.out) true = ({ s.ch with fired := true }, true) := by
        simp only [SignalChecker.run, ho.reg, ho.chLvl, ho.off, hf, he]
        simp
      have htr : triggers props s.sys [⟨reset, false⟩] = .ok (⟨some rampingUp, some start, fun r => if r = start then 0 else s.sys.nofAct r⟩, [.trig ⟨reset, false⟩]) := by
        obtain ⟨h1, h2⟩ := h
        simp only [triggers, trigger, h1, h2, lvl_ramp, Level.dest, findTrans, Sys.setAct, bind, Except.bind, Pure.pure, Except.pure]
        rfl
      refine ⟨⟨⟨some rampingUp, some start, fun r => if r = start then 0 else s.sys.nofAct r⟩, s.i, s.busy, { s.ch with fired := true }, s.outs⟩, by simp only [step, hr, hrun, if_true, htr], ok_of ho (Or.inl rfl) (Or.inr (Or.inr rfl)), Or.inl rfl, rfl, rfl, rfl, fun _ _ => ⟨rfl, rfl, rfl, rfl⟩, fun h' => absurd ⟨h, he⟩ h'⟩
    · have hrun : SignalChecker.run s.ch (sig s.i.out) true = (s.ch, false) := by
        simp only [SignalChecker.run, hf, ho.off, Bool.not_eq_true] at he ⊢
        simp [he]
      refine ⟨{ s with sys := s.sys, ch := s.ch }, by simp only [step, hr, hrun]; rfl, ho, Or.inr ⟨h, hf, hx.resolve_right he⟩, rfl, rfl, rfl, fun _ h' => absurd h' he, fun _ => ⟨rfl, rfl⟩⟩

/-- Start of a cycle. -/
def P (s : St K) : Prop := s.busy = none ∧ ((At s.sys start ∧ (s.i.prev = none ∨ s.i.prev = some 0)) ∨ (At s.sys rampingUp ∧ s.ch.fired = false ∧ Fine s))

/-- The time which the integrator uses in a run. -/
def dt (s : St K) (ts : Nat) : K := if s.i.first then 0 else Integrator.seconds s.i.prevTs ts

omit [IsStrictOrderedRing K] in
theorem many_ramp {s : St K} (h : At s.sys rampingUp) (n : Nat) : ∃ s', exec s (List.replicate n .ssRun) = .ok s' ∧ s'.i = s.i ∧ s'.busy = s.busy ∧ s'.outs = s.outs ∧ At s'.sys rampingUp ∧ s'.ch = s.ch := by
  induction n generalizing s with
  | zero => exact ⟨s, rfl, rfl, rfl, rfl, h, rfl⟩
  | succ n ih =>
    obtain ⟨s1, h1, e1, e2, e3, e4, e5⟩ := ss_ramp h.2
    obtain ⟨s2, h2, f1, f2, f3, f4, f5⟩ := ih e4
    exact ⟨s2, by simp only [List.replicate_succ, exec, h1, h2], f1.trans e1, f2.trans e2, f3.trans e3, f4, f5.trans e5⟩

omit [IsStrictOrderedRing K] in
theorem many_start {s : St K} (h : s.sys.next = some start) (n : Nat) : ∃ s', exec s (List.replicate (n + 1) .ssRun) = .ok s' ∧ s'.i = { s.i with prev := some 0 } ∧ s'.busy = s.busy ∧ s'.outs = s.outs ∧
    (s.sys.nofAct start + n < 300 → At s'.sys start ∧ s'.sys.nofAct start = s.sys.nofAct start + n + 1 ∧ s'.ch = s.ch) ∧
    (300 ≤ s.sys.nofAct start + n → At s'.sys rampingUp ∧ s'.ch = { s.ch with fired := false }) := by
  induction n generalizing s with
  | zero =>
    obtain ⟨s1, h1, e1, e2, e3, e4⟩ := ss_start h
    refine ⟨s1, by simp only [List.replicate_succ, List.replicate_zero, exec, h1], e1, e2, e3, ?_, ?_⟩
    · intro hn; rcases e4 with e4 | e4
      · exact ⟨e4.1, e4.2.2.2, e4.2.1⟩
      · omega
    · intro hn; rcases e4 with e4 | e4
      · omega
      · exact ⟨e4.1, e4.2.1⟩
  | succ n ih =>
    obtain ⟨s1, h1, e1, e2, e3, e4⟩ := ss_start h
    rcases e4 with ⟨hc, hch, hlt, hn⟩ | ⟨hc, hch, hle⟩
    · obtain ⟨s2, h2, f1, f2, f3, f4, f5⟩ := ih hc.2
      refine ⟨s2, by rw [List.replicate_succ]; simp only [exec, h1, h2], by rw [f1, e1], f2.trans e2, f3.trans e3, ?_, ?_⟩
      · intro hn'
        obtain ⟨g1, g2, g3⟩ := f4 (by omega)
        exact ⟨g1, by omega, g3.trans hch⟩
      · intro hn'
        obtain ⟨g1, g2⟩ := f5 (by omega)
        exact ⟨g1, by rw [g2, hch]⟩
    · obtain ⟨s2, h2, f1, f2, f3, f4, f5⟩ := many_ramp hc (n + 1)
      exact ⟨s2, by rw [List.replicate_succ]; simp only [exec, h1, h2], f1.trans e1, f2.trans e2, f3.trans e3, fun h' => by omega, fun _ => ⟨f4, f5.trans hch⟩⟩

/-- What the integrator publishes in a cycle. -/
def published (s : St K) (ts : Nat) : Option K := if reached s.sys then Integrator.next s.i s.i.prev (some (1/2)) (dt s ts) else s.i.prev

omit [IsStrictOrderedRing K] in
theorem i_run {s : St K} {M : K} (ho : Ok s M) (ts : Nat) : Integrator.run s.i (some (1/2)) ts (reached s.sys) =
    { s.i with enabled := reached s.sys, first := false, out := published s ts, prev := published s ts, prevTs := ts } := by
  simp only [Integrator.run, ho.lvl, if_true, published, dt]

omit [IsStrictOrderedRing K] in
theorem published_cases (s : St K) (ts : Nat) : published s ts = s.i.prev ∨ ∃ v, s.i.prev = some v ∧ published s ts = some (v + 1/2 * dt s ts) ∧ reached s.sys = true := by
  unfold published
  split
  · rename_i hr
    unfold Integrator.next
    cases hp : s.i.prev with
    | none => left; rfl
    | some v =>
      simp only
      split
      · right; exact ⟨v, rfl, rfl, hr⟩
      · left; rfl
  · left; rfl

theorem exceeded_iff {s : St K} {M : K} (ho : Ok s M) {v : K} (hv : s.i.out = some v) (h0 : 0 ≤ v) : Fires s ↔ 5 ≤ v := by
  have h1 : (-1/1000 : K) < v := by linarith
  simp only [Fires, SignalChecker.exceeded, hv, sig, XVal.lt, ho.chLo, ho.chUp, h1, decide_true, Bool.true_and, Bool.not_eq_true', decide_eq_false_iff_not, not_lt]

omit [IsStrictOrderedRing K] in
theorem exceeded_nan {s : St K} (hv : s.i.out = none) : Fires s := by
  simp [Fires, SignalChecker.exceeded, hv, sig, XVal.lt]

/-- The first half of a cycle from level start. -/
theorem front {s : St K} {M : K} (ho : Ok s M) (hb : s.busy = none) (hB : B s) (c : Cycle) (hp : ∀ v, published s c.ts = some v → 0 ≤ v) :
    ∃ s', exec s ([.iBegin c.ts] ++ (if c.mid then [.ssRun] else []) ++ [.iEnd] ++ List.replicate c.a .ssRun) = .ok s' ∧ Ok s' M ∧ B s' ∧ s'.busy = none ∧
      s'.outs = published s c.ts :: s.outs ∧ s'.i.out = published s c.ts ∧ s'.i.first = false ∧ s'.i.prevTs = c.ts ∧
      (At s.sys rampingUp → At s'.sys rampingUp ∧ s'.i.prev = published s c.ts ∧ s'.ch = s.ch) := by
  let r : Integrator.St K := { s.i with enabled := reached s.sys, first := false, out := published s c.ts, prev := published s c.ts, prevTs := c.ts }
  let s1 : St K := { s with busy := some r }
  have h1 : step s (.iBegin c.ts) = .ok s1 := by simp only [step, i_run ho c.ts]; rfl
  have ho1 : Ok s1 M := ok_of ho (Or.inl rfl) (Or.inl rfl)
  have hB1 : B s1 := hB
  obtain ⟨s2, h2, ho2, hB2, hb2, hou2, hr2⟩ : ∃ s2, exec s1 (if c.mid then [.ssRun] else []) = .ok s2 ∧ Ok s2 M ∧ B s2 ∧ s2.busy = s1.busy ∧ s2.outs = s1.outs ∧
      (At s.sys rampingUp → At s2.sys rampingUp ∧ s2.ch = s.ch) := by
    cases c.mid with
    | false => exact ⟨s1, rfl, ho1, hB1, rfl, rfl, fun h => ⟨h, rfl⟩⟩
    | true =>
      obtain ⟨s2, g1, g2, g3, g4, g5, -⟩ := ss_B ho1 hB1
      refine ⟨s2, by simp only [if_true, exec, g1], g2, g3, g4, g5, ?_⟩
      intro hr
      obtain ⟨s2', g1', -, -, -, g5', g6'⟩ := ss_ramp (s := s1) hr.2
      rw [g1] at g1'
      simp only [Except.ok.injEq] at g1'
      subst g1'
      exact ⟨g5', g6'⟩
  let s3 : St K := { s2 with i := r, busy := none, outs := published s c.ts :: s2.outs }
  have h3 : step s2 .iEnd = .ok s3 := by simp only [step, hb2]; rfl
  have ho3 : Ok s3 M := ⟨ho.up, ho.lo, ho.lvl, ho2.chLo, ho2.chUp, ho2.reg, ho2.chLvl, ho2.off⟩
  have hB3 : B s3 := by
    rcases hB2 with h | ⟨h, hf, -⟩
    · exact Or.inl h
    · refine Or.inr ⟨h, hf, ?_⟩
      cases ho' : published s c.ts with
      | none => exact Or.inr (exceeded_nan (s := s3) ho')
      | some v =>
        by_cases hv : v < 5
        · exact Or.inl ⟨v, ho', hp v ho', hv⟩
        · exact Or.inr ((exceeded_iff ho3 ho' (hp v ho')).2 (not_lt.1 hv))
  obtain ⟨s4, h4, ho4, hB4, e1, e2, e3, e4, e5⟩ := many_B ho3 hB3 c.a
  refine ⟨s4, ?_, ho4, hB4, e1, by rw [e2]; simp only [s3, hou2]; rfl, e3, e4, e5, ?_⟩
  · rw [exec_append, exec_append, exec_append]
    simp only [exec, h1, h2, h3, h4]
  · intro hr
    obtain ⟨s4', g1, g2, -, -, g5, g6⟩ := many_ramp (s := s3) (hr2 hr).1 c.a
    rw [h4] at g1
    simp only [Except.ok.injEq] at g1
    subst g1
    exact ⟨g5, by rw [g2], g6.trans (hr2 hr).2⟩

/-- A cycle. -/
theorem cycle {s : St K} {M : K} (ho : Ok s M) (hP : P s) (c : Cycle) (h0 : 0 ≤ dt s c.ts) :
    ∃ s', exec s c.steps = .ok s' ∧ Ok s' M ∧ P s' ∧ s'.outs = published s c.ts :: s.outs ∧ s'.i.first = false ∧ s'.i.prevTs = c.ts ∧ A s' ∧
      (At s.sys rampingUp → ∀ v, published s c.ts = some v →
        (v < 5 → At s'.sys rampingUp ∧ s'.i.prev = some v) ∧
        (5 ≤ v → s'.i.prev = some 0 ∧ (c.b < 300 → At s'.sys start) ∧ (300 ≤ c.b → At s'.sys rampingUp))) := by
  obtain ⟨hb, hP⟩ := hP
  have hB : B s := hP.imp (fun h => h.1) (fun h => ⟨h.1, h.2.1, Or.inl h.2.2⟩)
  have hp : ∀ v, published s c.ts = some v → 0 ≤ v := by
    intro v hv
    have hprev : ∀ w, s.i.prev = some w → 0 ≤ w := by
      intro w hw
      rcases hP with ⟨-, h | h⟩ | ⟨-, -, w', h, h', -⟩
      · rw [h] at hw; cases hw
      · rw [h] at hw; cases hw; exact le_refl _
      · rw [h] at hw; cases hw; exact h'
    rcases published_cases s c.ts with h | ⟨w, hw, h, -⟩
    · exact hprev v (h.symm.trans hv)
    · rw [h] at hv
      cases hv
      have := hprev w hw
      linarith
  obtain ⟨s1, h1, ho1, hB1, e1, e2, e3, e4, e5, e6⟩ := front ho hb hB c hp
  obtain ⟨s2, h2, ho2, hC2, f1, f2, f3, f4, f5⟩ := ch_run ho1 hB1
  obtain ⟨s3, h3, ho3, hA3, g1, g2, g3, g4, g5⟩ := many_A ho2 hC2 c.b
  refine ⟨s3, ?_, ho3, ⟨by rw [g1, f1, e1], ?_⟩, by rw [g2, f2, e2], by rw [g4, f3, e4], by rw [g5, f3, e5], hA3, ?_⟩
  · unfold Cycle.steps
    rw [exec_append, exec_append, h1]
    simp only [exec, h2, h3]
  · exact hA3.imp (fun h => ⟨h.1, Or.inr h.2⟩) id
  · intro hr v hv
    obtain ⟨a1, a2, a3⟩ := e6 hr
    have hfi := exceeded_iff ho1 (e3.trans hv) (hp v hv)
    constructor
    · intro hlt
      have hno : ¬ (At s1.sys rampingUp ∧ Fires s1) := fun h => absurd (hfi.1 h.2) (not_le.2 hlt)
      obtain ⟨b1, b2⟩ := f5 hno
      have hr2 : At s2.sys rampingUp := by rw [b1]; exact a1
      obtain ⟨s3', k1, k2, -, -, k5, -⟩ := many_ramp hr2 (c.b + 1)
      rw [h3] at k1
      simp only [Except.ok.injEq] at k1
      subst k1
      exact ⟨k5, by rw [k2, f3, a2, hv]⟩
    · intro hge
      obtain ⟨b1, b2, -⟩ := f4 a1 (hfi.2 hge)
      obtain ⟨s3', k1, k2, -, -, k4, k5⟩ := many_start b1 c.b
      rw [h3] at k1
      simp only [Except.ok.injEq] at k1
      subst k1
      exact ⟨by rw [k2], fun h => (k4 (by omega)).1, fun h => (k5 (by omega)).1⟩

theorem seconds_bounds {t0 t1 d : Nat} (h : t0 ≤ t1) (h' : t1 ≤ t0 + d) : (0 : K) ≤ Integrator.seconds t0 t1 ∧ (Integrator.seconds t0 t1 : K) ≤ (d : K) / 1000000000 := by
  have h1 : (t0 : K) ≤ (t1 : K) := by exact_mod_cast h
  have h2 : (t1 : K) ≤ (t0 : K) + (d : K) := by exact_mod_cast h'
  have p : (0 : K) < 1000000000 := by norm_num
  unfold Integrator.seconds
  have a := div_le_div_of_nonneg_right h1 p.le
  have b := div_le_div_of_nonneg_right h2 p.le
  rw [add_div] at b
  exact ⟨by linarith, by linarith⟩

/-- What holds between cycles; the time stamp of the last one is `t`. -/
def Inv' (M : K) (t : Nat) (s : St K) : Prop := Ok s M ∧ P s ∧ (s.i.first = true ∨ s.i.prevTs = t)

theorem dt_bounds {s : St K} {t ts d : Nat} (ht : s.i.first = true ∨ s.i.prevTs = t) (h0 : t ≤ ts) (h1 : ts ≤ t + d) : 0 ≤ dt s ts ∧ dt s ts ≤ (d : K) / 1000000000 := by
  unfold dt
  split
  · exact ⟨le_refl _, by positivity⟩
  · rename_i hf
    rw [ht.resolve_left hf]
    exact seconds_bounds h0 h1

theorem good_published {s : St K} {M : K} {t ts d : Nat} (h : Inv' M t s) (h0 : t ≤ ts) (h1 : ts ≤ t + d) : Good d (published s ts) := by
  obtain ⟨-, ⟨-, hP⟩, ht⟩ := h
  obtain ⟨a, b⟩ := dt_bounds ht h0 h1
  have hd : (d : K) / 2000000000 = (d : K) / 1000000000 / 2 := by rw [div_div]; norm_num
  have hd0 : (0 : K) ≤ (d : K) / 2000000000 := by positivity
  intro v hv
  have hprev : ∀ w, s.i.prev = some w → 0 ≤ w ∧ w < 5 := by
    intro w hw
    rcases hP with ⟨-, h | h⟩ | ⟨-, -, w', h, h'⟩
    · rw [h] at hw; cases hw
    · rw [h] at hw; cases hw; exact ⟨le_refl _, by norm_num⟩
    · rw [h] at hw; cases hw; exact h'
  rcases published_cases s ts with h | ⟨w, hw, h, -⟩
  · obtain ⟨p, q⟩ := hprev v (h.symm.trans hv)
    exact ⟨p, by linarith⟩
  · rw [h] at hv
    cases hv
    obtain ⟨p, q⟩ := hprev w hw
    exact ⟨by linarith, by rw [hd]; linarith⟩

theorem cycles_inv {M : K} {d : Nat} (cs : List Cycle) {t : Nat} (hc : InTime d t cs) {s : St K} (h : Inv' M t s) :
    ∃ s', exec s (cs.flatMap Cycle.steps) = .ok s' ∧ Inv' M (last t cs) s' ∧ (cs ≠ [] → s'.i.first = false) ∧ ∃ new, s'.outs = new ++ s.outs ∧ (∀ o ∈ new, Good d o) := by
  induction cs generalizing s t with
  | nil => exact ⟨s, rfl, h, by simp, [], rfl, by simp⟩
  | cons c cs ih =>
    obtain ⟨c1, c2, c3⟩ := hc
    obtain ⟨s1, h1, ho, hP, hou, hf, hts, hA, -⟩ := cycle h.1 h.2.1 c (dt_bounds h.2.2 c1 c2).1
    have hg := good_published h c1 c2
    obtain ⟨s2, h2, hi2, hf2, new, hn, hgn⟩ := ih c3 (s := s1) ⟨ho, hP, Or.inr hts⟩
    refine ⟨s2, by rw [List.flatMap_cons, exec_append, h1]; exact h2, ?_, ?_, new ++ [published s c.ts], by rw [hn, hou]; simp, ?_⟩
    · have : last t (c :: cs) = last c.ts cs := by
        simp [last, List.getLast?_cons]
      rw [this]; exact hi2
    · intro _
      cases cs with
      | nil =>
        simp only [List.flatMap_nil, exec, Except.ok.injEq] at h2
        subst h2; exact hf
      | cons c' cs => exact hf2 (by simp)
    · intro o ho'
      rcases List.mem_append.1 ho' with ho' | ho'
      · exact hgn o ho'
      · rw [List.mem_singleton.1 ho']; exact hg

theorem init_inv (M : K) (k t : Nat) : ∃ s, exec (init M) (List.replicate k .ssRun) = .ok s ∧ Inv' M t s ∧ s.outs = [] := by
  have h0 : Ok (init M) M := ⟨rfl, rfl, rfl, rfl, rfl, rfl, rfl, rfl⟩
  cases k with
  | zero => exact ⟨init M, rfl, ⟨h0, ⟨rfl, Or.inl ⟨⟨rfl, rfl⟩, Or.inl rfl⟩⟩, Or.inl rfl⟩, rfl⟩
  | succ k =>
    obtain ⟨s, h1, ho, hA, hb, hou, -, hf, -⟩ := many_A h0 (Or.inl rfl) k
    exact ⟨s, h1, ⟨ho, ⟨hb, hA.imp (fun h => ⟨h.1, Or.inr h.2⟩) id⟩, Or.inl hf⟩, hou⟩

theorem program_inv (M : K) {d : Nat} (k : Nat) (cs : List Cycle) {t : Nat} (hc : InTime d t cs) :
    ∃ s, exec (init M) (program k cs) = .ok s ∧ Inv' M (last t cs) s ∧ (cs ≠ [] → s.i.first = false) ∧ ∀ o ∈ s.outs, Good d o := by
  obtain ⟨s, h1, hi, ho⟩ := init_inv M k t
  obtain ⟨s2, h2, hi2, hf, new, hn, hg⟩ := cycles_inv cs hc hi
  refine ⟨s2, by unfold program; rw [exec_append, h1]; exact h2, hi2, hf, ?_⟩
  rw [hn, ho, List.append_nil]
  exact hg

theorem reached_inv {M : K} {d t : Nat} {s : St K} (h : Reached M d t s) : Ok s M ∧ P s ∧ s.i.first = false ∧ s.i.prevTs = t := by
  obtain ⟨k, t0, cs, c, hc, rfl, he⟩ := h
  obtain ⟨s', h1, ⟨a, b, e⟩, hf, -⟩ := program_inv M k _ hc
  rw [he] at h1
  simp only [Except.ok.injEq] at h1
  subst h1
  have hf := hf (by simp)
  refine ⟨a, b, hf, ?_⟩
  have := e.resolve_left (by rw [hf]; simp)
  rw [this]
  simp [last]

theorem published_ramp {s : St K} {M : K} {t ts d : Nat} (ho : Ok s M) (hf : s.i.first = false) (ht : s.i.prevTs = t) (hr : At s.sys rampingUp) {v : K} (hv : s.i.prev = some v) (hv0 : 0 ≤ v)
    (hv5 : v < 5) (hM : 5 + (d : K) / 2000000000 ≤ M) (h0 : t ≤ ts) (h1 : ts ≤ t + d) : published s ts = some (v + 1/2 * Integrator.seconds t ts) := by
  have hdt : dt s ts = Integrator.seconds t ts := by unfold dt; rw [hf, ht]; rfl
  obtain ⟨a, b⟩ := seconds_bounds (K := K) h0 h1
  have hd : (d : K) / 2000000000 = (d : K) / 1000000000 / 2 := by rw [div_div]; norm_num
  have hd0 : (0 : K) ≤ (d : K) / 2000000000 := by positivity
  unfold published
  rw [reached_ramp hr.1, if_pos rfl]
  simp only [Integrator.next, hv, hdt, ho.up, ho.lo]
  rw [if_pos ⟨by rw [hd] at hM; linarith, by linarith⟩]

/-! ### C208 -/

/-- **C208.** The output of the integrator is never below 0 and never reaches 5 plus the way of one cycle: whatever the interleaving with the safety system, provided that the safety system
runs at least once after the checker and at most once during the run of the integrator.  Nothing fails. -/
theorem stays_bounded_partial (M : K) (d k t : Nat) (cs : List Cycle) (hc : InTime d t cs) : ∃ s, exec (init M) (program k cs) = .ok s ∧ ∀ o ∈ s.outs, Good d o := by
  obtain ⟨s, h1, -, -, h2⟩ := program_inv M k cs hc
  exact ⟨s, h1, h2⟩

/-- **C208.** A cycle in which the output is at least 5 stops the ramp: the integrator holds 0 afterwards, the level is `start` for 300 runs of the safety system and `rampingUp` from the
301st. -/
theorem restarts {M : K} {d t : Nat} {s : St K} (h : Reached M d t s) (hr : At s.sys rampingUp) (c : Cycle) (h0 : t ≤ c.ts) {s' : St K} (he : exec s c.steps = .ok s') {v : K}
    (hv : s'.outs.head? = some (some v)) (h5 : 5 ≤ v) : s'.i.prev = some 0 ∧ (c.b < 300 → At s'.sys start) ∧ (300 ≤ c.b → At s'.sys rampingUp ∧ s'.ch.fired = false) := by
  obtain ⟨ho, hP, hf, ht⟩ := reached_inv h
  obtain ⟨s1, h1, -, -, hou, -, -, hA, hx⟩ := cycle ho hP c (dt_bounds (d := c.ts) (Or.inr ht) h0 (by omega)).1
  rw [he] at h1
  simp only [Except.ok.injEq] at h1
  subst h1
  rw [hou] at hv
  simp only [List.head?_cons, Option.some.injEq] at hv
  obtain ⟨a, b, e⟩ := (hx hr v hv).2 h5
  refine ⟨a, b, fun hb => ⟨e hb, ?_⟩⟩
  rcases hA with ⟨hA, -⟩ | ⟨-, hA, -⟩
  · have := hA.1.symm.trans (e hb).1
    simp at this
  · exact hA

/-- **C208.** The ramp: in level `rampingUp` the integrator moves by half of the time passed, until the output has been at least 5. -/
theorem ramp_exact {M : K} {d : Nat} (hM : 5 + (d : K) / 2000000000 ≤ M) (cs : List Cycle) : ∀ {t : Nat} {s : St K}, Reached M d t s → At s.sys rampingUp → ∀ {v : K}, s.i.prev = some v →
    InTime d t cs → ∃ s' new, exec s (cs.flatMap Cycle.steps) = .ok s' ∧ s'.outs = new ++ s.outs ∧
      ((∃ w, some w ∈ new ∧ 5 ≤ w) ∨ (At s'.sys rampingUp ∧ s'.i.prev = some (v + 1/2 * Integrator.seconds t (last t cs)) ∧ v + 1/2 * Integrator.seconds t (last t cs) < 5)) := by
  suffices hs : ∀ {t : Nat} {s : St K}, (Ok s M ∧ P s ∧ s.i.first = false ∧ s.i.prevTs = t) → At s.sys rampingUp → ∀ {v : K}, s.i.prev = some v →
    InTime d t cs → ∃ s' new, exec s (cs.flatMap Cycle.steps) = .ok s' ∧ s'.outs = new ++ s.outs ∧
      ((∃ w, some w ∈ new ∧ 5 ≤ w) ∨ (At s'.sys rampingUp ∧ s'.i.prev = some (v + 1/2 * Integrator.seconds t (last t cs)) ∧ v + 1/2 * Integrator.seconds t (last t cs) < 5)) from
    fun {_ _} h => hs (reached_inv h)
  have hfine : ∀ {s : St K} {v : K}, P s → At s.sys rampingUp → s.i.prev = some v → 0 ≤ v ∧ v < 5 := by
    intro s v hP hr hv
    rcases hP.2 with ⟨h, -⟩ | ⟨-, -, w, hw, h⟩
    · have := h.1.symm.trans hr.1; simp at this
    · rw [hw] at hv; cases hv; exact h
  induction cs with
  | nil =>
    intro t s h hr v hv _
    have hz : (Integrator.seconds t t : K) = 0 := sub_self _
    refine ⟨s, [], rfl, rfl, Or.inr ⟨hr, ?_, ?_⟩⟩
    · simp [last, hz, hv]
    · simp only [last, List.map_nil, List.getLast?_nil, Option.getD_none, hz, mul_zero, add_zero]
      exact (hfine h.2.1 hr hv).2
  | cons c cs ih =>
    intro t s h hr v hv hc
    obtain ⟨c1, c2, c3⟩ := hc
    obtain ⟨ho, hP, hf, ht⟩ := h
    obtain ⟨hv0, hv5⟩ := hfine hP hr hv
    have hp := published_ramp ho hf ht hr hv hv0 hv5 hM c1 c2
    obtain ⟨s1, h1, ho1, hP1, hou, hf1, hts, -, hx⟩ := cycle ho hP c (dt_bounds (Or.inr ht) c1 c2).1
    rw [hp] at hou
    obtain ⟨hlt, -⟩ := hx hr _ hp
    by_cases h5 : v + 1/2 * Integrator.seconds t c.ts < 5
    · obtain ⟨hr1, hv1⟩ := hlt h5
      obtain ⟨s2, new, h2, hn, hor⟩ := ih ⟨ho1, hP1, hf1, hts⟩ hr1 hv1 c3
      refine ⟨s2, new ++ [some (v + 1/2 * Integrator.seconds t c.ts)], by rw [List.flatMap_cons, exec_append, h1]; exact h2, by rw [hn, hou]; simp, ?_⟩
      have hl : last t (c :: cs) = last c.ts cs := by
        simp [last, List.getLast?_cons]
      have hsum : v + 1/2 * Integrator.seconds t c.ts + 1/2 * Integrator.seconds c.ts (last c.ts cs) = v + 1/2 * (Integrator.seconds t (last c.ts cs) : K) := by
        unfold Integrator.seconds; ring
      rcases hor with ⟨w, hw, h⟩ | ⟨a, b, e⟩
      · exact Or.inl ⟨w, List.mem_append_left _ hw, h⟩
      · rw [hl, ← hsum]; exact Or.inr ⟨a, b, e⟩
    · obtain ⟨s2, h2, -, -, new, hn, -⟩ := cycles_inv cs c3 (s := s1) ⟨ho1, hP1, Or.inr hts⟩
      refine ⟨s2, new ++ [some (v + 1/2 * Integrator.seconds t c.ts)], by rw [List.flatMap_cons, exec_append, h1]; exact h2, by rw [hn, hou]; simp, Or.inl ⟨_, by simp, not_lt.1 h5⟩⟩

/-- **C208.** Within 10 s in level `rampingUp` the output reaches 5. -/
theorem reaches_five {M : K} {d t : Nat} (hM : 5 + (d : K) / 2000000000 ≤ M) {s : St K} (h : Reached M d t s) (hr : At s.sys rampingUp) (cs : List Cycle) (hc : InTime d t cs)
    (h10 : t + 10000000000 ≤ last t cs) : ∃ s' new, exec s (cs.flatMap Cycle.steps) = .ok s' ∧ s'.outs = new ++ s.outs ∧ ∃ w, some w ∈ new ∧ 5 ≤ w := by
  obtain ⟨-, hP, -, -⟩ := reached_inv h
  obtain ⟨v, hv, hv0⟩ : ∃ v, s.i.prev = some v ∧ 0 ≤ v := by
    rcases hP.2 with ⟨h, -⟩ | ⟨-, -, w, hw, h⟩
    · have := h.1.symm.trans hr.1; simp at this
    · exact ⟨w, hw, h.1⟩
  obtain ⟨s', new, h1, h2, h3⟩ := ramp_exact hM cs h hr hv hc
  refine ⟨s', new, h1, h2, h3.resolve_right ?_⟩
  rintro ⟨-, -, hlt⟩
  have h4 : ((t : K) + 10000000000) ≤ (last t cs : K) := by exact_mod_cast h10
  have p : (0 : K) < 1000000000 := by norm_num
  have h5 := div_le_div_of_nonneg_right h4 p.le
  rw [add_div] at h5
  unfold Integrator.seconds at hlt
  have h6 : (10000000000 : K) / 1000000000 = 10 := by norm_num
  rw [h6] at h5
  linarith

/-- A cycle of the time domain without a run of the safety system. -/
def tick (ts : Nat) : List Step := [.iBegin ts, .iEnd, .chRun]

/-- In level `rampingUp`, the event triggered or not. -/
def Q (M v : K) (t : Nat) (s : St K) : Prop := Ok s M ∧ s.sys.cur = some rampingUp ∧ s.i.prev = some v ∧ s.i.first = false ∧ s.i.prevTs = t ∧
  ((s.sys.next = some rampingUp ∧ s.ch.fired = false) ∨ (s.sys.next = some start ∧ s.ch.fired = true ∧ s.sys.nofAct start = 0))

theorem reached_Q {M : K} {d t : Nat} {s : St K} (h : Reached M d t s) (hr : At s.sys rampingUp) {v : K} (hv : s.i.prev = some v) : Q M v t s ∧ 0 ≤ v := by
  obtain ⟨ho, hP, hf, ht⟩ := reached_inv h
  rcases hP.2 with ⟨h, -⟩ | ⟨-, hfi, w, hw, hw0, -⟩
  · have := h.1.symm.trans hr.1; simp at this
  · rw [hw] at hv; cases hv
    exact ⟨⟨ho, hr.1, hw, hf, ht, Or.inl ⟨hr.2, hfi⟩⟩, hw0⟩

omit [IsStrictOrderedRing K] in
theorem i_Q {M v : K} {t ts : Nat} {s : St K} (h : Q M v t s) (h1 : v + 1/2 * Integrator.seconds t ts < M) (h2 : -M < v + 1/2 * Integrator.seconds t ts) :
    published s ts = some (v + 1/2 * Integrator.seconds t ts) := by
  obtain ⟨ho, hc, hv, hf, ht, -⟩ := h
  have hdt : dt s ts = Integrator.seconds t ts := by unfold dt; rw [hf, ht]; rfl
  unfold published
  rw [reached_ramp hc, if_pos rfl]
  simp only [Integrator.next, hv, hdt, ho.up, ho.lo]
  rw [if_pos ⟨h1, h2⟩]

theorem tick_Q {M v : K} {t ts : Nat} {s : St K} (h : Q M v t s) (hv : 0 ≤ v) (ht : t ≤ ts) (hM : v + 1/2 * Integrator.seconds t ts < M) :
    ∃ s', exec s (tick ts) = .ok s' ∧ Q M (v + 1/2 * Integrator.seconds t ts) ts s' ∧ s'.outs = some (v + 1/2 * Integrator.seconds t ts) :: s.outs ∧
      (5 ≤ v + 1/2 * Integrator.seconds t ts → s'.sys.next = some start) := by
  have hs := (seconds_bounds (K := K) (d := ts) ht (by omega)).1
  have hp := i_Q h hM (by linarith)
  obtain ⟨ho, hc, hv', hf, ht', hn⟩ := h
  let r : Integrator.St K := { s.i with enabled := reached s.sys, first := false, out := published s ts, prev := published s ts, prevTs := ts }
  let s1 : St K := { s with i := r, outs := published s ts :: s.outs, busy := none }
  have h1 : exec s [.iBegin ts, .iEnd] = .ok s1 := by simp only [exec, step, i_run ho ts]; rfl
  have ho1 : Ok s1 M := ⟨ho.up, ho.lo, ho.lvl, ho.chLo, ho.chUp, ho.reg, ho.chLvl, ho.off⟩
  have hfi := exceeded_iff (s := s1) ho1 (show s1.i.out = some (v + 1/2 * Integrator.seconds t ts) from hp) (by linarith)
  have he : exec s (tick ts) = exec s1 [.chRun] := by
    have : tick ts = [.iBegin ts, .iEnd] ++ [.chRun] := rfl
    rw [this, exec_append, h1]
  rw [he]
  rcases hn with ⟨hn, hfd⟩ | ⟨hn, hfd, hna⟩
  · have hB : B s1 := by
      refine Or.inr ⟨⟨hc, hn⟩, hfd, ?_⟩
      by_cases h5 : 5 ≤ v + 1/2 * Integrator.seconds t ts
      · exact Or.inr (hfi.2 h5)
      · exact Or.inl ⟨_, hp, by linarith, not_le.1 h5⟩
    obtain ⟨s2, k1, ko, kC, -, kou, ki, kf, kn⟩ := ch_run ho1 hB
    refine ⟨s2, by simp only [exec, k1], ⟨ko, ?_, by rw [ki]; exact hp, by rw [ki], by rw [ki], ?_⟩, by rw [kou]; simp only [s1, hp], ?_⟩
    · by_cases h5 : Fires s1
      · exact (kf ⟨hc, hn⟩ h5).2.2.1
      · rw [(kn (fun h => h5 h.2)).1]; exact hc
    · by_cases h5 : Fires s1
      · obtain ⟨a, b, -, e⟩ := kf ⟨hc, hn⟩ h5
        exact Or.inr ⟨a, e, b⟩
      · obtain ⟨a, b⟩ := kn (fun h => h5 h.2)
        exact Or.inl ⟨by rw [a]; exact hn, by rw [b]; exact hfd⟩
    · intro h5
      exact (kf ⟨hc, hn⟩ (hfi.2 h5)).1
  · have hrun : SignalChecker.run s1.ch (sig s1.i.out) (reached s1.sys) = (s1.ch, false) := by
      have : s1.ch.fired = true := hfd
      simp only [SignalChecker.run, this]
      simp
    refine ⟨s1, ?_, ⟨ho1, hc, hp, rfl, rfl, Or.inr ⟨hn, hfd, hna⟩⟩, by simp only [s1, hp], fun _ => hn⟩
    simp only [exec, step, hrun]
    rfl

/-- Violation without the safety system in between: the checker triggers its event once, and while the safety system does not run the output keeps growing. -/
theorem late_safety_violated {M : K} {d t : Nat} {s : St K} (h : Reached M d t s) (hr : At s.sys rampingUp) {v : K} (hv : s.i.prev = some v) (n e : Nat)
    (hM : v + 1/2 * Integrator.seconds t (t + n * e) < M) :
    ∃ s', exec s ((List.range n).flatMap (fun k => tick (t + (k + 1) * e))) = .ok s' ∧ s'.i.prev = some (v + 1/2 * Integrator.seconds t (t + n * e)) := by
  obtain ⟨hQ, hv0⟩ := reached_Q h hr hv
  suffices hs : ∀ m ≤ n, ∃ s', exec s ((List.range m).flatMap (fun k => tick (t + (k + 1) * e))) = .ok s' ∧ Q M (v + 1/2 * Integrator.seconds t (t + m * e)) (t + m * e) s' by
    obtain ⟨s', a, b⟩ := hs n (le_refl _)
    exact ⟨s', a, b.2.2.1⟩
  intro m
  induction m with
  | zero =>
    intro _
    have hz : (Integrator.seconds t t : K) = 0 := sub_self _
    exact ⟨s, rfl, by simpa [hz] using hQ⟩
  | succ m ih =>
    intro hm
    obtain ⟨s1, h1, hq⟩ := ih (by omega)
    have hle : t + m * e ≤ t + (m + 1) * e := by rw [Nat.add_mul]; omega
    have hle' : t + (m + 1) * e ≤ t + n * e := Nat.add_le_add_left (Nat.mul_le_mul_right _ hm) _
    have hsum : v + 1/2 * Integrator.seconds t (t + m * e) + 1/2 * Integrator.seconds (t + m * e) (t + (m + 1) * e) = v + 1/2 * (Integrator.seconds t (t + (m + 1) * e) : K) := by
      unfold Integrator.seconds; ring
    have hmono : (Integrator.seconds t (t + (m + 1) * e) : K) ≤ Integrator.seconds t (t + n * e) := by
      have := (seconds_bounds (K := K) (d := t + n * e) hle' (by omega)).1
      unfold Integrator.seconds at this ⊢
      linarith
    have hs0 := (seconds_bounds (K := K) (t0 := t) (t1 := t + m * e) (d := m * e) (by omega) (le_refl _)).1
    obtain ⟨s2, h2, hq2, -⟩ := tick_Q hq (by linarith) hle (by rw [hsum]; linarith)
    refine ⟨s2, ?_, by rw [← hsum]; exact hq2⟩
    rw [List.range_succ, List.flatMap_append, exec_append, h1]
    simpa using h2

/-- Violation: `setInitCondition` takes no lock.  If the run of the integrator lasts as long as the level `start`, its result is stored over all the resets: the next ramp starts above 5, not at
0. -/
theorem lost_reset_violated {M : K} {d t ts1 ts2 : Nat} {s : St K} (h : Reached M d t s) (hr : At s.sys rampingUp) {v : K} (hv : s.i.prev = some v) (h1 : t ≤ ts1) (h2 : ts1 ≤ ts2)
    (h5 : 5 ≤ v + 1/2 * Integrator.seconds t ts1) (hM : v + 1/2 * Integrator.seconds t ts2 < M) :
    ∃ s', exec s (tick ts1 ++ [.iBegin ts2] ++ List.replicate 301 .ssRun ++ [.iEnd]) = .ok s' ∧ At s'.sys rampingUp ∧ s'.ch.fired = false ∧
      s'.i.prev = some (v + 1/2 * Integrator.seconds t ts2) ∧ 5 ≤ v + 1/2 * (Integrator.seconds t ts2 : K) := by
  obtain ⟨hQ, hv0⟩ := reached_Q h hr hv
  have hs1 := (seconds_bounds (K := K) (d := ts1) h1 (by omega)).1
  have hs2 := (seconds_bounds (K := K) (d := ts2) h2 (by omega)).1
  have hsum : v + 1/2 * Integrator.seconds t ts1 + 1/2 * Integrator.seconds ts1 ts2 = v + 1/2 * (Integrator.seconds t ts2 : K) := by
    unfold Integrator.seconds; ring
  obtain ⟨s1, k1, hq1, -, kn⟩ := tick_Q hQ hv0 h1 (by linarith)
  have hp := i_Q hq1 (by rw [hsum]; exact hM) (by linarith)
  rw [hsum] at hp
  have hn := kn h5
  obtain ⟨ho1, -, -, -, -, hx⟩ := hq1
  have hna : s1.sys.nofAct start = 0 := by
    rcases hx with ⟨hx, -⟩ | ⟨-, -, hx⟩
    · rw [hn] at hx; simp at hx
    · exact hx
  let r : Integrator.St K := { s1.i with enabled := reached s1.sys, first := false, out := published s1 ts2, prev := published s1 ts2, prevTs := ts2 }
  let s2 : St K := { s1 with busy := some r }
  have k2 : exec s1 [.iBegin ts2] = .ok s2 := by simp only [exec, step, i_run ho1 ts2]; rfl
  obtain ⟨s3, k3, -, hb, -, -, hx3⟩ := many_start (s := s2) hn 300
  obtain ⟨a, b⟩ := hx3 (by change 300 ≤ s1.sys.nofAct start + 300; omega)
  refine ⟨{ s3 with i := r, busy := none, outs := r.out :: s3.outs }, ?_, a, by rw [b], hp, by linarith⟩
  rw [exec_append, exec_append, exec_append, k1]
  simp only [k2, k3]
  simp only [exec, step, hb]
  rfl

/-- Violation: the first step in level `rampingUp` is as long as the time since the last run of the integrator, even if the level was entered just before. -/
theorem first_step_violated {M : K} {d t ts : Nat} (hM : 5 + (d : K) / 2000000000 ≤ M) {s : St K} (h : Reached M d t s) (hs : At s.sys start) (hn : s.sys.nofAct start = 300) (h1 : t ≤ ts)
    (h2 : ts ≤ t + d) : ∃ s', exec s [.ssRun, .iBegin ts, .iEnd] = .ok s' ∧ At s'.sys rampingUp ∧ s'.i.out = some (1/2 * Integrator.seconds t ts) := by
  obtain ⟨ho, -, hf, ht⟩ := reached_inv h
  obtain ⟨s1, k1, ki, -, -, kc⟩ := ss_start hs.2
  rcases kc with ⟨-, -, kc, -⟩ | ⟨kc, kch, -⟩
  · omega
  have ho1 : Ok s1 M := ok_of ho (Or.inr ki) (Or.inr (Or.inl kch))
  have hp := published_ramp ho1 (by rw [ki]; exact hf) (by rw [ki]; exact ht) kc (v := 0) (by rw [ki]) (le_refl _) (by norm_num) hM h1 h2
  rw [zero_add] at hp
  refine ⟨⟨s1.sys, { s1.i with enabled := reached s1.sys, first := false, out := published s1 ts, prev := published s1 ts, prevTs := ts }, none, s1.ch, published s1 ts :: s1.outs⟩, ?_, kc, hp⟩
  simp only [exec, k1]
  simp only [step, i_run ho1 ts]

/-! ### Cases -/

/-- The ramp of the program with cycles of 2 s (instead of 0.5 s, to keep the case short) and one or 301 runs of the safety system in between: 0, 1, 2, 3, 4, 5, then again from 0. -/
def demo : List Cycle := [⟨0, false, 0, 300⟩, ⟨2000000000, true, 0, 0⟩, ⟨4000000000, false, 1, 0⟩, ⟨6000000000, false, 0, 1⟩, ⟨8000000000, false, 0, 0⟩, ⟨10000000000, false, 0, 0⟩,
  ⟨12000000000, false, 0, 0⟩]

/-- What the case shows. -/
def view (r : Except Err (St ℚ)) : Option (List (Option ℚ) × Option LevelRef × Bool) := match r with
  | .ok s => some (s.outs, s.sys.cur, s.ch.fired)
  | .error _ => none

example : InTime 2000000000 0 demo ∧
    view (exec (init 1000) (program 1 demo)) = some ([some 0, some 5, some 4, some 3, some 2, some 1, some 0], some start, true) := by
  refine ⟨by simp [InTime, demo], by decide +kernel⟩

/-- The hypotheses of `restarts`, `ramp_exact`, `reaches_five`, `late_safety_violated` and `lost_reset_violated`: after two cycles the level is `rampingUp` and the integrator holds 1. -/
example : ∃ s : St ℚ, Reached 1000 2000000000 2000000000 s ∧ At s.sys rampingUp ∧ s.i.prev = some 1 := by
  obtain ⟨s, hs, -⟩ := program_inv (1000 : ℚ) 1 [⟨0, false, 0, 300⟩, ⟨2000000000, true, 0, 0⟩] (d := 2000000000) (t := 0) (by simp [InTime])
  have hv : (match exec (init (1000 : ℚ)) (program 1 [⟨0, false, 0, 300⟩, ⟨2000000000, true, 0, 0⟩]) with
    | .ok s => some (s.sys.cur, s.sys.next, s.i.prev) | .error _ => none) = some (some rampingUp, some rampingUp, some 1) := by decide +kernel
  rw [hs] at hv
  simp only [Option.some.injEq, Prod.mk.injEq] at hv
  exact ⟨s, ⟨1, 0, [⟨0, false, 0, 300⟩], ⟨2000000000, true, 0, 0⟩, by simp [InTime], rfl, hs⟩, ⟨hv.1, hv.2.1⟩, hv.2.2⟩

/-- The hypotheses of `first_step_violated`: one run before and 299 after the first cycle. -/
example : ∃ s : St ℚ, Reached 1000 2000000000 0 s ∧ At s.sys start ∧ s.sys.nofAct start = 300 := by
  obtain ⟨s, hs, -⟩ := program_inv (1000 : ℚ) 1 [⟨0, false, 0, 298⟩] (d := 2000000000) (t := 0) (by simp [InTime])
  have hv : (match exec (init (1000 : ℚ)) (program 1 [⟨0, false, 0, 298⟩]) with
    | .ok s => some (s.sys.cur, s.sys.next, s.sys.nofAct start) | .error _ => none) = some (some start, some start, 300) := by decide +kernel
  rw [hs] at hv
  simp only [Option.some.injEq, Prod.mk.injEq] at hv
  exact ⟨s, ⟨1, 0, [], ⟨0, false, 0, 298⟩, by simp [InTime], rfl, hs⟩, ⟨hv.1, hv.2.1⟩, hv.2.2⟩

end Verif.Examples.SystemTest3
