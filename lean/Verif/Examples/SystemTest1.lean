import Verif.Control.Integrator
import Verif.Control.Switch
import Mathlib.Tactic.Linarith
import Mathlib.Tactic.NormNum
import Mathlib.Tactic.Ring
import Mathlib.Algebra.Order.Ring.Rat
import Mathlib.Algebra.Field.Rat
/-!
C201: the control system of examples/system/SystemTest1.cpp: a ramp of 2.5 per second from 0, a switch which leaves it at 20 ± 0.1 for the constant -1.5 and triggers the event stopping, and the
level action of `stopped` which restarts the ramp.  Composed from the models of the integrator and the switch.  The constants and the gain are 5/2 and -3/2 in every run; the value written to
the analog output is that of the switch.  The time domain runs in its own thread, so that the calls of the level action may be interleaved with a run.
-/
namespace Verif.Examples.SystemTest1
open Verif Verif.Control
variable {K : Type} [Field K] [LinearOrder K]

structure St (K : Type) where
  i : Integrator.St K
  /-- what `I::run` has computed but not yet stored, I.hpp:65-74 -/
  busy : Option (Integrator.St K)
  sw : Switch.St K
  /-- events `seStopping` triggered -/
  events : Nat
  /-- values at the analog output, last one first -/
  outs : List (Switch.Res K)

/-- The constructor, SystemTest1.cpp:48-54, and `registerSafetyEvent`, 145; `M` is the largest double. -/
def init (M : K) : St K where
  i := { Integrator.new M with prev := some 0, enabled := true }
  busy := none
  sw := { (Switch.new 0 : Switch.St K) with cond := some (20, 1/10, 1), armed := true, registered := true }
  events := 0
  outs := []

inductive Step where
  /-- `I::run` reads its state at the time stamp of its input and computes -/
  | iBegin (ts : Nat)
  /-- `I::run` stores the result -/
  | iEnd
  /-- `Switch::run` and the analog output -/
  | swRun
  /-- `cs.sw.switchToInput(0)`, 119 -/
  | sw0
  /-- `cs.i.setInitCondition(0)`, 120; takes no lock (I.hpp:108) -/
  | reset
  /-- `cs.sw.arm()`, 121 -/
  | arm

/-- Value of a signal which may be NaN. -/
def sig : Option K → XVal K
  | some q => .fin q
  | none => .nan

def step (s : St K) : Step → St K
  | .iBegin ts => { s with busy := some (Integrator.run s.i (some (5/2)) ts false) }
  | .iEnd => match s.busy with
    | some i => { s with i := i, busy := none }
    | none => s
  | .swRun =>
    let r := Switch.run 2 s.sw (fun k => some (if k = 0 then sig s.i.out else .fin (-3/2))) false
    { s with sw := r.st, events := s.events + (if r.event then 1 else 0), outs := r.res :: s.outs }
  | .sw0 => { s with sw := (Switch.switchTo 2 s.sw 0).1 }
  | .reset => { s with i := Integrator.step s.i (.setInit 0) }
  | .arm => { s with sw := (Switch.step 2 s.sw .arm).1 }

def exec (s : St K) (l : List Step) : St K := l.foldl step s

/-- A run of the time domain with time stamp `ts`. -/
def tick (ts : Nat) : List Step := [.iBegin ts, .iEnd, .swRun]
/-- The level action of `stopped` after 3 s. -/
def restart : List Step := [.sw0, .reset, .arm]

/-! ### Specification -/

/-- Runs and restarts which do not overlap. -/
inductive Call where
  | tick (ts : Nat)
  | restart

def Call.steps : Call → List Step
  | .tick ts => SystemTest1.tick ts
  | .restart => SystemTest1.restart

/-- Time stamps never go back, and from one run to the next less than 80 ms pass: less than the width of the window divided by the slope. -/
def InTime : Nat → List Call → Prop
  | _, [] => True
  | t, .tick ts :: l => t ≤ ts ∧ ts < t + 80000000 ∧ InTime ts l
  | t, .restart :: l => InTime t l

/-- The analog output is on the ramp or at the constant. -/
def Good (r : Switch.Res K) : Prop := ∃ v : K, r = .out (.fin v) ∧ ((0 ≤ v ∧ v ≤ 199/10) ∨ v = -3/2)

/-! ### Lemmas -/
variable [IsStrictOrderedRing K]

theorem seconds_nonneg {t0 t1 : Nat} (h : t0 ≤ t1) : (0 : K) ≤ Integrator.seconds t0 t1 := by
  have : (t0 : K) ≤ (t1 : K) := by exact_mod_cast h
  unfold Integrator.seconds
  linarith [div_le_div_of_nonneg_right this (by norm_num : (0 : K) ≤ 1000000000)]

theorem seconds_lt {t0 t1 n : Nat} (h : t1 < t0 + n) : Integrator.seconds t0 t1 < (n : K) / 1000000000 := by
  have : (t1 : K) < (t0 : K) + (n : K) := by exact_mod_cast h
  unfold Integrator.seconds
  have := (div_lt_div_iff_of_pos_right (by norm_num : (0 : K) < 1000000000)).2 this
  rw [add_div] at this
  linarith

/-- What never changes. -/
structure Ok (s : St K) (M : K) : Prop where
  busy : s.busy = none
  up : s.i.upper = M
  lo : s.i.lower = -M
  en : s.i.enabled = true
  lvl : s.i.hasLevel = false
  cond : s.sw.cond = some (20, 1/10, 1)
  reg : s.sw.registered = true
  noLvl : s.sw.hasLevel = false

/-- On the ramp with value `v`. -/
def Ramp (s : St K) (v : K) : Prop := s.i.prev = some v ∧ s.sw.cur = 0 ∧ s.sw.armed = true ∧ s.sw.switched = false ∧ 0 ≤ v ∧ v ≤ 199/10

/-- Left the ramp. -/
def Left (s : St K) : Prop := s.sw.cur = 1 ∧ s.sw.armed = false ∧ s.sw.switched = true

/-- The time which the integrator uses in a run. -/
def dt (s : St K) (ts : Nat) : K := if s.i.first then 0 else Integrator.seconds s.i.prevTs ts

/-- The integrator in a run. -/
theorem run_i {s : St K} {M : K} (h : Ok s M) {v : K} (hv : s.i.prev = some v) (ts : Nat) :
    ∃ w, (w = v + 5/2 * dt s ts ∨ w = v) ∧ (v + 5/2 * dt s ts < M → -M < v + 5/2 * dt s ts → w = v + 5/2 * dt s ts) ∧
      Integrator.run s.i (some (5/2)) ts false = { s.i with first := false, out := some w, prev := some w, prevTs := ts } := by
  have he := h.en; have hl := h.lvl
  by_cases hb : v + 5/2 * dt s ts < M ∧ -M < v + 5/2 * dt s ts
  · refine ⟨v + 5/2 * dt s ts, Or.inl rfl, fun _ _ => rfl, ?_⟩
    have hb' := hb
    unfold dt at hb'
    simp only [Integrator.run, Integrator.next, he, hl, hv, h.up, h.lo, if_true, Bool.false_eq_true, if_false, dt]
    rw [if_pos hb']
  · refine ⟨v, Or.inr rfl, fun h1 h2 => absurd ⟨h1, h2⟩ hb, ?_⟩
    have hb' := hb
    unfold dt at hb'
    simp only [Integrator.run, Integrator.next, he, hl, hv, h.up, h.lo, if_true, Bool.false_eq_true, if_false]
    rw [if_neg hb']

theorem ok_tick {s : St K} {M : K} (h : Ok s M) {v : K} (hv : s.i.prev = some v) (ts : Nat) : Ok (exec s (tick ts)) M := by
  obtain ⟨w, -, -, hi⟩ := run_i h hv ts
  have hsw : ∀ ins r, (Switch.run 2 s.sw ins r).st.cond = s.sw.cond ∧ (Switch.run 2 s.sw ins r).st.registered = s.sw.registered ∧
      (Switch.run 2 s.sw ins r).st.hasLevel = s.sw.hasLevel := by
    intro ins r
    have hp : ∀ st e, (Switch.publish 2 ins st e).st = st := by
      intro st e; unfold Switch.publish; split
      · split <;> rfl
      · rfl
    unfold Switch.run
    split
    · split
      · exact ⟨rfl, rfl, rfl⟩
      · split
        · split
          · exact ⟨rfl, rfl, rfl⟩
          · split
            · rw [hp]; simp only [Switch.switchTo]; split <;> exact ⟨rfl, rfl, rfl⟩
            · rw [hp]; exact ⟨rfl, rfl, rfl⟩
        · rw [hp]; exact ⟨rfl, rfl, rfl⟩
    · exact ⟨rfl, rfl, rfl⟩
  simp only [exec, tick, List.foldl, step, hi]
  exact ⟨rfl, h.up, h.lo, h.en, h.lvl, (hsw _ _).1.trans h.cond, (hsw _ _).2.1.trans h.reg, (hsw _ _).2.2.trans h.noLvl⟩

theorem ok_restart {s : St K} {M : K} (h : Ok s M) : Ok (exec s restart) M := by
  simp only [exec, restart, List.foldl, step, Switch.switchTo, Switch.step, Integrator.step]
  exact ⟨h.busy, h.up, h.lo, h.en, h.lvl, h.cond, h.reg, h.noLvl⟩

theorem tick_ramp {s : St K} {M : K} (hM : 21 ≤ M) (h : Ok s M) {v : K} (hr : Ramp s v) (ts : Nat) (h0 : 0 ≤ dt s ts) (h1 : dt s ts < 8/100) :
    (exec s (tick ts)).i.first = false ∧ (exec s (tick ts)).i.prevTs = ts ∧
    ((Ramp (exec s (tick ts)) (v + 5/2 * dt s ts) ∧ (exec s (tick ts)).events = s.events ∧ (exec s (tick ts)).outs = .out (.fin (v + 5/2 * dt s ts)) :: s.outs) ∨
     (Left (exec s (tick ts)) ∧ 199/10 < v + 5/2 * dt s ts ∧ (exec s (tick ts)).i.prev = some (v + 5/2 * dt s ts) ∧ (exec s (tick ts)).events = s.events + 1 ∧
      (exec s (tick ts)).outs = .out (.fin (-3/2)) :: s.outs)) := by
  obtain ⟨hv, hc, ha, hs, hv0, hv1⟩ := hr
  obtain ⟨w, -, hw, hi⟩ := run_i h hv ts
  have hw := hw (by linarith) (by linarith)
  subst hw
  have hcond := h.cond; have hreg := h.reg; have hnl := h.noLvl
  refine ⟨by simp [exec, tick, step, hi], by simp [exec, tick, step, hi], ?_⟩
  by_cases hin : 199/10 < v + 5/2 * dt s ts
  · right
    have h2 : v + 5/2 * dt s ts < 20 + 1/10 := by linarith
    have h3 : 20 - 1/10 < v + 5/2 * dt s ts := by linarith
    have hwin : Switch.inWindow (20 : K) (1/10) (.fin (v + 5/2 * dt s ts)) = true := by simp only [Switch.inWindow, XVal.lt, h2, h3, decide_true, Bool.and_self]
    have hrun : Switch.run 2 s.sw (fun k => some (if k = 0 then (.fin (v + 5/2 * dt s ts) : XVal K) else .fin (-3/2))) false =
        ⟨{ s.sw with cur := 1, switched := true, armed := false }, true, .out (.fin (-3/2))⟩ := by
      simp only [Switch.run, hc, ha, hs, hcond, if_true, hwin, hreg, hnl, Switch.switchTo, Switch.publish]
      simp
    refine ⟨?_, hin, by simp [exec, tick, step, hi], ?_, ?_⟩
    · simp only [exec, tick, List.foldl, step, hi, sig, hrun]; exact ⟨rfl, rfl, rfl⟩
    · simp only [exec, tick, List.foldl, step, hi, sig, hrun]; rfl
    · simp only [exec, tick, List.foldl, step, hi, sig, hrun]
  · left
    have h3 : ¬ (20 - 1/10 < v + 5/2 * dt s ts) := fun h' => hin (by linarith)
    have hwin : Switch.inWindow (20 : K) (1/10) (.fin (v + 5/2 * dt s ts)) = false := by simp only [Switch.inWindow, XVal.lt, h3, decide_false, Bool.and_false]
    have hrun : Switch.run 2 s.sw (fun k => some (if k = 0 then (.fin (v + 5/2 * dt s ts) : XVal K) else .fin (-3/2))) false =
        ⟨s.sw, false, .out (.fin (v + 5/2 * dt s ts))⟩ := by
      simp only [Switch.run, hc, ha, hs, hcond, if_true, hwin, Switch.publish]
      simp
    refine ⟨?_, ?_, ?_⟩
    · simp only [exec, tick, List.foldl, step, hi, sig, hrun]
      exact ⟨rfl, hc, ha, hs, by linarith, by linarith⟩
    · simp only [exec, tick, List.foldl, step, hi, sig, hrun]; rfl
    · simp only [exec, tick, List.foldl, step, hi, sig, hrun]

theorem tick_left {s : St K} {M : K} (h : Ok s M) {v : K} (hv : s.i.prev = some v) (hl : Left s) (ts : Nat) :
    (exec s (tick ts)).i.first = false ∧ (exec s (tick ts)).i.prevTs = ts ∧ Left (exec s (tick ts)) ∧ (∃ w, (exec s (tick ts)).i.prev = some w) ∧
      (exec s (tick ts)).events = s.events ∧ (exec s (tick ts)).outs = .out (.fin (-3/2)) :: s.outs := by
  obtain ⟨w, -, -, hi⟩ := run_i h hv ts
  obtain ⟨hc, ha, hs⟩ := hl
  have hrun : Switch.run 2 s.sw (fun k => some (if k = 0 then (.fin w : XVal K) else .fin (-3/2))) false = ⟨s.sw, false, .out (.fin (-3/2))⟩ := by
    simp [Switch.run, hc, ha, hs, Switch.publish]
  simp only [exec, tick, List.foldl, step, hi, sig, hrun]
  exact ⟨trivial, trivial, ⟨hc, ha, hs⟩, ⟨w, rfl⟩, rfl, trivial⟩

theorem restart_ramp {s : St K} : Ramp (exec s restart) 0 ∧ (exec s restart).i.first = s.i.first ∧ (exec s restart).i.prevTs = s.i.prevTs ∧ (exec s restart).events = s.events ∧
    (exec s restart).outs = s.outs := by
  simp only [exec, restart, List.foldl, step, Switch.switchTo, Switch.step, Integrator.step]
  exact ⟨⟨rfl, rfl, rfl, rfl, le_refl _, by norm_num⟩, trivial, trivial, trivial, trivial⟩

/-- The invariant of runs in time. -/
def Safe (M : K) (s : St K) (t : Nat) : Prop := Ok s M ∧ (s.i.first = true ∨ s.i.prevTs = t) ∧ ((∃ v, Ramp s v) ∨ (Left s ∧ ∃ v, s.i.prev = some v)) ∧ ∀ r ∈ s.outs, Good r

theorem dt_bounds {s : St K} {t ts : Nat} (ht : s.i.first = true ∨ s.i.prevTs = t) (h0 : t ≤ ts) (h1 : ts < t + 80000000) : 0 ≤ dt s ts ∧ dt s ts < 8/100 := by
  unfold dt
  split
  · exact ⟨le_refl _, by norm_num⟩
  · rcases ht with ht | rfl
    · contradiction
    · have := seconds_lt (K := K) h1
      push_cast at this
      exact ⟨seconds_nonneg h0, by norm_num at this ⊢; linarith⟩

omit [IsStrictOrderedRing K] in
theorem exec_append (s : St K) (a b : List Step) : exec s (a ++ b) = exec (exec s a) b := by simp [exec]

/-- The time stamp of the last run, `t` if there is none. -/
def lastRun (t : Nat) : List Call → Nat
  | [] => t
  | .tick ts :: l => lastRun ts l
  | .restart :: l => lastRun t l

theorem safe_exec {M : K} (hM : 21 ≤ M) (calls : List Call) : ∀ (s : St K) (t : Nat), Safe M s t → InTime t calls → Safe M (exec s (calls.flatMap Call.steps)) (lastRun t calls) := by
  induction calls with
  | nil => intro s t h _; exact h
  | cons c l ih =>
    intro s t ⟨hok, ht, hs, ho⟩ hin
    simp only [List.flatMap_cons, exec_append]
    cases c with
    | tick ts =>
      obtain ⟨h0, h1, h2⟩ := hin
      obtain ⟨hd0, hd1⟩ := dt_bounds ht h0 h1
      refine ih _ ts ?_ h2
      rcases hs with ⟨v, hr⟩ | ⟨hl, v, hv⟩
      · obtain ⟨hf, hp, hc⟩ := tick_ramp hM hok hr ts hd0 hd1
        refine ⟨ok_tick hok hr.1 ts, Or.inr hp, ?_, ?_⟩
        · rcases hc with ⟨hr', -⟩ | ⟨hl', -, hv', -⟩
          · exact Or.inl ⟨_, hr'⟩
          · exact Or.inr ⟨hl', _, hv'⟩
        · rcases hc with ⟨hr', -, ho'⟩ | ⟨-, -, -, -, ho'⟩
          · simp only [Call.steps, ho', List.mem_cons]
            rintro r (rfl | hr)
            · exact ⟨_, rfl, Or.inl hr'.2.2.2.2⟩
            · exact ho r hr
          · simp only [Call.steps, ho', List.mem_cons]
            rintro r (rfl | hr)
            · exact ⟨_, rfl, Or.inr rfl⟩
            · exact ho r hr
      · obtain ⟨hf, hp, hl', hw, -, ho'⟩ := tick_left hok hv hl ts
        refine ⟨ok_tick hok hv ts, Or.inr hp, Or.inr ⟨hl', hw⟩, ?_⟩
        simp only [Call.steps, ho', List.mem_cons]
        rintro r (rfl | hr)
        · exact ⟨_, rfl, Or.inr rfl⟩
        · exact ho r hr
    | restart =>
      obtain ⟨h1, h2, h3, -, h5⟩ := restart_ramp (s := s)
      refine ih _ t ⟨ok_restart hok, ?_, Or.inl ⟨0, h1⟩, ?_⟩ hin
      · simp only [Call.steps, h2, h3]; exact ht
      · simp only [Call.steps, h5]; exact ho

theorem safe_init {M : K} (t : Nat) : Safe M (init M) t :=
  ⟨⟨rfl, rfl, rfl, rfl, rfl, rfl, rfl, rfl⟩, Or.inl rfl, Or.inl ⟨0, rfl, rfl, rfl, rfl, le_refl _, by norm_num⟩, by simp [init]⟩

/-! ### C201 -/

/-- If the runs of the time domain are never more than 80 ms apart and restarts do not overlap with runs, every value at the analog output is on the ramp from 0 to 19.9 or the constant -1.5. -/
theorem bounded_partial (M : K) (hM : 21 ≤ M) (t : Nat) (calls : List Call) (hin : InTime t calls) : ∀ r ∈ (exec (init M) (calls.flatMap Call.steps)).outs, Good r :=
  (safe_exec hM calls _ t (safe_init t) hin).2.2.2

theorem seconds_add (a b c : Nat) : (Integrator.seconds a b : K) + Integrator.seconds b c = Integrator.seconds a c := by unfold Integrator.seconds; ring

theorem left_ticks {M : K} (tss : List Nat) : ∀ (s : St K), Ok s M → (∃ v, s.i.prev = some v) → Left s → (exec s ((tss.map Call.tick).flatMap Call.steps)).events = s.events := by
  induction tss with
  | nil => intro s _ _ _; rfl
  | cons ts tss ih =>
    intro s h ⟨v, hv⟩ hl
    obtain ⟨-, -, hl', hw, he, -⟩ := tick_left h hv hl ts
    simp only [List.map_cons, List.flatMap_cons, exec_append, show Call.steps (.tick ts) = tick ts from rfl]
    rw [ih _ (ok_tick h hv ts) hw hl']
    exact he

theorem ramp_fires {M : K} (hM : 21 ≤ M) (tss : List Nat) : ∀ (s : St K) (v : K), Ok s M → Ramp s v → s.i.first = false → InTime s.i.prevTs (tss.map Call.tick) →
    (exec s ((tss.map Call.tick).flatMap Call.steps)).events = s.events + (if 199/10 < v + 5/2 * Integrator.seconds s.i.prevTs (tss.getLastD s.i.prevTs) then 1 else 0) := by
  induction tss with
  | nil =>
    intro s v _ hr _ _
    have hz : (Integrator.seconds s.i.prevTs s.i.prevTs : K) = 0 := by unfold Integrator.seconds; ring
    have : ¬ (199/10 < v) := not_lt.2 hr.2.2.2.2.2
    simp [exec, hz, this]
  | cons ts tss ih =>
    intro s v h hr hf hin
    obtain ⟨h0, h1, h2⟩ := hin
    obtain ⟨hd0, hd1⟩ := dt_bounds (Or.inr rfl : s.i.first = true ∨ s.i.prevTs = s.i.prevTs) h0 h1
    obtain ⟨hf', hp, hc⟩ := tick_ramp hM h hr ts hd0 hd1
    have hdt : dt s ts = Integrator.seconds s.i.prevTs ts := by simp [dt, hf]
    have hlast : (ts :: tss).getLastD s.i.prevTs = tss.getLastD ts := by cases tss <;> simp [List.getLastD]
    simp only [List.map_cons, List.flatMap_cons, exec_append, hlast]
    rcases hc with ⟨hr', he, -⟩ | ⟨hl, hgt, hv', he, -⟩
    · rw [hdt] at hr'
      have := ih (exec s (tick ts)) _ (ok_tick h hr.1 ts) hr' hf' (by rw [hp]; exact h2)
      simp only [hp, he, add_assoc, ← mul_add, seconds_add] at this
      exact this
    · have hmono : ∀ (l : List Nat) (t : Nat), InTime t (l.map Call.tick) → t ≤ l.getLastD t := by
        intro l
        induction l with
        | nil => intro t _; exact le_refl _
        | cons a l ih2 =>
          intro t hin
          obtain ⟨g0, -, g2⟩ := hin
          have : (a :: l).getLastD t = l.getLastD a := by cases l <;> simp [List.getLastD]
          rw [this]
          exact le_trans g0 (ih2 a g2)
      have hge := seconds_nonneg (K := K) (hmono tss ts h2)
      have hadd := seconds_add (K := K) s.i.prevTs ts (tss.getLastD ts)
      rw [hdt] at hgt
      have : 199/10 < v + 5/2 * (Integrator.seconds s.i.prevTs (tss.getLastD ts) : K) := by linarith
      rw [if_pos this]
      rw [show Call.steps (.tick ts) = tick ts from rfl, left_ticks tss _ (ok_tick h hr.1 ts) ⟨_, hv'⟩ hl, he]

/-- After a restart the event stopping is triggered exactly once, as soon as the ramp is above 19.9: when more than 7.96 s have passed since the last run before the restart. -/
theorem fires_partial (M : K) (hM : 21 ≤ M) (t : Nat) (calls : List Call) (hin : InTime t calls) (ts0 : Nat) (h0 : Call.tick ts0 ∈ calls) (tss : List Nat)
    (hin' : InTime (lastRun t calls) (tss.map Call.tick)) :
    (exec (init M) ((calls ++ .restart :: tss.map Call.tick).flatMap Call.steps)).events = (exec (init M) (calls.flatMap Call.steps)).events +
      (if lastRun t calls + 7960000000 < tss.getLastD (lastRun t calls) then 1 else 0) := by
  obtain ⟨hok, ht, hs, -⟩ := safe_exec hM calls _ t (safe_init t) hin
  have hfirst : ∀ (l : List Call) (s : St K) (t : Nat), Safe M s t → InTime t l → (s.i.first = false ∨ ∃ ts, Call.tick ts ∈ l) → (exec s (l.flatMap Call.steps)).i.first = false := by
    intro l
    induction l with
    | nil => intro s t _ _ h; rcases h with h | ⟨ts, h⟩; exact h; simp at h
    | cons c l ih =>
      intro s t hsafe hi h
      simp only [List.flatMap_cons, exec_append]
      have hs1 := safe_exec hM [c] s t hsafe (by cases c <;> simp_all [InTime])
      simp only [List.flatMap_cons, List.flatMap_nil, List.append_nil] at hs1
      cases c with
      | tick ts =>
        refine ih _ ts hs1 hi.2.2 (Or.inl ?_)
        obtain ⟨hd0, hd1⟩ := dt_bounds hsafe.2.1 hi.1 hi.2.1
        rcases hsafe.2.2.1 with ⟨v, hr⟩ | ⟨hl, v, hv⟩
        · exact (tick_ramp hM hsafe.1 hr ts hd0 hd1).1
        · exact (tick_left hsafe.1 hv hl ts).1
      | restart =>
        refine ih _ t hs1 hi ?_
        rcases h with h | ⟨ts, h⟩
        · left; rw [show Call.steps .restart = restart from rfl, restart_ramp.2.1]; exact h
        · right; simp at h; exact ⟨ts, h⟩
  have hf := hfirst calls _ t (safe_init t) hin (Or.inr ⟨ts0, h0⟩)
  have hp : (exec (init M) (calls.flatMap Call.steps)).i.prevTs = lastRun t calls := by
    rcases ht with ht | ht
    · rw [hf] at ht; contradiction
    · exact ht
  obtain ⟨hr, hf2, hp2, he, -⟩ := restart_ramp (s := exec (init M) (calls.flatMap Call.steps))
  rw [List.flatMap_append, List.flatMap_cons, exec_append, exec_append, show Call.steps .restart = restart from rfl]
  have := ramp_fires hM tss _ 0 (ok_restart hok) hr (hf2.trans hf) (by rw [hp2, hp]; exact hin')
  rw [this, he, hp2, hp]
  congr 1
  generalize tss.getLastD (lastRun t calls) = b
  generalize lastRun t calls = a
  have key : (199/10 < (0 : K) + 5/2 * Integrator.seconds a b) ↔ a + 7960000000 < b := by
    rw [← Nat.cast_lt (α := K)]
    unfold Integrator.seconds
    push_cast
    constructor
    · intro h; linarith
    · intro h; linarith
  simp only [key]

/-- Above the window, not switched. -/
def Away (s : St K) : Prop := s.sw.cur = 0 ∧ ∃ v, s.i.prev = some v ∧ 201/10 ≤ v

theorem tick_away {s : St K} {M : K} (h : Ok s M) (ha : Away s) (ts : Nat) (hts : s.i.prevTs ≤ ts) :
    Away (exec s (tick ts)) ∧ (exec s (tick ts)).i.prevTs = ts ∧ (exec s (tick ts)).events = s.events ∧ ∃ w, 201/10 ≤ w ∧ (exec s (tick ts)).outs = .out (.fin w) :: s.outs := by
  obtain ⟨hc, v, hv, hge⟩ := ha
  obtain ⟨w, hw, -, hi⟩ := run_i h hv ts
  have hcond := h.cond
  have hd : 0 ≤ dt s ts := by unfold dt; split; exact le_refl _; exact seconds_nonneg hts
  have hw' : 201/10 ≤ w := by rcases hw with rfl | rfl <;> linarith
  have h3 : ¬ (w < 20 + 1/10) := by intro h'; linarith
  have hwin : Switch.inWindow (20 : K) (1/10) (.fin w) = false := by simp only [Switch.inWindow, XVal.lt, h3, decide_false, Bool.false_and]
  have hrun : Switch.run 2 s.sw (fun k => some (if k = 0 then (.fin w : XVal K) else .fin (-3/2))) false = ⟨s.sw, false, .out (.fin w)⟩ := by
    simp only [Switch.run, hc, hcond, if_true, hwin, Switch.publish]
    simp
  simp only [exec, tick, List.foldl, step, hi, sig, hrun]
  exact ⟨⟨hc, w, rfl, hw'⟩, trivial, rfl, w, hw', rfl⟩

/-- Time stamps never go back. -/
def Forward : Nat → List Nat → Prop
  | _, [] => True
  | t, ts :: l => t ≤ ts ∧ Forward ts l

theorem away_forever {M : K} (tss : List Nat) : ∀ (s : St K), Ok s M → Away s → Forward s.i.prevTs tss →
    (exec s ((tss.map Call.tick).flatMap Call.steps)).events = s.events ∧
    ∃ ws : List K, ws.length = tss.length ∧ (∀ w ∈ ws, 201/10 ≤ w) ∧ (exec s ((tss.map Call.tick).flatMap Call.steps)).outs = ws.map (fun w => .out (.fin w)) ++ s.outs := by
  induction tss with
  | nil => intro s _ _ _; exact ⟨rfl, [], rfl, by simp, rfl⟩
  | cons ts tss ih =>
    intro s h ha hf
    obtain ⟨ha', hp, he, w, hw, ho⟩ := tick_away h ha ts hf.1
    obtain ⟨v, hv, -⟩ := ha.2
    obtain ⟨he2, ws, hl, hws, ho2⟩ := ih _ (ok_tick h hv ts) ha' (by rw [hp]; exact hf.2)
    simp only [List.map_cons, List.flatMap_cons, exec_append]
    refine ⟨he2.trans he, ws ++ [w], by simp [hl], ?_, ?_⟩
    · intro x hx; rcases List.mem_append.1 hx with hx | hx
      · exact hws x hx
      · simp at hx; rw [hx]; exact hw
    · rw [show Call.steps (.tick ts) = tick ts from rfl, ho2, ho]; simp

/-- One late run is enough: when the ramp is at `v` and the next run comes so late that the ramp passes 20.1, the switch never switches again, the event stopping is never triggered again and
the analog output stays above 20.1 for ever. -/
theorem late_violated (M : K) (hM : 21 ≤ M) (t : Nat) (calls : List Call) (hin : InTime t calls) (v : K) (hr : Ramp (exec (init M) (calls.flatMap Call.steps)) v)
    (ts : Nat) (hts : (exec (init M) (calls.flatMap Call.steps)).i.prevTs ≤ ts)
    (hlate : 201/10 ≤ v + 5/2 * dt (exec (init M) (calls.flatMap Call.steps)) ts) (hb : v + 5/2 * dt (exec (init M) (calls.flatMap Call.steps)) ts < M)
    (tss : List Nat) (hf : Forward ts tss) :
    (exec (init M) ((calls ++ (ts :: tss).map Call.tick).flatMap Call.steps)).events = (exec (init M) (calls.flatMap Call.steps)).events ∧
    ∃ ws : List K, ws.length = tss.length + 1 ∧ (∀ w ∈ ws, 201/10 ≤ w) ∧
      (exec (init M) ((calls ++ (ts :: tss).map Call.tick).flatMap Call.steps)).outs = ws.map (fun w => .out (.fin w)) ++ (exec (init M) (calls.flatMap Call.steps)).outs := by
  obtain ⟨hok, -, -, -⟩ := safe_exec hM calls _ t (safe_init t) hin
  rw [List.flatMap_append, exec_append]
  generalize exec (init M) (calls.flatMap Call.steps) = s at *
  -- the late run
  obtain ⟨hv, hc, ha, hs, hv0, hv1⟩ := hr
  obtain ⟨w, -, hw, hi⟩ := run_i hok hv ts
  have hw := hw hb (by linarith)
  have h3 : ¬ (w < 20 + 1/10) := by intro h'; linarith
  have hwin : Switch.inWindow (20 : K) (1/10) (.fin w) = false := by simp only [Switch.inWindow, XVal.lt, h3, decide_false, Bool.false_and]
  have hcond := hok.cond
  have hrun : Switch.run 2 s.sw (fun k => some (if k = 0 then (.fin w : XVal K) else .fin (-3/2))) false = ⟨s.sw, false, .out (.fin w)⟩ := by
    simp only [Switch.run, hc, hcond, if_true, hwin, Switch.publish]
    simp
  have hst : exec s (tick ts) = ⟨{ s.i with first := false, out := some w, prev := some w, prevTs := ts }, none, s.sw, s.events, .out (.fin w) :: s.outs⟩ := by
    simp only [exec, tick, List.foldl, step, hi, sig, hrun]; rfl
  have hok' := ok_tick hok hv ts
  obtain ⟨he2, ws, hl, hws, ho2⟩ := away_forever tss (exec s (tick ts)) hok' (by rw [hst]; exact ⟨hc, w, rfl, by rw [hw]; exact hlate⟩) (by rw [hst]; exact hf)
  simp only [List.map_cons, List.flatMap_cons, exec_append, show Call.steps (.tick ts) = tick ts from rfl]
  refine ⟨by rw [he2, hst], ws ++ [w], by simp [hl], ?_, ?_⟩
  · intro x hx; rcases List.mem_append.1 hx with hx | hx
    · exact hws x hx
    · simp at hx; rw [hx, hw]; exact hlate
  · rw [ho2, hst]; simp

/-- `setInitCondition` takes no lock: when the level action of `stopped` is executed while the integrator runs, the reset is lost.  If the ramp has meanwhile passed 20.1 the switch is back at
the ramp and armed, but never switches again, and the analog output stays above 20.1 for ever. -/
theorem lost_reset_violated (M : K) (hM : 21 ≤ M) (t : Nat) (calls : List Call) (hin : InTime t calls) (v : K) (hv : (exec (init M) (calls.flatMap Call.steps)).i.prev = some v)
    (hge : 201/10 ≤ v) (ts : Nat) (hts : (exec (init M) (calls.flatMap Call.steps)).i.prevTs ≤ ts) (tss : List Nat) (hf : Forward ts tss) :
    (exec (init M) (calls.flatMap Call.steps ++ (.iBegin ts :: restart ++ [.iEnd, .swRun]) ++ (tss.map Call.tick).flatMap Call.steps)).events =
      (exec (init M) (calls.flatMap Call.steps)).events ∧
    ∃ ws : List K, ws.length = tss.length + 1 ∧ (∀ w ∈ ws, 201/10 ≤ w) ∧
      (exec (init M) (calls.flatMap Call.steps ++ (.iBegin ts :: restart ++ [.iEnd, .swRun]) ++ (tss.map Call.tick).flatMap Call.steps)).outs =
        ws.map (fun w => .out (.fin w)) ++ (exec (init M) (calls.flatMap Call.steps)).outs := by
  obtain ⟨hok, -, -, -⟩ := safe_exec hM calls _ t (safe_init t) hin
  rw [exec_append, exec_append]
  generalize exec (init M) (calls.flatMap Call.steps) = s at *
  obtain ⟨w, hw0, -, hi⟩ := run_i hok hv ts
  have hd : 0 ≤ dt s ts := by unfold dt; split; exact le_refl _; exact seconds_nonneg hts
  have hw : 201/10 ≤ w := by rcases hw0 with rfl | rfl <;> linarith
  have h3 : ¬ (w < 20 + 1/10) := by intro h'; linarith
  have hwin : Switch.inWindow (20 : K) (1/10) (.fin w) = false := by simp only [Switch.inWindow, XVal.lt, h3, decide_false, Bool.false_and]
  have hcond := hok.cond
  have hrun : Switch.run 2 { s.sw with cur := 0, armed := true, switched := false } (fun k => some (if k = 0 then (.fin w : XVal K) else .fin (-3/2))) false =
      ⟨{ s.sw with cur := 0, armed := true, switched := false }, false, .out (.fin w)⟩ := by
    simp only [Switch.run, hcond, if_true, hwin, Switch.publish]
    simp
  have hst : exec s (.iBegin ts :: restart ++ [.iEnd, .swRun]) = ⟨{ s.i with first := false, out := some w, prev := some w, prevTs := ts }, none,
      { s.sw with cur := 0, armed := true, switched := false }, s.events, .out (.fin w) :: s.outs⟩ := by
    have h02 : (0 : Nat) < 2 := by decide
    simp only [exec, restart, List.cons_append, List.nil_append, List.foldl, step, hi, sig, Switch.switchTo, Switch.step, h02, if_true, hrun]
    rfl
  rw [hst]
  obtain ⟨he2, ws, hl, hws, ho2⟩ := away_forever (M := M) tss ⟨{ s.i with first := false, out := some w, prev := some w, prevTs := ts }, none,
      { s.sw with cur := 0, armed := true, switched := false }, s.events, .out (.fin w) :: s.outs⟩
    ⟨rfl, hok.up, hok.lo, hok.en, hok.lvl, hok.cond, hok.reg, hok.noLvl⟩ ⟨rfl, w, rfl, hw⟩ hf
  refine ⟨he2, ws ++ [w], by simp [hl], ?_, ?_⟩
  · intro x hx; rcases List.mem_append.1 hx with hx | hx
    · exact hws x hx
    · simp at hx; rw [hx]; exact hw
  · rw [ho2]; simp

/-- When the level action of `stopped` switches back to the ramp between the runs of the integrator and of the switch, one value of the old ramp is written to the analog output; any value above
20.1 which the ramp has reached meanwhile. -/
theorem glitch_violated (M : K) (hM : 21 ≤ M) (t : Nat) (calls : List Call) (hin : InTime t calls) (v : K) (hv : (exec (init M) (calls.flatMap Call.steps)).i.prev = some v)
    (hl : Left (exec (init M) (calls.flatMap Call.steps))) (hge : 201/10 ≤ v) (ts : Nat) (hts : (exec (init M) (calls.flatMap Call.steps)).i.prevTs ≤ ts) :
    ∃ w : K, v ≤ w ∧ (exec (init M) (calls.flatMap Call.steps ++ [.iBegin ts, .iEnd, .sw0, .swRun, .reset, .arm])).outs =
      .out (.fin w) :: (exec (init M) (calls.flatMap Call.steps)).outs ∧ ¬ Good (.out (.fin w) : Switch.Res K) := by
  obtain ⟨hok, -, -, -⟩ := safe_exec hM calls _ t (safe_init t) hin
  rw [exec_append]
  generalize exec (init M) (calls.flatMap Call.steps) = s at *
  obtain ⟨w, hw0, -, hi⟩ := run_i hok hv ts
  have hd : 0 ≤ dt s ts := by unfold dt; split; exact le_refl _; exact seconds_nonneg hts
  have hw : v ≤ w := by rcases hw0 with rfl | rfl <;> linarith
  obtain ⟨-, ha, hs⟩ := hl
  have hrun : Switch.run 2 { s.sw with cur := 0 } (fun k => some (if k = 0 then (.fin w : XVal K) else .fin (-3/2))) false = ⟨{ s.sw with cur := 0 }, false, .out (.fin w)⟩ := by
    simp only [Switch.run, ha, hs, Switch.publish]
    simp
  refine ⟨w, hw, ?_, ?_⟩
  · have h02 : (0 : Nat) < 2 := by decide
    simp only [exec, List.foldl, step, hi, sig, Switch.switchTo, h02, if_true, hrun]
  · rintro ⟨x, hx, h⟩
    simp only [Switch.Res.out.injEq, XVal.fin.injEq] at hx
    subst hx
    rcases h with ⟨-, h⟩ | h <;> linarith

/-- Cases: runs every 79.6 ms; the 100th reaches 19.9. -/
def ramp100 : List Call := ((List.range 101).map (fun k => Call.tick (k * 79600000)))

example : InTime 0 ramp100 := by
  have : ∀ (n k : Nat), InTime (k * 79600000) ((List.range' k n).map (fun k => Call.tick (k * 79600000))) := by
    intro n
    induction n with
    | zero => intro k; trivial
    | succ n ih =>
      intro k
      cases n with
      | zero => exact ⟨by omega, by omega, trivial⟩
      | succ n => exact ⟨by omega, by omega, by have := ih (k + 1); exact ⟨by omega, by omega, this.2.2⟩⟩
  have h := this 101 0
  rw [← List.range_eq_range'] at h
  simpa [ramp100] using h

/-- One more run switches. -/
example : (exec (init (1000000 : ℚ)) ((ramp100 ++ [Call.tick 8039600000]).flatMap Call.steps)).events = 1 ∧
    ((exec (init (1000000 : ℚ)) ((ramp100 ++ [Call.tick 8039600000]).flatMap Call.steps)).outs.take 2 = [.out (.fin (-3/2)), .out (.fin (199/10))]) := by decide +kernel

/-- If it comes 0.4 ms later, it does not. -/
example : (exec (init (1000000 : ℚ)) ((ramp100 ++ [Call.tick 8040000000, Call.tick 9000000000]).flatMap Call.steps)).events = 0 ∧
    ((exec (init (1000000 : ℚ)) ((ramp100 ++ [Call.tick 8040000000, Call.tick 9000000000]).flatMap Call.steps)).outs.take 2 = [.out (.fin (45/2)), .out (.fin (201/10))]) := by decide +kernel

/-- The reset is lost or not. -/
example : ((exec (init (1000000 : ℚ)) (([.tick 0, .tick 8000000000, .tick 11000000000].flatMap Call.steps) ++ [.iBegin 11010000000] ++ restart ++ [.iEnd, .swRun])).outs.take 2 =
      [.out (.fin (1101/40)), .out (.fin (-3/2))]) ∧
    ((exec (init (1000000 : ℚ)) (([.tick 0, .tick 8000000000, .tick 11000000000].flatMap Call.steps) ++ restart ++ [.iBegin 11010000000] ++ [.iEnd, .swRun])).outs.take 2 =
      [.out (.fin (1/40)), .out (.fin (-3/2))]) ∧
    ((exec (init (1000000 : ℚ)) (([.tick 0, .tick 8000000000, .tick 11000000000].flatMap Call.steps) ++ [.iBegin 11010000000, .iEnd, .sw0, .swRun, .reset, .arm])).outs.take 2 =
      [.out (.fin (1101/40)), .out (.fin (-3/2))]) := by decide +kernel

end Verif.Examples.SystemTest1
