import Verif.Examples.App
import Mathlib.Tactic.ByContra
/-!
C314: the safety properties of examples/can/CANexample2.hpp:64-87 on the model of the safety system (four levels, no critical inputs and outputs), with the exit function of the signal handler.
C315: the sequences of the same example, CANexample2.hpp:89-229: what is sent to the drives for every behaviour of the safety level.
-/
namespace Verif.Examples.CanExample2
open Verif.Safety

abbrev init : LevelRef := 0
abbrev ready : LevelRef := 1
abbrev moving : LevelRef := 2
abbrev stop : LevelRef := 3
abbrev initDone : EventId := 10
abbrev startMoving : EventId := 11
abbrev shutDown : EventId := 12

/-- The constructor, CANexample2.hpp:66-83. -/
def props : Properties Bool :=
  let p : Properties Bool := { lvl := fun _ => { id := -1 }, criticalOutputs := [], criticalInputs := [] }
  let p := (((p.addLevel init).addLevel ready).addLevel moving).addLevel stop
  let p := p.addEventToLevel init initDone ready .pub
  let p := p.addEventToLevel ready startMoving moving .pub
  let p := p.addEventToLevel ready shutDown stop .pub
  let p := p.addEventToLevel moving shutDown stop .pub
  { p with entryLevel := some init }

/-- The program: the exit function (80-82) triggers `shutDown`, there are no level actions. -/
def app : App Bool := ⟨props, [shutDown], fun _ _ => []⟩

/-! ### Specification -/

/-- What happens between two runs of the safety system: an event, or the signal handler. -/
inductive Between
  | event (e : EventId)
  | exit
  deriving DecidableEq, Repr

def Between.ev : Between → Ev Bool
  | .event e => .call e
  | .exit => .exit

/-- Was the event `e` triggered, by the handler or otherwise. -/
def Triggered (e : EventId) (l : List Between) : Prop := .event e ∈ l ∨ (e = shutDown ∧ .exit ∈ l)

instance (e : EventId) (l : List Between) : Decidable (Triggered e l) := by unfold Triggered; infer_instance

/-- The level of the next run, after `l` happened in level `c`. -/
def nextLevel (c : LevelRef) (l : List Between) : LevelRef :=
  if c = init then (if Triggered initDone l then ready else init)
  else if c = ready then (if Triggered startMoving l then moving else if Triggered shutDown l then stop else ready)
  else if c = moving then (if Triggered shutDown l then stop else moving)
  else c

def Level (c : LevelRef) : Prop := c = init ∨ c = ready ∨ c = moving ∨ c = stop

/-! ### Lemmas -/

theorem pick_init (n : LevelRef) (hn : n = init ∨ n = ready) (t : Trig) :
    pick props init n t = if t.event = initDone then ready else n := by
  obtain ⟨e, pr⟩ := t
  have h : (props.lvl init).dest e pr = if e = initDone then some ready else none := by
    have : (props.lvl init).transitions = [(initDone, (ready, .pub))] := rfl
    simp only [Level.dest, this, findTrans]
    by_cases h : initDone = e
    · subst h; rfl
    · rw [if_neg h, if_neg (Ne.symm h)]
  unfold pick
  simp only [h]
  by_cases he : e = initDone
  · simp only [he, if_true]
    rcases hn with rfl | rfl
    · rfl
    · rfl
  · simp [he]

theorem pick_ready (n : LevelRef) (hn : n = ready ∨ n = moving ∨ n = stop) (t : Trig) :
    pick props ready n t = if t.event = startMoving then moving else if t.event = shutDown then (if n = moving then moving else stop) else n := by
  obtain ⟨e, pr⟩ := t
  have h : (props.lvl ready).dest e pr = if e = startMoving then some moving else if e = shutDown then some stop else none := by
    have : (props.lvl ready).transitions = [(startMoving, (moving, .pub)), (shutDown, (stop, .pub))] := rfl
    simp only [Level.dest, this, findTrans]
    by_cases h : startMoving = e
    · subst h; rfl
    · rw [if_neg h, if_neg (Ne.symm h)]
      by_cases h2 : shutDown = e
      · subst h2; rfl
      · rw [if_neg h2, if_neg (Ne.symm h2)]
  unfold pick
  simp only [h]
  by_cases he : e = startMoving
  · simp only [he, if_true]
    rcases hn with rfl | rfl | rfl <;> rfl
  · by_cases h2 : e = shutDown
    · subst h2
      rcases hn with rfl | rfl | rfl <;> rfl
    · simp [he, h2]

theorem pick_moving (n : LevelRef) (hn : n = moving ∨ n = stop) (t : Trig) :
    pick props moving n t = if t.event = shutDown then stop else n := by
  obtain ⟨e, pr⟩ := t
  have h : (props.lvl moving).dest e pr = if e = shutDown then some stop else none := by
    have : (props.lvl moving).transitions = [(shutDown, (stop, .pub))] := rfl
    simp only [Level.dest, this, findTrans]
    by_cases h : shutDown = e
    · subst h; rfl
    · rw [if_neg h, if_neg (Ne.symm h)]
  unfold pick
  simp only [h]
  by_cases he : e = shutDown
  · simp only [he, if_true]
    rcases hn with rfl | rfl <;> rfl
  · simp [he]

theorem pick_stop (n : LevelRef) (t : Trig) : pick props stop n t = n := by
  have : (props.lvl stop).transitions = [] := rfl
  simp [pick, Level.dest, this, findTrans]

/-- The events of `l` as the safety system sees them. -/
def trigs : List Between → List Trig
  | [] => []
  | .event e :: l => ⟨e, false⟩ :: trigs l
  | .exit :: l => ⟨shutDown, true⟩ :: trigs l

theorem triggered_cons_event (e e' : EventId) (l : List Between) :
    Triggered e (.event e' :: l) ↔ e = e' ∨ Triggered e l := by simp [Triggered, or_assoc]

theorem triggered_cons_exit (e : EventId) (l : List Between) :
    Triggered e (.exit :: l) ↔ e = shutDown ∨ Triggered e l := by
  simp [Triggered]
  constructor
  · rintro (h | h)
    · exact .inr (.inl h)
    · exact .inl h
  · rintro (h | h | h)
    · exact .inr h
    · exact .inl h
    · exact .inr h.1

/-- An event occurs among the triggers exactly if it was triggered. -/
theorem mem_trigs (e : EventId) (l : List Between) : (∃ t ∈ trigs l, t.event = e) ↔ Triggered e l := by
  induction l with
  | nil => simp [trigs, Triggered]
  | cons b l ih =>
    cases b with
    | event e' => rw [triggered_cons_event, ← ih]; simp [trigs, eq_comm]
    | exit => rw [triggered_cons_exit, ← ih]; simp [trigs, eq_comm]

theorem fold_init (ts : List Trig) : ∀ n, (n = init ∨ n = ready) →
    ts.foldl (pick props init) n = if ∃ t ∈ ts, t.event = initDone then ready else n := by
  induction ts with
  | nil => intro n _; simp
  | cons t ts ih =>
    intro n hn
    rw [List.foldl_cons, pick_init n hn]
    by_cases h : t.event = initDone
    · rw [if_pos h, ih _ (.inr rfl)]; simp [h]
    · rw [if_neg h, ih _ hn]; simp [h]

theorem fold_ready (ts : List Trig) : ∀ n, (n = ready ∨ n = moving ∨ n = stop) →
    ts.foldl (pick props ready) n =
      if n = moving ∨ ∃ t ∈ ts, t.event = startMoving then moving else if ∃ t ∈ ts, t.event = shutDown then stop else n := by
  induction ts with
  | nil => intro n _; by_cases h : n = moving <;> simp [h]
  | cons t ts ih =>
    intro n hn
    rw [List.foldl_cons, pick_ready n hn]
    by_cases h : t.event = startMoving
    · rw [if_pos h, ih _ (.inr (.inl rfl))]; simp [h]
    · rw [if_neg h]
      by_cases h2 : t.event = shutDown
      · rw [if_pos h2]
        by_cases h3 : n = moving
        · rw [if_pos h3, ih _ (.inr (.inl rfl))]; simp [h3]
        · rw [if_neg h3, ih _ (.inr (.inr rfl))]
          have h4 : ¬ stop = moving := by decide
          simp [h, h2, h3, h4]
      · rw [if_neg h2, ih _ hn]; simp [h, h2]

theorem fold_moving (ts : List Trig) : ∀ n, (n = moving ∨ n = stop) →
    ts.foldl (pick props moving) n = if ∃ t ∈ ts, t.event = shutDown then stop else n := by
  induction ts with
  | nil => intro n _; simp
  | cons t ts ih =>
    intro n hn
    rw [List.foldl_cons, pick_moving n hn]
    by_cases h : t.event = shutDown
    · rw [if_pos h, ih _ (.inr rfl)]; simp [h]
    · rw [if_neg h, ih _ hn]; simp [h]

theorem fold_stop (ts : List Trig) : ∀ n, ts.foldl (pick props stop) n = n := by
  induction ts with
  | nil => intro n; rfl
  | cons t ts ih => intro n; rw [List.foldl_cons, pick_stop, ih]

theorem fold_level {c : LevelRef} (hc : Level c) (ts : List Trig) : Level (ts.foldl (pick props c) c) := by
  rcases hc with rfl | rfl | rfl | rfl
  · rw [fold_init ts _ (.inl rfl)]; split <;> simp [Level]
  · rw [fold_ready ts _ (.inl rfl)]; split
    · simp [Level]
    · split <;> simp [Level]
  · rw [fold_moving ts _ (.inl rfl)]; split <;> simp [Level]
  · rw [fold_stop]; simp [Level]

theorem next_exact {c : LevelRef} (hc : Level c) (l : List Between) : (trigs l).foldl (pick props c) c = nextLevel c l := by
  have e1 : ready ≠ init := by decide
  have e2 : moving ≠ init ∧ moving ≠ ready := by decide
  have e3 : stop ≠ init ∧ stop ≠ ready ∧ stop ≠ moving := by decide
  have e4 : ¬ ready = moving := by decide
  rcases hc with rfl | rfl | rfl | rfl
  · rw [fold_init _ _ (.inl rfl)]; simp [nextLevel, mem_trigs]
  · rw [fold_ready _ _ (.inl rfl)]; simp [nextLevel, mem_trigs, e1, e4]
  · rw [fold_moving _ _ (.inl rfl)]; simp [nextLevel, mem_trigs, e2]
  · rw [fold_stop]; simp [nextLevel, e3]

theorem kept_level (ok : Ev Bool → Prop) : Kept app ok (fun c _ => Level c) :=
  ⟨fun _ _ _ h _ => h, fun _ _ h _ => h, fun _ _ _ _ h _ => fold_level (fold_level h _) _⟩

theorem between_inv (l : List Between) : ∀ {s : Sys} {c pend}, Inv props s c pend →
    ∃ s', exec app s (l.map Between.ev) = .ok (s', (trigs l).map Obs.trig) ∧ Inv props s' c (pend ++ trigs l) := by
  induction l with
  | nil => intro s c pend h; exact ⟨s, rfl, by simpa [trigs] using h⟩
  | cons b l ih =>
    intro s c pend h
    cases b with
    | event e =>
      obtain ⟨s1, h1, hi1⟩ := triggers_inv [⟨e, false⟩] h
      obtain ⟨s2, h2, hi2⟩ := ih hi1
      refine ⟨s2, ?_, by simpa [trigs] using hi2⟩
      simp [Between.ev, exec, step, show app.props = props from rfl, h1, h2, trigs, bind, Except.bind, Pure.pure, Except.pure]
    | exit =>
      obtain ⟨s1, h1, hi1⟩ := triggers_inv (priv app.exitT) h
      obtain ⟨s2, h2, hi2⟩ := ih hi1
      refine ⟨s2, ?_, by simpa [trigs, priv, app] using hi2⟩
      simp only [List.map_cons, Between.ev, exec, step, show app.props = props from rfl, h1, h2, trigs, bind, Except.bind, Pure.pure, Except.pure]
      rfl

/-- A state directly after a run of the safety system, after any history. -/
theorem after_run (acts : LevelRef → Nat) (s0 : Sys) (h0 : construct props acts = .ok s0) (hist : List (Ev Bool)) (env : Env Bool) (s : Sys) (tr : List Obs)
    (hx : exec app s0 (hist ++ [.run env]) = .ok (s, tr)) : ∃ c, s.cur = some c ∧ Level c ∧ Inv props s c [] := by
  obtain ⟨e, he, -, hi⟩ := construct_inv h0
  have he' : e = init := by simpa [props] using he.symm
  subst he'
  obtain ⟨s1, tr1, c, pend, h, hi1, hg, -⟩ := exec_inv app (kept_level (fun _ => True)) hist (by simp) hi (by simp [Level])
  obtain ⟨s2, mid, h2, hi2, -⟩ := run_exact (p := app.props) (app.env s1 env) hi1
  have hrun := exec_append app _ _ _ _ _ _ _ h (exec_run h2)
  rw [hx] at hrun
  simp only [Except.ok.injEq, Prod.mk.injEq] at hrun
  obtain ⟨rfl, rfl⟩ := hrun
  exact ⟨_, hi2.1, fold_level (fold_level hg _) _, hi2⟩

/-! ### C314 -/

/-- The safety system accepts the properties and starts in the level `init`. -/
theorem constructs (acts : LevelRef → Nat) : ∃ s, construct props acts = .ok s ∧ s.cur = some init := ⟨_, rfl, rfl⟩

/-- C314. After any history the level of the next run is exactly that of the specification: an event leads to its level, `startMoving` wins over the shut down. -/
theorem level_exact (acts : LevelRef → Nat) (s0 : Sys) (h0 : construct props acts = .ok s0) (hist : List (Ev Bool)) (env : Env Bool) (s : Sys) (tr : List Obs)
    (hx : exec app s0 (hist ++ [.run env]) = .ok (s, tr)) (l : List Between) (env' : Env Bool) :
    ∃ c s' pre mid, s.cur = some c ∧ exec app s (l.map Between.ev ++ [.run env']) = .ok (s', pre ++ .level (nextLevel c l) :: mid) ∧ (∀ o ∈ pre, ∃ t, o = .trig t) := by
  obtain ⟨c, hcur, hc, hi⟩ := after_run acts s0 h0 hist env s tr hx
  obtain ⟨s1, h1, hi1⟩ := between_inv l hi
  obtain ⟨s2, mid, h2, -, -⟩ := run_exact (p := app.props) (app.env s1 env') hi1
  rw [show app.props = props from rfl, List.nil_append, next_exact hc] at h2
  refine ⟨c, s2, _, mid, hcur, exec_append app _ _ _ _ _ _ _ h1 (exec_run h2), ?_⟩
  intro o ho
  obtain ⟨t, -, rfl⟩ := List.mem_map.mp ho
  exact ⟨t, rfl⟩

/-- C314. When the signal handler stops the machine: exactly if the level is `moving` or `stop`, or `ready` and nobody starts the movement before the next run. -/
theorem exit_iff {c : LevelRef} (hc : Level c) (l : List Between) (he : .exit ∈ l) :
    nextLevel c l = stop ↔ c = moving ∨ c = stop ∨ (c = ready ∧ .event startMoving ∉ l) := by
  have e1 : ready ≠ init := by decide
  have e2 : moving ≠ init ∧ moving ≠ ready := by decide
  have e3 : stop ≠ init ∧ stop ≠ ready ∧ stop ≠ moving := by decide
  have e4 : ¬ ready = moving ∧ ¬ ready = stop ∧ ¬ init = moving ∧ ¬ init = stop ∧ ¬ init = ready ∧ ¬ moving = stop := by decide
  have hs : Triggered shutDown l := .inr ⟨rfl, he⟩
  have hm : Triggered startMoving l ↔ .event startMoving ∈ l := by
    have : ¬ startMoving = shutDown := by decide
    simp [Triggered, this]
  rcases hc with rfl | rfl | rfl | rfl
  · by_cases h : Triggered initDone l <;> simp [nextLevel, e4, h]
  · by_cases h : Between.event startMoving ∈ l <;> simp [nextLevel, e1, e4, hs, hm, h]
  · simp [nextLevel, e2, hs]
  · simp [nextLevel, e3]

example : nextLevel moving [.exit] = stop := by decide +kernel
example : nextLevel ready [.event startMoving, .exit] = moving := by decide +kernel

/-- C314, part which holds: from the level `moving`, after any history and whatever happens besides, the next run after the signal is in level `stop`, and so are all others. -/
theorem exit_moving_partial (acts : LevelRef → Nat) (s0 : Sys) (h0 : construct props acts = .ok s0) (hist : List (Ev Bool)) (env : Env Bool) (s : Sys) (tr : List Obs)
    (hx : exec app s0 (hist ++ [.run env]) = .ok (s, tr)) (hm : s.cur = some moving ∨ s.cur = some stop) (l : List Between) (he : .exit ∈ l) (env' : Env Bool) :
    ∃ s' pre mid, exec app s (l.map Between.ev ++ [.run env']) = .ok (s', pre ++ .level stop :: mid) := by
  obtain ⟨c, s', pre, mid, hcur, h, -⟩ := level_exact acts s0 h0 hist env s tr hx l env'
  have hc : c = moving ∨ c = stop := by rw [hcur] at hm; simpa using hm
  have : nextLevel c l = stop := by
    refine (exit_iff ?_ l he).mpr ?_
    · rcases hc with rfl | rfl <;> simp [Level]
    · rcases hc with rfl | rfl <;> simp
  exact ⟨s', pre, mid, by rw [← this]; exact h⟩

/-- C314, violated: during the initialisation the signal handler has no effect, whatever else happens. -/
theorem exit_init_violated (l : List Between) : nextLevel init l ≠ stop ∧ nextLevel init (.exit :: l) = nextLevel init l := by
  have h : Triggered initDone (.exit :: l) ↔ Triggered initDone l := by
    rw [triggered_cons_exit]
    have : ¬ initDone = shutDown := by decide
    simp [this]
  constructor
  · unfold nextLevel
    simp only [if_true]
    split <;> decide
  · simp only [nextLevel, if_true, h]

/-- C314, violated: in the level `ready` the shut down is lost if the movement is started before the next run, before or after the signal: `stop` was added last and is the highest level. -/
theorem exit_ready_violated (l : List Between) (h : .event startMoving ∈ l) : nextLevel ready l = moving := by
  have h' : Triggered startMoving l := .inl h
  have e1 : ready ≠ init := by decide
  simp [nextLevel, e1, h']

example : nextLevel ready [.exit, .event startMoving] = moving := exit_ready_violated _ (by simp)

/-! ### C315: the sequences -/

/-- What the sequences do to the drives and to the program. -/
inductive Act
  | nmt (start : Bool)
  | configure
  | operation (node : ℕ) (on : Bool)
  | blocks (on : Bool)
  | trigger (e : EventId)
  | velocity (v : ℤ)
  | abort
  | stopExecutor
  deriving DecidableEq, Repr

/-- `InitSequence::action`, 94-132; the reports of the states are left out. -/
def initActs : List Act :=
  [.nmt false, .configure, .operation 1 true, .operation 2 true, .nmt true, .blocks true, .trigger initDone]

/-- `StopSequence::action`, 175-188. -/
def stopActs : List Act := [.blocks false, .nmt false, .operation 1 false, .operation 2 false, .abort, .stopExecutor]

/-- Where the main sequence is: before the comparison number `k` of its chain, in the loop of `MoveSequence` with the variable `vel`, at its end. -/
inductive Pc
  | main (k : ℕ)
  | move (vel : ℕ)
  | done
  deriving DecidableEq, Repr

/-- The assignments of the variable `vel` of type `uint32_t`, 155-156. -/
def toggle (vel : ℕ) : ℕ := if vel = 2 then (((-1 : ℤ) % 2 ^ 32).toNat) else 2

/-- One reading of the current level, 149 and 206-217. Every comparison of the chain reads the level again, so that it can change in between. -/
def step (s : Pc) (l : LevelRef) : Pc × List Act :=
  match s with
  | .done => (.done, [])
  | .move vel => if l = moving then (.move (toggle vel), [.velocity vel]) else (.main 0, [])
  | .main 0 => if l = init then (.main 0, initActs) else (.main 1, [])
  | .main 1 => if l = ready then (.main 0, [.trigger startMoving]) else (.main 2, [])
  | .main 2 => if l = moving then (.move 2, []) else (.main 3, [])
  | .main _ => if l = stop then (.done, stopActs) else (.main 0, [])

/-- The sequences while the levels `ls` are read. -/
def acts : Pc → List LevelRef → List Act
  | _, [] => []
  | s, l :: ls => (step s l).2 ++ acts (step s l).1 ls

def final : Pc → List LevelRef → Pc
  | s, [] => s
  | s, l :: ls => final (step s l).1 ls

/-- The velocities which are meant: 2 and -1 in turn. -/
def meant (v : ℤ) : Prop := v = 2 ∨ v = -1

theorem toggle_two : toggle 2 = 4294967295 := by decide +kernel

/-- What one reading can do: nothing, initialise, start, set the velocity, or stop and end. -/
theorem step_cases (s : Pc) (l : LevelRef) (hs : s ≠ .done) :
    ((step s l).1 ≠ .done ∧ ((step s l).2 = [] ∨ (step s l).2 = initActs ∨ (step s l).2 = [.trigger startMoving] ∨ ∃ v, s = .move v ∧ (step s l).2 = [.velocity v])) ∨
    (l = stop ∧ step s l = (.done, stopActs)) := by
  unfold step
  split
  · exact absurd rfl hs
  · split <;> simp
  · split <;> simp
  · split <;> simp
  · split <;> simp
  · split <;> simp_all

theorem step_move {s : Pc} {l : LevelRef} {w : ℕ} (h : (step s l).1 = .move w) : w = 2 ∨ ∃ v, s = .move v ∧ w = toggle v := by
  unfold step at h
  split at h
  · cases h
  · split at h <;> simp_all
  · split at h <;> simp_all
  · split at h <;> simp_all
  · split at h <;> simp_all
  · split at h <;> simp_all

/-- The velocities are 2 and 4294967295, whatever levels are read. -/
theorem velocities (ls : List LevelRef) : ∀ s : Pc, (∀ v, s = .move v → v = 2 ∨ v = 4294967295) →
    ∀ v, .velocity v ∈ acts s ls → v = 2 ∨ v = 4294967295 := by
  induction ls with
  | nil => intro s _ v h; simp [acts] at h
  | cons l ls ih =>
    intro s hs v hv
    simp only [acts, List.mem_append] at hv
    rcases hv with hv | hv
    · by_cases hd : s = .done
      · subst hd; simp [step] at hv
      · rcases step_cases s l hd with ⟨-, h | h | h | ⟨w, hw, h⟩⟩ | ⟨-, h⟩
        · rw [h] at hv; simp at hv
        · rw [h] at hv; simp [initActs] at hv
        · rw [h] at hv; simp at hv
        · rw [h] at hv
          simp at hv
          rcases hs w hw with rfl | rfl <;> simp [hv]
        · rw [h] at hv; simp [stopActs] at hv
    · refine ih _ ?_ v hv
      intro w hw
      rcases step_move hw with h | ⟨u, hu, h⟩
      · exact .inl h
      · rcases hs u hu with rfl | rfl
        · rw [h, toggle_two]; exact .inr rfl
        · rw [h]; left; decide

/-- C315, violated: the velocity -1 is never sent. -/
theorem velocities_violated (ls : List LevelRef) : Act.velocity (-1) ∉ acts (.main 0) ls := by
  intro h
  have := velocities ls (.main 0) (by simp) _ h
  omega

/-- C315, violated: the second velocity of every movement is 4294967295; scaled by 50 it does not fit into the 32 bits of the message. -/
theorem second_velocity_violated (ls : List LevelRef) :
    acts (.main 2) ([moving, moving, moving] ++ ls) = [.velocity 2, .velocity 4294967295] ++ acts (.move 2) ls ∧ ¬ meant 4294967295 ∧ (2 : ℤ) ^ 32 ≤ 4294967295 * 50 := by
  have t2 : toggle 4294967295 = 2 := by decide
  refine ⟨?_, by unfold meant; omega, by decide⟩
  simp [acts, step, toggle_two, t2]

/-- C315, part which holds: each movement begins with the velocity 2. -/
theorem first_velocity_partial (ls : List LevelRef) :
    acts (.main 2) ([moving, moving] ++ ls) = .velocity 2 :: acts (.move 4294967295) ls := by
  simp [acts, step, toggle_two]

theorem done_acts (ls : List LevelRef) : acts .done ls = [] ∧ final .done ls = .done := by
  induction ls with
  | nil => exact ⟨rfl, rfl⟩
  | cons l ls ih => simp [acts, final, step, ih]

/-- An action which takes the drives out of operation. -/
def Off (a : Act) : Prop := a = .blocks false ∨ a = .operation 1 false ∨ a = .operation 2 false ∨ a = .abort ∨ a = .stopExecutor

/-- C315. The blocks are switched off, the drives disabled and the executor stopped only at the very end and only once, if the level `stop` was read; in the order blocks, drives, executor. -/
theorem stop_last (ls : List LevelRef) : ∀ s : Pc, s ≠ .done →
    ((∀ a ∈ acts s ls, ¬ Off a) ∧ final s ls ≠ .done) ∨
    (stop ∈ ls ∧ final s ls = .done ∧ ∃ as, acts s ls = as ++ [.blocks false, .nmt false, .operation 1 false, .operation 2 false, .abort, .stopExecutor] ∧ ∀ a ∈ as, ¬ Off a) := by
  induction ls with
  | nil => intro s hs; exact .inl ⟨by simp [acts], hs⟩
  | cons l ls ih =>
    intro s hs
    simp only [acts, final]
    rcases step_cases s l hs with ⟨h1, h⟩ | ⟨hl, h⟩
    · have h2 : ∀ a ∈ (step s l).2, ¬ Off a := by
        rcases h with h | h | h | ⟨v, -, h⟩ <;> rw [h] <;> simp [initActs, Off]
      rcases ih _ h1 with ⟨h3, h4⟩ | ⟨hm, h3, as, h4, h5⟩
      · refine .inl ⟨?_, h4⟩
        intro a ha
        rcases List.mem_append.mp ha with ha | ha
        · exact h2 a ha
        · exact h3 a ha
      · refine .inr ⟨List.mem_cons_of_mem _ hm, h3, (step s l).2 ++ as, by rw [h4, List.append_assoc], ?_⟩
        intro a ha
        rcases List.mem_append.mp ha with ha | ha
        · exact h2 a ha
        · exact h5 a ha
    · right
      rw [h]
      exact ⟨by simp [hl], (done_acts ls).2, [], by simp [(done_acts ls).1, stopActs], by simp⟩

/-- C315. The level being `init` at first, a velocity is only set after both drives were enabled, the nodes and the blocks started, and before anything is switched off. -/
theorem velocity_enabled (ls : List LevelRef) (v : ℤ) (pre post : List Act) (h : acts (.main 0) (init :: ls) = pre ++ .velocity v :: post) :
    [.nmt false, .configure, .operation 1 true, .operation 2 true, .nmt true, .blocks true, .trigger initDone] <+: pre ∧ ∀ a ∈ pre, ¬ Off a := by
  have e : acts (.main 0) (init :: ls) = initActs ++ acts (.main 0) ls := by simp [acts, step]
  constructor
  · rw [e] at h
    rcases List.append_eq_append_iff.mp h with ⟨a, h1, -⟩ | ⟨a, h1, h2⟩
    · exact ⟨a, h1.symm⟩
    · cases a with
      | nil => simp at h1; rw [← h1]; exact List.prefix_refl _
      | cons b a =>
        simp at h2
        have : Act.velocity v ∈ initActs := by rw [h1, h2.1]; simp
        simp [initActs] at this
  · intro a ha
    rcases stop_last (init :: ls) (.main 0) (by simp) with ⟨h1, -⟩ | ⟨-, -, as, h1, h2⟩
    · exact h1 a (by rw [h]; simp [ha])
    · rw [h] at h1
      rcases List.append_eq_append_iff.mp h1 with ⟨b, h3, -⟩ | ⟨b, h3, h4⟩
      · exact h2 a (by rw [h3]; simp [ha])
      · exfalso
        have : Act.velocity v ∈ b ++ Act.velocity v :: post := by simp
        rw [← h4] at this
        simp at this

example : acts (.main 0) [init, ready, ready, moving, moving, moving, moving, moving, stop, stop, stop, stop, stop, stop] =
    initActs ++ [.trigger startMoving, .velocity 2, .velocity 4294967295] ++ stopActs := by decide +kernel

end Verif.Examples.CanExample2
