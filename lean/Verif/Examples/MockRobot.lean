import Verif.Examples.App
/-!
C198: the safety properties of the mock robot (examples/system/MockRobotSafetyProperties.hpp, MockRobotExample.cpp) on the model of the safety system.
-/
namespace Verif.Examples.MockRobot
open Verif.Safety

/-- Levels (15-18) and events (19-21). -/
abbrev off : LevelRef := 0
abbrev homing : LevelRef := 1
abbrev ready : LevelRef := 2
abbrev moving : LevelRef := 3
abbrev abort : EventId := 10
abbrev homingDone : EventId := 11
abbrev startMoving : EventId := 12

/-- The constructor, MockRobotSafetyProperties.hpp:14-41. -/
def props : Properties Bool :=
  let p : Properties Bool := { lvl := fun _ => { id := -1 } }
  let p := (((p.addLevel off).addLevel homing).addLevel ready).addLevel moving
  let p := p.addEventToLevel homing homingDone ready .pub
  let p := p.addEventToLevel ready startMoving moving .pub
  let p := p.addEventToLevelAndAbove homing abort off .priv
  let p := p.setLvl off { p.lvl off with hasAction := true }
  { p with entryLevel := some homing }

/-- The program: `exitFunction` (37-39) triggers `abort`; the level action of `off` (33) stops the executor and triggers nothing. -/
def app : App Bool := ⟨props, [abort], fun _ _ => []⟩

/-! ### Specification -/

/-- The executor is stopped: the level action of `off` is executed. -/
def Stops (tr : List Obs) : Prop := Obs.action off ∈ tr

/-- The levels which a run makes current, in order. -/
def levels (tr : List Obs) : List LevelRef := tr.filterMap (fun o => match o with | .level l => some l | _ => none)

/-- The level changes of the robot: it can stay, go on from homing to ready and from ready to moving, and be switched off. -/
def Next (c m : LevelRef) : Prop := m = c ∨ (c = homing ∧ m = ready) ∨ (c = ready ∧ m = moving) ∨ m = off

/-- Every level is a successor of the one before. -/
def Chain : LevelRef → List LevelRef → Prop
  | _, [] => True
  | c, m :: l => Next c m ∧ Chain m l

/-! ### Lemmas -/

theorem reg {c : LevelRef} (hc : c = off ∨ c = homing ∨ c = ready ∨ c = moving) {t : Trig} {d : LevelRef} (h : Registered props c t d) :
    (c = homing ∧ d = ready ∧ t.event = homingDone) ∨ (c = ready ∧ d = moving ∧ t.event = startMoving) ∨ (c ≠ off ∧ d = off ∧ t = ⟨abort, true⟩) := by
  obtain ⟨ty, hf, hp⟩ := h
  have hm := findTrans_mem hf
  obtain ⟨e, pr⟩ := t
  rcases hc with rfl | rfl | rfl | rfl
  · have : (props.lvl off).transitions = [] := rfl
    rw [this] at hm; simp at hm
  · have : (props.lvl homing).transitions = [(homingDone, (ready, .pub)), (abort, (off, .priv))] := rfl
    rw [this] at hm; simp at hm
    rcases hm with ⟨rfl, rfl, rfl⟩ | ⟨rfl, rfl, rfl⟩ <;> simp_all
  · have : (props.lvl ready).transitions = [(startMoving, (moving, .pub)), (abort, (off, .priv))] := rfl
    rw [this] at hm; simp at hm
    rcases hm with ⟨rfl, rfl, rfl⟩ | ⟨rfl, rfl, rfl⟩ <;> simp_all
  · have : (props.lvl moving).transitions = [(abort, (off, .priv))] := rfl
    rw [this] at hm; simp at hm
    obtain ⟨rfl, rfl, rfl⟩ := hm
    simp_all

theorem abort_registered {c : LevelRef} (hc : c = homing ∨ c = ready ∨ c = moving) : Registered props c ⟨abort, true⟩ off := by
  rcases hc with rfl | rfl | rfl <;> exact ⟨.priv, rfl, Or.inr rfl⟩

def Level (c : LevelRef) : Prop := c = off ∨ c = homing ∨ c = ready ∨ c = moving

/-- Chosen level. -/
theorem chosen {c : LevelRef} (hc : Level c) (pend : List Trig) :
    Next c (pend.foldl (pick props c) c) ∧ (pend.foldl (pick props c) c = off → c = off ∨ ⟨abort, true⟩ ∈ pend) ∧ (⟨abort, true⟩ ∈ pend → pend.foldl (pick props c) c = off) := by
  have key : c ≠ off → (⟨abort, true⟩ : Trig) ∈ pend → (props.lvl (pend.foldl (pick props c) c)).id ≤ 0 := by
    intro h0 ha
    have hc' : c = homing ∨ c = ready ∨ c = moving := by rcases hc with h | h; exact absurd h h0; exact h
    exact Reaction.foldl_pick_mem (abort_registered hc') (by rcases hc' with rfl | rfl | rfl <;> decide) pend c ha
  rcases exact_registered props c pend _ rfl with h | ⟨t, ht, hr⟩
  · rw [h] at key ⊢
    refine ⟨Or.inl rfl, fun h => Or.inl h, fun ha => ?_⟩
    rcases hc with h0 | rfl | rfl | rfl
    · exact h0
    all_goals exact absurd (key (by decide) ha) (by decide)
  · generalize pend.foldl (pick props c) c = m at hr key ⊢
    rcases reg hc hr with ⟨rfl, rfl, -⟩ | ⟨rfl, rfl, -⟩ | ⟨-, rfl, rfl⟩
    · exact ⟨Or.inr (Or.inl ⟨rfl, rfl⟩), fun h => absurd h (by decide), fun ha => absurd (key (by decide) ha) (by decide)⟩
    · exact ⟨Or.inr (Or.inr (Or.inl ⟨rfl, rfl⟩)), fun h => absurd h (by decide), fun ha => absurd (key (by decide) ha) (by decide)⟩
    · exact ⟨Or.inr (Or.inr (Or.inr rfl)), fun _ => Or.inr ht, fun _ => rfl⟩

theorem next_level {c m : LevelRef} (hc : Level c) (h : Next c m) : Level m := by
  unfold Level Next at *
  rcases h with rfl | ⟨-, rfl⟩ | ⟨-, rfl⟩ | rfl
  · exact hc
  all_goals simp

theorem chain_of_legal (tr : List Obs) : ∀ (c : LevelRef) (pend : List Trig), Level c → Legal (exactRule props) c pend tr → Chain c (levels tr) := by
  induction tr with
  | nil => intro c pend _ _; trivial
  | cons o tr ih =>
    intro c pend hc h
    cases o with
    | level m =>
      simp only [Legal] at h
      have hn : Next c m := by rw [h.1]; exact (chosen hc pend).1
      exact ⟨hn, ih m [] (next_level hc hn) h.2⟩
    | trig t => exact ih c _ hc h
    | checked => exact ih c _ hc h
    | action => exact ih c _ hc h
    | set => exact ih c _ hc h

theorem level_of_legal (tr : List Obs) : ∀ (c : LevelRef) (pend : List Trig), Level c → Legal (exactRule props) c pend tr → Level (after c pend tr).1 := by
  induction tr with
  | nil => intro c pend hc _; exact hc
  | cons o tr ih =>
    intro c pend hc h
    cases o with
    | level m =>
      simp only [Legal] at h
      exact ih m [] (next_level hc (by rw [h.1]; exact (chosen hc pend).1)) h.2
    | trig t => exact ih c _ hc h
    | checked => exact ih c _ hc h
    | action => exact ih c _ hc h
    | set => exact ih c _ hc h

theorem no_requests (env : Env Bool) (n : Nat) (l : LevelRef) (hl : Level l) (t : Trig) (ht : t ∈ requests app.props { env with act := priv (app.act l n) } l) : t.priv = false := by
  have h1 : (app.props.lvl l).inputAction = [] := by rcases hl with rfl | rfl | rfl | rfl <;> rfl
  have h2 : (app.props.lvl l).outputAction = [] := by rcases hl with rfl | rfl | rfl | rfl <;> rfl
  unfold requests at ht
  rw [h1, h2] at ht
  simp only [inReq, outReq, priv, app, List.map_nil, ite_self, List.append_nil, List.mem_append, pubTrigs, List.mem_map] at ht
  rcases ht with ⟨e, -, rfl⟩ | ⟨e, -, rfl⟩ <;> rfl

/-! ### C198 -/

/-- The safety system accepts the properties and starts in the level homing. -/
theorem constructs (acts : LevelRef → Nat) : ∃ s, construct props acts = .ok s ∧ s.cur = some homing := ⟨_, rfl, rfl⟩

/-- Whatever events any threads trigger at any time, the levels follow each other in the order homing, ready, moving, off, without a step back; off is final. -/
theorem order (acts : LevelRef → Nat) (s0 : Sys) (h0 : construct props acts = .ok s0) (evs : List (Ev Bool)) : ∃ s tr, exec app s0 evs = .ok (s, tr) ∧ Chain homing (levels tr) := by
  obtain ⟨e, he, -, hi⟩ := construct_inv h0
  have he' : e = homing := by simpa [props] using he.symm
  subst he'
  obtain ⟨s, tr, h, hl, -⟩ := exec_legal app evs hi
  exact ⟨s, tr, h, chain_of_legal tr _ _ (by simp [Level]) hl⟩

/-- After the exit handler was called, the next run of the safety system stops the executor, whatever happened before and whatever other events are triggered. -/
theorem exit_stops (acts : LevelRef → Nat) (s0 : Sys) (h0 : construct props acts = .ok s0) (hist : List (Ev Bool)) (s : Sys) (tr : List Obs) (hx : exec app s0 hist = .ok (s, tr))
    (calls : List EventId) (env : Env Bool) : ∃ s' tr', exec app s (.exit :: (calls.map Ev.call ++ [.run env])) = .ok (s', tr') ∧ Stops tr' := by
  obtain ⟨e, he, -, hi⟩ := construct_inv h0
  have he' : e = homing := by simpa [props] using he.symm
  subst he'
  obtain ⟨s1, tr1, h, hl, hi1⟩ := exec_legal app hist hi
  rw [hx] at h
  simp only [Except.ok.injEq, Prod.mk.injEq] at h
  obtain ⟨rfl, rfl⟩ := h
  have hc := level_of_legal tr _ _ (by simp [Level]) hl
  generalize (after homing [] tr).1 = c at hi1 hc
  generalize (after homing [] tr).2 = pend at hi1
  obtain ⟨s2, h2, hi2⟩ := triggers_inv (priv app.exitT) hi1
  obtain ⟨s3, h3, hi3⟩ := calls_inv app calls hi2
  obtain ⟨s4, mid, h4, -, hex⟩ := run_exact (app.env s3 env) hi3
  have hoff := (chosen hc (pend ++ priv app.exitT ++ pubTrigs calls)).2.2 (by simp [priv, app])
  rw [show app.props = props from rfl, hoff] at hex
  have hrun := exec_run h4
  have h5 := exec_append app _ _ _ _ _ _ _ h3 hrun
  refine ⟨s4, _, by simp only [exec, step, h2, h5, bind, Except.bind, Pure.pure, Except.pure]; rfl, ?_⟩
  have : Obs.action off ∈ mid.filter Obs.isExec := by rw [hex]; decide
  unfold Stops
  simp [(List.mem_filter.1 this).1]

def isExit : Ev Bool → Bool
  | .exit => true
  | _ => false

/-- Without the exit handler the executor is never stopped: no thread can trigger the private event abort. -/
theorem only_exit_stops (acts : LevelRef → Nat) (s0 : Sys) (h0 : construct props acts = .ok s0) (evs : List (Ev Bool)) (hev : ∀ e ∈ evs, isExit e = false) :
    ∃ s tr, exec app s0 evs = .ok (s, tr) ∧ ¬ Stops tr := by
  obtain ⟨e, he, -, hi⟩ := construct_inv h0
  have he' : e = homing := by simpa [props] using he.symm
  subst he'
  have pubs : ∀ (c : LevelRef) (pend : List Trig), Level c → c ≠ off → (∀ t ∈ pend, t.priv = false) → Level (pend.foldl (pick props c) c) ∧ pend.foldl (pick props c) c ≠ off := by
    intro c pend hc h0 hp
    refine ⟨next_level hc (chosen hc pend).1, fun h => ?_⟩
    rcases (chosen hc pend).2.1 h with h | h
    · exact h0 h
    · have := hp _ h
      simp at this
  have hk : Kept app (fun e => isExit e = false) (fun c pend => Level c ∧ c ≠ off ∧ ∀ t ∈ pend, t.priv = false) := by
    refine ⟨?_, ?_, ?_⟩
    · rintro c pend e ⟨h1, h2, h3⟩ -
      refine ⟨h1, h2, fun t ht => ?_⟩
      rcases List.mem_append.1 ht with ht | ht
      · exact h3 t ht
      · simp at ht; simp [ht]
    · intro c pend _ h
      simp [isExit] at h
    · rintro c pend env n ⟨h1, h2, h3⟩ -
      obtain ⟨h4, h5⟩ := pubs c pend h1 h2 h3
      obtain ⟨h6, h7⟩ := pubs _ (requests app.props { env with act := priv (app.act (pend.foldl (pick props c) c) n) } (pend.foldl (pick props c) c)) h4 h5
        (fun t ht => no_requests env n _ h4 t ht)
      exact ⟨h6, h7, by simp⟩
  obtain ⟨s, tr, c, pend, h, -, -, hx⟩ := exec_inv app hk evs hev hi ⟨by simp [Level], by decide, by simp⟩
  refine ⟨s, tr, h, fun hs => ?_⟩
  obtain ⟨c1, pend1, ⟨h1, h2, h3⟩, hm⟩ := hx _ hs rfl
  obtain ⟨h4, h5⟩ := pubs c1 pend1 h1 h2 h3
  rw [show app.props = props from rfl] at hm
  generalize pend1.foldl (pick props c1) c1 = l at hm h4 h5
  rcases h4 with rfl | rfl | rfl | rfl
  · exact h5 rfl
  all_goals revert hm; decide

def quiet : Env Bool := ⟨fun _ => false, [], fun _ => [], fun _ => []⟩

/-- Case: homing, ready, moving; a thread triggers abort, which is private; then the exit handler. -/
example : (match exec app (Sys.setAct { cur := some homing, next := some homing, nofAct := fun _ => 0 } homing 0)
      [.run quiet, .call homingDone, .run quiet, .call abort, .call startMoving, .run quiet, .exit, .run quiet, .run quiet] with
    | .ok (_, tr) => (levels tr, decide (Obs.action off ∈ tr))
    | .error _ => ([], false)) = ([1, 1, 2, 2, 3, 3, 0, 0, 0, 0], true) := by decide +kernel

end Verif.Examples.MockRobot
