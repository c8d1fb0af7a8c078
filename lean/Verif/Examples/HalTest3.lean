import Verif.Examples.App
/-!
C316: the program examples/hal/HalTest3.hpp with its watchdog: the safety properties (37-82) on the model of the safety system.  The watchdog is a critical input whose readings are given by
the environment; arming it (66) is left out.
-/
namespace Verif.Examples.HalTest3
open Verif.Safety

abbrev off : LevelRef := 0
abbrev ready : LevelRef := 1
abbrev moving : LevelRef := 2
abbrev abort : EventId := 10
abbrev startMoving : EventId := 11
abbrev wdt : InputRef := 20

/-- The constructor, HalTest3.hpp:39-74. -/
def props : Properties Bool :=
  let p : Properties Bool := { lvl := fun _ => { id := -1 }, criticalOutputs := [], criticalInputs := [wdt] }
  let p := ((p.addLevel off).addLevel ready).addLevel moving
  let p := p.addEventToLevel ready startMoving moving .pub
  let p := p.addEventToLevelAndAbove ready abort off .priv
  let p := p.setLvl off { p.lvl off with inputAction := [some ⟨wdt, .ignore⟩], hasAction := true }
  let p := p.setLvl ready { p.lvl ready with inputAction := [some ⟨wdt, .ignore⟩], hasAction := true }
  let p := p.setLvl moving { p.lvl moving with inputAction := [some ⟨wdt, .check true abort⟩] }
  { p with entryLevel := some ready }

/-- The program: the exit function (72-74) triggers `abort`, the level action of `ready` (65-68) `startMoving`; that of `off` (62-64) stops the executor. -/
def app : App Bool := ⟨props, [abort], fun l _ => if l = ready then [startMoving] else []⟩

/-! ### Specification -/

/-- The executor is stopped: the level action of `off` is executed. -/
def Stops (tr : List Obs) : Prop := Obs.action off ∈ tr

/-- Between two runs: events of other threads and the signal handler. -/
def NoRun : Ev Bool → Prop
  | .run _ => False
  | _ => True

/-- In the run the watchdog has run down. -/
def Expired (env : Env Bool) : Prop := env.read 0 = false

/-- No signal, and the watchdog is running in every run; everything else is arbitrary. -/
def Quiet : Ev Bool → Prop
  | .call _ => True
  | .exit => False
  | .run env => env.read 0 = true

/-! ### Lemmas -/

def Level (c : LevelRef) : Prop := c = off ∨ c = ready ∨ c = moving

/-- The request for the level `off`. -/
abbrev ab : Trig := ⟨abort, true⟩

theorem pick_off (n : LevelRef) (t : Trig) : pick props off n t = n := by
  have : (props.lvl off).transitions = [] := rfl
  simp [pick, Level.dest, this, findTrans]

theorem pick_moving (n : LevelRef) (hn : n = moving ∨ n = off) (t : Trig) : pick props moving n t = if t = ab then off else n := by
  obtain ⟨e, pr⟩ := t
  have h : (props.lvl moving).dest e pr = if e = abort ∧ pr = true then some off else none := by
    have : (props.lvl moving).transitions = [(abort, (off, .priv))] := rfl
    simp only [Level.dest, this, findTrans]
    by_cases h : abort = e
    · subst h; cases pr <;> rfl
    · simp [h, Ne.symm h]
  unfold pick
  simp only [h]
  by_cases he : e = abort ∧ pr = true
  · obtain ⟨rfl, rfl⟩ := he
    rcases hn with rfl | rfl <;> rfl
  · simp [he, ab]

theorem pick_ready (n : LevelRef) (hn : Level n) (t : Trig) : pick props ready n t =
    if t = ab then off else if t.event = startMoving then (if n = off then off else moving) else n := by
  obtain ⟨e, pr⟩ := t
  have h : (props.lvl ready).dest e pr = if e = abort ∧ pr = true then some off else if e = startMoving then some moving else none := by
    have : (props.lvl ready).transitions = [(startMoving, (moving, .pub)), (abort, (off, .priv))] := rfl
    simp only [Level.dest, this, findTrans]
    by_cases h : startMoving = e
    · subst h; cases pr <;> rfl
    · by_cases h2 : abort = e
      · subst h2; cases pr <;> rfl
      · simp [h, Ne.symm h, h2, Ne.symm h2]
  unfold pick
  simp only [h]
  by_cases he : e = abort ∧ pr = true
  · obtain ⟨rfl, rfl⟩ := he
    rcases hn with rfl | rfl | rfl <;> rfl
  · by_cases h2 : e = startMoving
    · subst h2
      rcases hn with rfl | rfl | rfl <;> cases pr <;> rfl
    · simp [he, h2, ab]

theorem fold_off (ts : List Trig) : ∀ n, ts.foldl (pick props off) n = n := by
  induction ts with
  | nil => intro n; rfl
  | cons t ts ih => intro n; rw [List.foldl_cons, pick_off, ih]

theorem fold_moving (ts : List Trig) : ∀ n, (n = moving ∨ n = off) → ts.foldl (pick props moving) n = if ab ∈ ts then off else n := by
  induction ts with
  | nil => intro n _; simp
  | cons t ts ih =>
    intro n hn
    rw [List.foldl_cons, pick_moving n hn]
    by_cases h : t = ab
    · rw [if_pos h, ih _ (.inr rfl)]; simp [h]
    · rw [if_neg h, ih _ hn]; simp [Ne.symm h]

theorem fold_ready (ts : List Trig) : ∀ n, Level n → ts.foldl (pick props ready) n =
    if n = off ∨ ab ∈ ts then off else if n = moving ∨ ∃ t ∈ ts, t.event = startMoving then moving else n := by
  have e1 : ¬ moving = off := by decide
  induction ts with
  | nil => intro n hn; rcases hn with rfl | rfl | rfl <;> simp
  | cons t ts ih =>
    intro n hn
    rw [List.foldl_cons, pick_ready n hn]
    by_cases h : t = ab
    · rw [if_pos h, ih _ (.inl rfl)]; simp [h]
    · rw [if_neg h]
      by_cases h2 : t.event = startMoving
      · rw [if_pos h2]
        by_cases h3 : n = off
        · rw [if_pos h3, ih _ (.inl rfl)]; simp [h3]
        · rw [if_neg h3, ih _ (.inr (.inr rfl))]; simp [h3, h2, Ne.symm h, e1]
      · rw [if_neg h2, ih _ hn]; simp [Ne.symm h, h2]

theorem fold_level {c : LevelRef} (hc : Level c) (ts : List Trig) : Level (ts.foldl (pick props c) c) := by
  rcases hc with rfl | rfl | rfl
  · rw [fold_off]; simp [Level]
  · rw [fold_ready ts _ (.inr (.inl rfl))]; split
    · simp [Level]
    · split <;> simp [Level]
  · rw [fold_moving ts _ (.inl rfl)]; split <;> simp [Level]

/-- The request wins in every level. -/
theorem fold_ab {c : LevelRef} (hc : Level c) (ts : List Trig) (h : ab ∈ ts) : ts.foldl (pick props c) c = off := by
  rcases hc with rfl | rfl | rfl
  · rw [fold_off]
  · rw [fold_ready ts _ (.inr (.inl rfl))]; simp [h]
  · rw [fold_moving ts _ (.inl rfl)]; simp [h]

/-- Without the request the level does not become `off`. -/
theorem fold_no_ab {c : LevelRef} (hc : c = ready ∨ c = moving) (ts : List Trig) (h : ab ∉ ts) :
    ts.foldl (pick props c) c = ready ∨ ts.foldl (pick props c) c = moving := by
  have e1 : ¬ ready = off ∧ ¬ ready = moving := by decide
  rcases hc with rfl | rfl
  · rw [fold_ready ts _ (.inr (.inl rfl))]
    simp only [h, e1, false_or, if_false]
    split <;> simp
  · rw [fold_moving ts _ (.inl rfl)]; simp [h]

theorem kept_level (ok : Ev Bool → Prop) : Kept app ok (fun c _ => Level c) :=
  ⟨fun _ _ _ h _ => h, fun _ _ h _ => h, fun _ _ _ _ h _ => fold_level (fold_level h _) _⟩

theorem not_pub (es : List EventId) : ab ∉ pubTrigs es := by simp [pubTrigs, ab]

/-- The request in a run: exactly in the level `moving` with the watchdog run down. -/
theorem requests_ab (env : Env Bool) (l : LevelRef) (hl : Level l) (n : Nat) :
    ab ∈ requests props { env with act := priv (app.act l n) } l ↔ l = moving ∧ Expired env := by
  have e1 : ¬ off = moving ∧ ¬ ready = moving ∧ ¬ off = ready ∧ ¬ abort = startMoving := by decide
  rcases hl with rfl | rfl | rfl
  · have h1 : (props.lvl off).inputAction = [some ⟨wdt, .ignore⟩] := rfl
    have h2 : (props.lvl off).outputAction = [] := rfl
    have h3 : (props.lvl off).hasAction = true := rfl
    simp [requests, h1, h2, h3, inReq, outReq, InTest.eval, ownTrig, priv, app, e1, pubTrigs]
  · have h1 : (props.lvl ready).inputAction = [some ⟨wdt, .ignore⟩] := rfl
    have h2 : (props.lvl ready).outputAction = [] := rfl
    have h3 : (props.lvl ready).hasAction = true := rfl
    simp [requests, h1, h2, h3, inReq, outReq, InTest.eval, ownTrig, priv, app, e1, pubTrigs]
  · have h1 : (props.lvl moving).inputAction = [some ⟨wdt, .check true abort⟩] := rfl
    have h2 : (props.lvl moving).outputAction = [] := rfl
    have h3 : (props.lvl moving).hasAction = false := rfl
    cases hr : env.read 0 <;> simp [requests, h1, h2, h3, inReq, outReq, InTest.eval, ownTrig, pubTrigs, hr, CppVal.eq, Expired]

/-- In the level `ready` every run starts the movement. -/
theorem requests_start (env : Env Bool) (n : Nat) : (⟨startMoving, true⟩ : Trig) ∈ requests props { env with act := priv (app.act ready n) } ready := by
  have h1 : (props.lvl ready).inputAction = [some ⟨wdt, .ignore⟩] := rfl
  have h2 : (props.lvl ready).outputAction = [] := rfl
  have h3 : (props.lvl ready).hasAction = true := rfl
  simp [requests, h1, h2, h3, inReq, outReq, InTest.eval, ownTrig, priv, app, pubTrigs]

theorem cycle_off : Obs.action off ∈ expectedCycle props off := by decide

theorem cycle {l : LevelRef} (h : Obs.action off ∈ expectedCycle props l) : l = off := by
  simp only [expectedCycle, List.mem_append, List.mem_map] at h
  rcases h with (⟨y, -, h⟩ | h) | ⟨y, -, h⟩
  · cases h
  · split at h
    · simp at h; exact h.symm
    · simp at h
  · cases h

/-- Events and signals between two runs. -/
theorem noRun_inv (evs : List (Ev Bool)) (h : ∀ e ∈ evs, NoRun e) : ∀ {s : Sys} {c pend}, Safety.Inv props s c pend →
    ∃ s' tr ts, exec app s evs = .ok (s', tr) ∧ Safety.Inv props s' c (pend ++ ts) ∧ (.exit ∈ evs → ab ∈ ts) := by
  induction evs with
  | nil => intro s c pend hi; exact ⟨s, [], [], rfl, by simpa using hi, by simp⟩
  | cons e evs ih =>
    intro s c pend hi
    have he := h e (by simp)
    have step : ∃ s' o ts, Examples.step app s e = .ok (s', o) ∧ Safety.Inv props s' c (pend ++ ts) ∧ (e = .exit → ab ∈ ts) := by
      cases e with
      | call e =>
        obtain ⟨s', h1, h2⟩ := triggers_inv [⟨e, false⟩] hi
        exact ⟨s', _, _, h1, h2, by simp⟩
      | exit =>
        obtain ⟨s', h1, h2⟩ := triggers_inv (priv app.exitT) hi
        exact ⟨s', _, _, h1, h2, by simp [priv, app, ab]⟩
      | run env => exact absurd he (by simp [NoRun])
    obtain ⟨s1, o1, ts1, h1, hi1, ha1⟩ := step
    obtain ⟨s2, o2, ts2, h2, hi2, ha2⟩ := ih (fun x hx => h x (by simp [hx])) hi1
    refine ⟨s2, o1 ++ o2, ts1 ++ ts2, by simp [exec, h1, h2, bind, Except.bind, Pure.pure, Except.pure], by simpa using hi2, ?_⟩
    intro hm
    rcases List.mem_cons.1 hm with hm | hm
    · exact List.mem_append_left _ (ha1 hm.symm)
    · exact List.mem_append_right _ (ha2 hm)

/-- A run in terms of the program. -/
theorem run_at {s : Sys} {c : LevelRef} {pend : List Trig} (h : Safety.Inv props s c pend) (env : Env Bool) (l : LevelRef) (hl : pend.foldl (pick props c) c = l) :
    ∃ s' mid, exec app s [.run env] = .ok (s', .level l :: mid) ∧ (∃ n, Safety.Inv props s' ((requests props { env with act := priv (app.act l n) } l).foldl (pick props l) l) []) ∧
      mid.filter Obs.isExec = expectedCycle props l := by
  obtain ⟨s', mid, h1, h2, h3⟩ := run_exact (p := app.props) (app.env s env) h
  rw [show app.props = props from rfl, hl] at h1 h2 h3
  refine ⟨s', mid, exec_run h1, ⟨s.nofAct (s.next.getD 0) + 1, ?_⟩, h3⟩
  have : s.next.getD 0 = l := by rw [h.2, hl]; rfl
  simpa only [App.env, this] using h2

theorem reach (acts : LevelRef → Nat) (s0 : Sys) (h0 : construct props acts = .ok s0) (hist : List (Ev Bool)) (s : Sys) (tr : List Obs) (hx : exec app s0 hist = .ok (s, tr)) :
    ∃ c pend, Level c ∧ Safety.Inv props s c pend := by
  obtain ⟨e, he, -, hi⟩ := construct_inv h0
  have he' : e = ready := by simpa [props] using he.symm
  subst he'
  obtain ⟨s1, tr1, c, pend, h, hi1, hg, -⟩ := exec_inv app (kept_level (fun _ => True)) hist (by simp) hi (by simp [Level])
  rw [hx] at h
  simp only [Except.ok.injEq, Prod.mk.injEq] at h
  obtain ⟨rfl, rfl⟩ := h
  exact ⟨c, pend, hg, hi1⟩

/-- A run in the level `off` stops the executor and stays there. -/
theorem run_off {s : Sys} {c : LevelRef} {pend : List Trig} (h : Safety.Inv props s c pend) (env : Env Bool) (hl : pend.foldl (pick props c) c = off) :
    ∃ s' tr, exec app s [.run env] = .ok (s', tr) ∧ Stops tr ∧ Safety.Inv props s' off [] := by
  obtain ⟨s', mid, h1, ⟨n, h2⟩, h3⟩ := run_at h env off hl
  refine ⟨s', _, h1, ?_, by rw [fold_off] at h2; exact h2⟩
  have : Obs.action off ∈ mid.filter Obs.isExec := by rw [h3]; exact cycle_off
  exact List.mem_cons_of_mem _ (List.mem_filter.1 this).1

theorem stops_append {a b : List Obs} : Stops (a ++ b) ↔ Stops a ∨ Stops b := by simp [Stops]

/-- One turn with the watchdog run down: the level goes from `ready` to `moving` or `off`, from `moving` to `off`; in `off` the executor is stopped. -/
theorem turn {s : Sys} {c : LevelRef} (hc : Level c) (hi : Safety.Inv props s c []) (evs : List (Ev Bool)) (hn : ∀ e ∈ evs, NoRun e) (env : Env Bool) (he : Expired env) :
    ∃ s' tr c', exec app s (evs ++ [.run env]) = .ok (s', tr) ∧ Safety.Inv props s' c' [] ∧ (c' = off ∨ (c' = moving ∧ c = ready)) ∧ (c = off → Stops tr) := by
  obtain ⟨s1, tr1, ts, h1, hi1, -⟩ := noRun_inv evs hn hi
  rw [List.nil_append] at hi1
  have hl := fold_level hc ts
  obtain ⟨s2, mid, h2, ⟨n, hi2⟩, h3⟩ := run_at hi1 env _ rfl
  refine ⟨s2, _, _, exec_append app _ _ _ _ _ _ _ h1 h2, hi2, ?_, ?_⟩
  · rcases hl with h | h | h
    · rw [h, fold_off]; exact .inl rfl
    · right
      have hcr : c = ready := by
        rcases hc with rfl | rfl | rfl
        · rw [fold_off] at h; exact absurd h (by decide)
        · rfl
        · rw [fold_moving _ _ (.inl rfl)] at h; split at h <;> exact absurd h (by decide)
      refine ⟨?_, hcr⟩
      rw [h, fold_ready _ _ (.inr (.inl rfl))]
      have h4 : ab ∉ requests props { env with act := priv (app.act ready n) } ready := by rw [requests_ab env ready (.inr (.inl rfl))]; exact fun h => absurd h.1 (by decide)
      rw [if_neg (by simp only [h4, or_false]; decide), if_pos (.inr ⟨_, requests_start env n, rfl⟩)]
    · left
      rw [h, fold_ab (.inr (.inr rfl)) _ ((requests_ab env moving (.inr (.inr rfl)) n).mpr ⟨rfl, he⟩)]
  · rintro rfl
    rw [fold_off] at h3
    have : Obs.action off ∈ mid.filter Obs.isExec := by rw [h3]; exact cycle_off
    exact stops_append.mpr (.inr (List.mem_cons_of_mem _ (List.mem_filter.1 this).1))

/-! ### C316 -/

/-- The safety system accepts the properties and starts in the level `ready`. -/
theorem constructs (acts : LevelRef → Nat) : ∃ s, construct props acts = .ok s ∧ s.cur = some ready := ⟨_, rfl, rfl⟩

/-- C316. After a signal, in whatever state the program is and whatever events come besides, the next run stops the executor. -/
theorem exit_stops (acts : LevelRef → Nat) (s0 : Sys) (h0 : construct props acts = .ok s0) (hist : List (Ev Bool)) (s : Sys) (tr : List Obs) (hx : exec app s0 hist = .ok (s, tr))
    (evs : List (Ev Bool)) (hn : ∀ e ∈ evs, NoRun e) (he : .exit ∈ evs) (env : Env Bool) : ∃ s' tr', exec app s (evs ++ [.run env]) = .ok (s', tr') ∧ Stops tr' := by
  obtain ⟨c, pend, hc, hi⟩ := reach acts s0 h0 hist s tr hx
  obtain ⟨s1, tr1, ts, h1, hi1, ha⟩ := noRun_inv evs hn hi
  obtain ⟨s2, tr2, h2, hs, -⟩ := run_off hi1 env (fold_ab hc _ (List.mem_append_right _ (ha he)))
  exact ⟨s2, _, exec_append app _ _ _ _ _ _ _ h1 h2, stops_append.mpr (.inr hs)⟩

/-- C316. If the watchdog runs down in the level `moving`, the executor is stopped by the second run from then on, whatever events and signals come in between. -/
theorem watchdog_stops (acts : LevelRef → Nat) (s0 : Sys) (h0 : construct props acts = .ok s0) (hist : List (Ev Bool)) (env0 : Env Bool) (s : Sys) (tr : List Obs)
    (hx : exec app s0 (hist ++ [.run env0]) = .ok (s, tr)) (hm : s.cur = some moving) (evs1 evs2 : List (Ev Bool)) (h1 : ∀ e ∈ evs1, NoRun e) (h2 : ∀ e ∈ evs2, NoRun e)
    (env1 env2 : Env Bool) (he : Expired env1) : ∃ s' tr', exec app s ((evs1 ++ [.run env1]) ++ (evs2 ++ [.run env2])) = .ok (s', tr') ∧ Stops tr' := by
  obtain ⟨e, hee, -, hi0⟩ := construct_inv h0
  have he' : e = ready := by simpa [props] using hee.symm
  subst he'
  obtain ⟨sa, tra, c, pend, ha, hia, hg, -⟩ := exec_inv app (kept_level (fun _ => True)) hist (by simp) hi0 (by simp [Level])
  obtain ⟨sb, mid, hb, ⟨n, hib⟩, -⟩ := run_at hia env0 _ rfl
  have hrun := exec_append app _ _ _ _ _ _ _ ha hb
  rw [hx] at hrun
  simp only [Except.ok.injEq, Prod.mk.injEq] at hrun
  obtain ⟨rfl, rfl⟩ := hrun
  have hcur := hib.1
  rw [hm] at hcur
  rw [← Option.some.inj hcur] at hib
  obtain ⟨s1, tr1, c1, hx1, hi1, hc1, -⟩ := turn (.inr (.inr rfl)) hib evs1 h1 env1 he
  have : c1 = off := by
    rcases hc1 with h | ⟨-, h⟩
    · exact h
    · exact absurd h (by decide)
  subst this
  obtain ⟨s2, tr2, ts, hx2, hi2, -⟩ := noRun_inv evs2 h2 hi1
  obtain ⟨s3, tr3, hx3, hs, -⟩ := run_off hi2 env2 (fold_off _ _)
  exact ⟨s3, _, exec_append app _ _ _ _ _ _ _ hx1 (exec_append app _ _ _ _ _ _ _ hx2 hx3), by simp [stops_append, hs]⟩

theorem alive_kept : Kept app Quiet (fun c pend => (c = ready ∨ c = moving) ∧ ab ∉ pend) where
  call := by
    intro c pend e h _
    exact ⟨h.1, by simp [h.2, ab]⟩
  exit := by intro c pend _ h; exact absurd h (by simp [Quiet])
  run := by
    intro c pend env n h hq
    have h1 := fold_no_ab h.1 pend h.2
    refine ⟨fold_no_ab h1 _ ?_, by simp⟩
    show ab ∉ requests props { env with act := priv (app.act (pend.foldl (pick props c) c) n) } (pend.foldl (pick props c) c)
    rw [requests_ab _ _ (.inr h1)]
    rintro ⟨-, he⟩
    simp only [Expired] at he
    simp only [Quiet] at hq
    rw [hq] at he
    cases he

/-- C316. Without a signal and with the watchdog always running the executor is never stopped, whatever events other threads trigger. -/
theorem never_stops (acts : LevelRef → Nat) (s0 : Sys) (h0 : construct props acts = .ok s0) (evs : List (Ev Bool)) (hev : ∀ e ∈ evs, Quiet e) :
    ∃ s tr, exec app s0 evs = .ok (s, tr) ∧ ¬ Stops tr := by
  obtain ⟨e, he, -, hi⟩ := construct_inv h0
  have he' : e = ready := by simpa [props] using he.symm
  subst he'
  obtain ⟨s', tr, c', pend', h, -, -, hx⟩ := exec_inv app alive_kept evs hev hi ⟨.inl rfl, by simp⟩
  refine ⟨s', tr, h, fun hs => ?_⟩
  obtain ⟨c1, pend1, ⟨hc1, hp1⟩, hm⟩ := hx _ hs rfl
  have := cycle hm
  rcases fold_no_ab hc1 pend1 hp1 with h | h <;> rw [show app.props = props from rfl, h] at this <;> exact absurd this (by decide)

/-- C316. A watchdog which never starts is noticed: the first three runs with it run down stop the executor, whatever events come besides. -/
theorem dead_watchdog_stops (acts : LevelRef → Nat) (s0 : Sys) (h0 : construct props acts = .ok s0) (evs1 evs2 evs3 : List (Ev Bool)) (h1 : ∀ e ∈ evs1, NoRun e)
    (h2 : ∀ e ∈ evs2, NoRun e) (h3 : ∀ e ∈ evs3, NoRun e) (env1 env2 env3 : Env Bool) (he1 : Expired env1) (he2 : Expired env2) (he3 : Expired env3) :
    ∃ s' tr', exec app s0 ((evs1 ++ [.run env1]) ++ ((evs2 ++ [.run env2]) ++ (evs3 ++ [.run env3]))) = .ok (s', tr') ∧ Stops tr' := by
  obtain ⟨e, he, -, hi⟩ := construct_inv h0
  have he' : e = ready := by simpa [props] using he.symm
  subst he'
  obtain ⟨s1, tr1, c1, hx1, hi1, hc1, -⟩ := turn (.inr (.inl rfl)) hi evs1 h1 env1 he1
  have hl1 : Level c1 := by rcases hc1 with h | ⟨h, -⟩ <;> simp [Level, h]
  obtain ⟨s2, tr2, c2, hx2, hi2, hc2, -⟩ := turn hl1 hi1 evs2 h2 env2 he2
  have : c2 = off := by
    rcases hc2 with h | ⟨-, h⟩
    · exact h
    · rw [h] at hc1
      rcases hc1 with h' | ⟨h', -⟩ <;> exact absurd h' (by decide)
  subst this
  obtain ⟨s3, tr3, c3, hx3, -, -, hs⟩ := turn (.inl rfl) hi2 evs3 h3 env3 he3
  exact ⟨s3, _, exec_append app _ _ _ _ _ _ _ hx1 (exec_append app _ _ _ _ _ _ _ hx2 hx3), by simp [stops_append, hs rfl]⟩

def reading (b : Bool) : Env Bool := ⟨fun _ => b, [], fun _ => [], fun _ => []⟩

def show' (evs : List (Ev Bool)) : List LevelRef × Bool :=
  match construct props (fun _ => 0) with
  | .error _ => ([], false)
  | .ok s0 => match exec app s0 evs with
    | .error _ => ([], false)
    | .ok (_, tr) => (tr.filterMap (fun o => match o with | .checked l _ _ => some l | _ => none), decide (Obs.action off ∈ tr))

/-- Case: the watchdog runs for two runs, then it runs down. -/
example : show' [.run (reading false), .run (reading true), .run (reading true), .run (reading false), .run (reading false)] = ([ready, moving, moving, moving, off], true) := by decide +kernel
/-- Case: nothing happens. -/
example : show' [.run (reading true), .call abort, .run (reading true), .run (reading true)] = ([ready, moving, moving], false) := by decide +kernel
/-- Case: signal before the first run, together with a start. -/
example : show' [.call startMoving, .exit, .run (reading true)] = ([off], true) := by decide +kernel

end Verif.Examples.HalTest3
