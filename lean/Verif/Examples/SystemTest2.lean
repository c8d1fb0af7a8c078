import Verif.Examples.App
/-!
C199: the safety properties of examples/system/SystemTest2.cpp on the model of the safety system: five levels, one critical input and one critical output.  The test input and output
(`inTest`, `outTest`) are left out.
-/
namespace Verif.Examples.SystemTest2
open Verif.Safety

abbrev off : LevelRef := 0
abbrev shuttingDown : LevelRef := 1
abbrev initializing : LevelRef := 2
abbrev initialized : LevelRef := 3
abbrev running : LevelRef := 4
abbrev startInitializing : EventId := 10
abbrev initializingDone : EventId := 11
abbrev startRunning : EventId := 12
abbrev shutDown : EventId := 13
abbrev stopRunning : EventId := 14
abbrev switchingOff : EventId := 15
/-- `in` and `out` -/
abbrev inp : InputRef := 20
abbrev out : OutputRef := 30

/-- The constructor, SystemTest2.cpp:33-99. -/
def props : Properties Bool :=
  let p : Properties Bool := { lvl := fun _ => { id := -1 }, criticalOutputs := [out], criticalInputs := [inp] }
  let p := ((((p.addLevel off).addLevel shuttingDown).addLevel initializing).addLevel initialized).addLevel running
  let p := p.addEventToLevel off startInitializing initializing .pub
  let p := p.addEventToLevel shuttingDown switchingOff off .priv
  let p := p.addEventToLevel initializing initializingDone initialized .pub
  let p := p.addEventToLevel initialized startRunning running .pub
  let p := p.addEventToLevel running stopRunning initialized .priv
  let p := p.addEventToLevelAndAbove initializing shutDown shuttingDown .pub
  let p := p.setLvl off { p.lvl off with inputAction := [some ⟨inp, .ignore⟩], outputAction := [some out], hasAction := true }
  let p := p.setLvl shuttingDown { p.lvl shuttingDown with inputAction := [some ⟨inp, .ignore⟩], outputAction := [some out], hasAction := true }
  let p := p.setLvl initializing { p.lvl initializing with inputAction := [some ⟨inp, .ignore⟩], outputAction := [some out] }
  let p := p.setLvl initialized { p.lvl initialized with inputAction := [some ⟨inp, .check false startRunning⟩], outputAction := [some out], hasAction := true }
  let p := p.setLvl running { p.lvl running with inputAction := [some ⟨inp, .check true stopRunning⟩], outputAction := [some out], hasAction := true }
  { p with entryLevel := some off }

/-- The output actions, 72-76. -/
def output : LevelRef → OutKind Bool
  | 4 => .newToggle false true
  | _ => .set false

/-- The program: the exit function (98) triggers `shutDown`, the level action of `shuttingDown` (80) `switchingOff`; that of `off` (79) stops the executor. -/
def app : App Bool := ⟨props, [shutDown], fun l _ => if l = shuttingDown then [switchingOff] else []⟩

/-! ### Specification -/

/-- The executor is stopped: the level action of `off` is executed. -/
def Stops (tr : List Obs) : Prop := Obs.action off ∈ tr

/-- Everything written to the output is `false`. -/
def OnlyFalse (tr : List Obs) : Prop := ∀ l i o, Obs.set l i o ∈ tr → output l = .set false

/-- The event is not triggered from outside, neither between nor during runs. -/
def Without (e : EventId) : Ev Bool → Prop
  | .call e' => e' ≠ e
  | .exit => True
  | .run env => ∀ i, e ∉ env.beforeIn i ∧ e ∉ env.beforeOut i

/-! ### Lemmas -/

def Level (c : LevelRef) : Prop := c = off ∨ c = shuttingDown ∨ c = initializing ∨ c = initialized ∨ c = running

/-- The transitions. -/
def table (c : LevelRef) (t : Trig) (d : LevelRef) : Prop :=
  (c = off ∧ t.event = startInitializing ∧ d = initializing) ∨ (c = shuttingDown ∧ t = ⟨switchingOff, true⟩ ∧ d = off) ∨
  (c = initializing ∧ t.event = initializingDone ∧ d = initialized) ∨ (c = initialized ∧ t.event = startRunning ∧ d = running) ∨
  (c = running ∧ t = ⟨stopRunning, true⟩ ∧ d = initialized) ∨ ((c = initializing ∨ c = initialized ∨ c = running) ∧ t.event = shutDown ∧ d = shuttingDown)

theorem reg {c : LevelRef} (hc : Level c) {t : Trig} {d : LevelRef} : Registered props c t d ↔ table c t d := by
  obtain ⟨e, pr⟩ := t
  constructor
  · rintro ⟨ty, hf, hp⟩
    have hm := findTrans_mem hf
    rcases hc with rfl | rfl | rfl | rfl | rfl
    · have : (props.lvl off).transitions = [(startInitializing, (initializing, .pub))] := rfl
      rw [this] at hm; simp at hm
      obtain ⟨rfl, rfl, rfl⟩ := hm
      simp [table]
    · have : (props.lvl shuttingDown).transitions = [(switchingOff, (off, .priv))] := rfl
      rw [this] at hm; simp at hm
      obtain ⟨rfl, rfl, rfl⟩ := hm
      simp at hp
      simp [table, hp]
    · have : (props.lvl initializing).transitions = [(initializingDone, (initialized, .pub)), (shutDown, (shuttingDown, .pub))] := rfl
      rw [this] at hm; simp at hm
      rcases hm with ⟨rfl, rfl, rfl⟩ | ⟨rfl, rfl, rfl⟩ <;> simp [table]
    · have : (props.lvl initialized).transitions = [(startRunning, (running, .pub)), (shutDown, (shuttingDown, .pub))] := rfl
      rw [this] at hm; simp at hm
      rcases hm with ⟨rfl, rfl, rfl⟩ | ⟨rfl, rfl, rfl⟩ <;> simp [table]
    · have : (props.lvl running).transitions = [(stopRunning, (initialized, .priv)), (shutDown, (shuttingDown, .pub))] := rfl
      rw [this] at hm; simp at hm
      rcases hm with ⟨rfl, rfl, rfl⟩ | ⟨rfl, rfl, rfl⟩
      · simp at hp
        simp [table, hp]
      · simp [table]
  · rintro (⟨rfl, h, rfl⟩ | ⟨rfl, h, rfl⟩ | ⟨rfl, h, rfl⟩ | ⟨rfl, h, rfl⟩ | ⟨rfl, h, rfl⟩ | ⟨rfl | rfl | rfl, h, rfl⟩) <;> simp at h <;> simp only [h]
    · exact ⟨.pub, rfl, Or.inl rfl⟩
    · exact ⟨.priv, rfl, Or.inr rfl⟩
    · exact ⟨.pub, rfl, Or.inl rfl⟩
    · exact ⟨.pub, rfl, Or.inl rfl⟩
    · exact ⟨.priv, rfl, Or.inr rfl⟩
    · exact ⟨.pub, rfl, Or.inl rfl⟩
    · exact ⟨.pub, rfl, Or.inl rfl⟩
    · exact ⟨.pub, rfl, Or.inl rfl⟩

/-- The chosen level is the current one or one for which an event was triggered. -/
theorem chosen {c : LevelRef} (hc : Level c) (pend : List Trig) : pend.foldl (pick props c) c = c ∨ ∃ t ∈ pend, table c t (pend.foldl (pick props c) c) := by
  rcases exact_registered props c pend _ rfl with h | ⟨t, ht, hr⟩
  · exact Or.inl h
  · exact Or.inr ⟨t, ht, (reg hc).1 hr⟩

theorem table_level {c d : LevelRef} {t : Trig} (h : table c t d) : Level d := by
  unfold Level
  rcases h with ⟨-, -, rfl⟩ | ⟨-, -, rfl⟩ | ⟨-, -, rfl⟩ | ⟨-, -, rfl⟩ | ⟨-, -, rfl⟩ | ⟨-, -, rfl⟩ <;> simp

theorem chosen_level {c : LevelRef} (hc : Level c) (pend : List Trig) : Level (pend.foldl (pick props c) c) := by
  rcases chosen hc pend with h | ⟨t, -, h⟩
  · rw [h]; exact hc
  · exact table_level h

theorem chosen_le {c d : LevelRef} (hc : Level c) {t : Trig} {pend : List Trig} (ht : t ∈ pend) (h : table c t d) (hd : (props.lvl d).id < (props.lvl c).id) :
    (props.lvl (pend.foldl (pick props c) c)).id ≤ (props.lvl d).id := Reaction.foldl_pick_mem ((reg hc).2 h) hd pend c ht

theorem id_eq {c : LevelRef} (hc : Level c) : (props.lvl c).id = c := by rcases hc with rfl | rfl | rfl | rfl | rfl <;> rfl

theorem kept_level (ok : Ev Bool → Prop) : Kept app ok (fun c _ => Level c) :=
  ⟨fun _ _ _ h _ => h, fun _ _ h _ => h, fun _ _ _ _ h _ => chosen_level (chosen_level h _) _⟩

theorem no_self {c : LevelRef} {t : Trig} : ¬ table c t c := by
  rintro (⟨h, -, h'⟩ | ⟨h, -, h'⟩ | ⟨h, -, h'⟩ | ⟨h, -, h'⟩ | ⟨h, -, h'⟩ | ⟨h, -, h'⟩)
  on_goal 6 => rcases h with h | h | h
  all_goals (rw [h] at h'; revert h'; decide)

theorem leaves {c d : LevelRef} (hc : Level c) {t : Trig} {pend : List Trig} (ht : t ∈ pend) (h : table c t d) : pend.foldl (pick props c) c ≠ c := by
  rcases foldl_pick_lowest props c pend (fun t _ hr => no_self ((reg hc).1 hr)) with ⟨h1, -⟩ | ⟨⟨t', -, h1⟩, -⟩
  · exact absurd ((reg hc).2 h) (h1 t ht d)
  · intro he
    rw [he] at h1
    exact no_self ((reg hc).1 h1)

theorem ne : initialized ≠ shuttingDown ∧ running ≠ shuttingDown ∧ initialized ≠ running ∧ shuttingDown ≠ initialized ∧ shuttingDown ≠ running ∧ initializing ≠ initialized ∧
    initializing ≠ running ∧ initializing ≠ shuttingDown ∧ running ≠ initialized := by decide

/-- The events of a run. -/
theorem requests_eq (env : Env Bool) (l : LevelRef) (hl : Level l) (n : Nat) : requests props { env with act := priv (app.act l n) } l =
    pubTrigs (env.beforeIn 0) ++ (if l = initialized ∧ env.read 0 = true then [⟨startRunning, true⟩] else if l = running ∧ env.read 0 = false then [⟨stopRunning, true⟩] else []) ++
      pubTrigs (env.beforeIn 1) ++ (if l = shuttingDown then [⟨switchingOff, true⟩] else []) ++ (pubTrigs (env.beforeOut 0) ++ pubTrigs (env.beforeOut 1)) := by
  rcases hl with rfl | rfl | rfl | rfl | rfl
  · have h1 : (props.lvl off).inputAction = [some ⟨inp, .ignore⟩] := rfl
    have h2 : (props.lvl off).outputAction = [some out] := rfl
    have h3 : (props.lvl off).hasAction = true := rfl
    simp [requests, h1, h2, h3, inReq, outReq, InTest.eval, ownTrig, priv, app, ne]
  · have h1 : (props.lvl shuttingDown).inputAction = [some ⟨inp, .ignore⟩] := rfl
    have h2 : (props.lvl shuttingDown).outputAction = [some out] := rfl
    have h3 : (props.lvl shuttingDown).hasAction = true := rfl
    simp [requests, h1, h2, h3, inReq, outReq, InTest.eval, ownTrig, priv, app, ne]
  · have h1 : (props.lvl initializing).inputAction = [some ⟨inp, .ignore⟩] := rfl
    have h2 : (props.lvl initializing).outputAction = [some out] := rfl
    have h3 : (props.lvl initializing).hasAction = false := rfl
    simp [requests, h1, h2, h3, inReq, outReq, InTest.eval, ownTrig, app, ne]
  · have h1 : (props.lvl initialized).inputAction = [some ⟨inp, .check false startRunning⟩] := rfl
    have h2 : (props.lvl initialized).outputAction = [some out] := rfl
    have h3 : (props.lvl initialized).hasAction = true := rfl
    cases hr : env.read 0 <;> simp [requests, h1, h2, h3, inReq, outReq, InTest.eval, ownTrig, priv, app, ne, hr, CppVal.eq]
  · have h1 : (props.lvl running).inputAction = [some ⟨inp, .check true stopRunning⟩] := rfl
    have h2 : (props.lvl running).outputAction = [some out] := rfl
    have h3 : (props.lvl running).hasAction = true := rfl
    cases hr : env.read 0 <;> simp [requests, h1, h2, h3, inReq, outReq, InTest.eval, ownTrig, priv, app, ne, hr, CppVal.eq]

theorem cycle {l : LevelRef} (x : Obs) (hx : x ∈ expectedCycle props l) : (∀ k i o, x = .set k i o → k = l) ∧ (∀ k, x = .action k → k = l) ∧ (∀ k i o, x = .checked k i o → k = l) := by
  simp only [expectedCycle, List.mem_append, List.mem_map] at hx
  rcases hx with (⟨y, -, rfl⟩ | hx) | ⟨y, -, rfl⟩
  · simp
  · split at hx
    · simp at hx; simp [hx]
    · simp at hx
  · simp

theorem has_set {l : LevelRef} (hl : Level l) : Obs.set l 0 out ∈ expectedCycle props l := by rcases hl with rfl | rfl | rfl | rfl | rfl <;> decide

/-- A run in terms of the program. -/
theorem run_at {s : Sys} {c : LevelRef} {pend : List Trig} (h : Safety.Inv props s c pend) (env : Env Bool) (l : LevelRef) (hl : pend.foldl (pick props c) c = l) :
    ∃ s' mid, exec app s [.run env] = .ok (s', .level l :: mid) ∧ (∃ n, Safety.Inv props s' ((requests props { env with act := priv (app.act l n) } l).foldl (pick props l) l) []) ∧
      mid.filter Obs.isExec = expectedCycle props l := by
  obtain ⟨s', mid, h1, h2, h3⟩ := run_exact (p := app.props) (app.env s env) h
  rw [show app.props = props from rfl, hl] at h1 h2 h3
  refine ⟨s', mid, exec_run h1, ⟨s.nofAct (s.next.getD 0) + 1, ?_⟩, h3⟩
  have : s.next.getD 0 = l := by rw [h.2, hl]; rfl
  simpa only [App.env, this] using h2

/-- States which can be reached from the start of the program. -/
theorem reach (acts : LevelRef → Nat) (s0 : Sys) (h0 : construct props acts = .ok s0) (hist : List (Ev Bool)) (s : Sys) (tr : List Obs) (hx : exec app s0 hist = .ok (s, tr)) :
    ∃ c pend, Level c ∧ Safety.Inv props s c pend := by
  obtain ⟨e, he, -, hi⟩ := construct_inv h0
  have he' : e = off := by simpa [props] using he.symm
  subst he'
  obtain ⟨s1, tr1, c, pend, h, hi1, hg, -⟩ := exec_inv app (kept_level (fun _ => True)) hist (by simp) hi (by simp [Level])
  rw [hx] at h
  simp only [Except.ok.injEq, Prod.mk.injEq] at h
  obtain ⟨rfl, rfl⟩ := h
  exact ⟨c, pend, hg, hi1⟩

/-- The run after the exit handler. -/
theorem exit_first {s : Sys} {c : LevelRef} {pend : List Trig} (hlc : Level c) (hi : Safety.Inv props s c pend) (hc' : c = initializing ∨ c = initialized ∨ c = running)
    (calls : List EventId) (env : Env Bool) : ∃ s3 mid3, exec app s (.exit :: (calls.map Ev.call ++ [.run env])) =
        .ok (s3, (priv app.exitT).map Obs.trig ++ ((pubTrigs calls).map Obs.trig ++ .level shuttingDown :: mid3)) ∧
      Safety.Inv props s3 off [] ∧ mid3.filter Obs.isExec = expectedCycle props shuttingDown := by
  have no : c ≠ off ∧ c ≠ shuttingDown := by rcases hc' with rfl | rfl | rfl <;> decide
  obtain ⟨s1, h1, hi1⟩ := triggers_inv (priv app.exitT) hi
  obtain ⟨s2, h2, hi2⟩ := calls_inv app calls hi1
  have hl2 : (pend ++ priv app.exitT ++ pubTrigs calls).foldl (pick props c) c = shuttingDown := by
    have hm : (⟨shutDown, true⟩ : Trig) ∈ pend ++ priv app.exitT ++ pubTrigs calls := by simp [priv, app]
    have ht : table c ⟨shutDown, true⟩ shuttingDown := by simp [table, hc']
    have hle := chosen_le hlc hm ht (by rcases hc' with rfl | rfl | rfl <;> decide)
    rcases chosen hlc (pend ++ priv app.exitT ++ pubTrigs calls) with h | ⟨t, -, h⟩
    · exact absurd h (leaves hlc hm ht)
    · generalize (pend ++ priv app.exitT ++ pubTrigs calls).foldl (pick props c) c = d at hle h
      rcases h with ⟨h, -⟩ | ⟨h, -⟩ | ⟨-, -, rfl⟩ | ⟨-, -, rfl⟩ | ⟨-, -, rfl⟩ | ⟨-, -, rfl⟩
      · exact absurd h no.1
      · exact absurd h no.2
      · exact absurd hle (by decide)
      · exact absurd hle (by decide)
      · exact absurd hle (by decide)
      · rfl
  obtain ⟨s3, mid3, h3, ⟨n, hi3⟩, hf3⟩ := run_at hi2 env shuttingDown hl2
  have hl3 : (requests props { env with act := priv (app.act shuttingDown n) } shuttingDown).foldl (pick props shuttingDown) shuttingDown = off := by
    have hm : (⟨switchingOff, true⟩ : Trig) ∈ requests props { env with act := priv (app.act shuttingDown n) } shuttingDown := by
      rw [requests_eq env _ (by simp [Level])]; simp
    rcases chosen (c := shuttingDown) (by simp [Level]) (requests props { env with act := priv (app.act shuttingDown n) } shuttingDown) with h | ⟨t, -, h⟩
    · exact absurd h (leaves (d := off) (by simp [Level]) hm (by simp [table]))
    · rcases h with ⟨h, -⟩ | ⟨-, -, h⟩ | ⟨h, -⟩ | ⟨h, -⟩ | ⟨h, -⟩ | ⟨h, -⟩
      · exact absurd h (by decide)
      · exact h
      · exact absurd h (by decide)
      · exact absurd h (by decide)
      · exact absurd h (by decide)
      · exact absurd h (by decide)
  rw [hl3] at hi3
  have ex1 := exec_append app _ _ _ _ _ _ _ h2 h3
  exact ⟨s3, mid3, by simp only [exec, step, show app.props = props from rfl, h1, ex1, bind, Except.bind, Pure.pure, Except.pure], hi3, hf3⟩

/-! ### C199 -/

/-- The safety system accepts the properties and starts in the level off. -/
theorem constructs (acts : LevelRef → Nat) : ∃ s, construct props acts = .ok s ∧ s.cur = some off := ⟨_, rfl, rfl⟩

/-- The exit handler in one of the levels initializing, initialized and running: the next run sets the output to false, the one after it stops the executor, whatever events are triggered
besides; unless the program is started again in between. -/
theorem exit_stops (acts : LevelRef → Nat) (s0 : Sys) (h0 : construct props acts = .ok s0) (hist : List (Ev Bool)) (s : Sys) (tr : List Obs) (hx : exec app s0 hist = .ok (s, tr))
    (hc : s.cur = some initializing ∨ s.cur = some initialized ∨ s.cur = some running) (calls calls' : List EventId) (hcalls : startInitializing ∉ calls') (env env' : Env Bool) :
    ∃ s1 tr1 s2 tr2, exec app s (.exit :: (calls.map Ev.call ++ [.run env])) = .ok (s1, tr1) ∧ Obs.set shuttingDown 0 out ∈ tr1 ∧ OnlyFalse tr1 ∧ ¬ Stops tr1 ∧
      exec app s1 (calls'.map Ev.call ++ [.run env']) = .ok (s2, tr2) ∧ Stops tr2 ∧ OnlyFalse tr2 := by
  obtain ⟨c, pend, hlc, hi⟩ := reach acts s0 h0 hist s tr hx
  obtain ⟨s3, mid3, h3, hi3, hf3⟩ := exit_first hlc hi (by rw [hi.1] at hc; simpa using hc) calls env
  obtain ⟨s4, h4, hi4⟩ := calls_inv app calls' hi3
  have hl4 : ([] ++ pubTrigs calls').foldl (pick props off) off = off := by
    rcases chosen (c := off) (by simp [Level]) ([] ++ pubTrigs calls') with h | ⟨t, ht, h⟩
    · exact h
    · rcases h with ⟨-, h, -⟩ | ⟨h, -⟩ | ⟨h, -⟩ | ⟨h, -⟩ | ⟨h, -⟩ | ⟨h, -⟩
      · simp only [List.nil_append, pubTrigs, List.mem_map] at ht
        obtain ⟨e, he, rfl⟩ := ht
        exact absurd (by simpa using h ▸ he) hcalls
      all_goals exact absurd h (by decide)
  obtain ⟨s5, mid5, h5, -, hf5⟩ := run_at hi4 env' off hl4
  have ex2 := exec_append app _ _ _ _ _ _ _ h4 h5
  refine ⟨s3, _, s5, _, h3, ?_, ?_, ?_, ex2, ?_, ?_⟩
  · have : Obs.set shuttingDown 0 out ∈ mid3.filter Obs.isExec := by rw [hf3]; decide
    simp [(List.mem_filter.1 this).1]
  · intro l i o hm
    have hm : Obs.set l i o ∈ mid3 := by simpa using hm
    have := (cycle _ (hf3 ▸ List.mem_filter.2 ⟨hm, rfl⟩)).1 l i o rfl
    subst this; rfl
  · intro hm
    have hm : Obs.action off ∈ mid3 := by simpa [Stops] using hm
    exact absurd ((cycle _ (hf3 ▸ List.mem_filter.2 ⟨hm, rfl⟩)).2.1 off rfl) (by decide)
  · have : Obs.action off ∈ mid5.filter Obs.isExec := by rw [hf5]; decide
    simp [Stops, (List.mem_filter.1 this).1]
  · intro l i o hm
    have hm : Obs.set l i o ∈ mid5 := by simpa using hm
    have := (cycle _ (hf5 ▸ List.mem_filter.2 ⟨hm, rfl⟩)).1 l i o rfl
    subst this; rfl

/-- When a run in the level running reads the input as false, the next run sets the output to false, whatever is triggered meanwhile; unless another thread triggers the start. -/
theorem input_stops (acts : LevelRef → Nat) (s0 : Sys) (h0 : construct props acts = .ok s0) (hist : List (Ev Bool)) (s : Sys) (tr : List Obs) (hx : exec app s0 hist = .ok (s, tr))
    (env env' : Env Bool) (hr : env.read 0 = false) (s1 : Sys) (tr1 : List Obs) (h1 : exec app s [.run env] = .ok (s1, tr1)) (hrun : Obs.checked running 0 inp ∈ tr1)
    (calls : List EventId) (hcalls : startRunning ∉ calls) :
    ∃ s2 tr2, exec app s1 (calls.map Ev.call ++ [.run env']) = .ok (s2, tr2) ∧ OnlyFalse tr2 ∧ ∃ l, Obs.set l 0 out ∈ tr2 := by
  obtain ⟨c, pend, hlc, hi⟩ := reach acts s0 h0 hist s tr hx
  obtain ⟨s2, mid2, h2, ⟨n, hi2⟩, hf2⟩ := run_at hi env _ rfl
  rw [h1] at h2
  simp only [Except.ok.injEq, Prod.mk.injEq] at h2
  obtain ⟨rfl, rfl⟩ := h2
  have hm : Obs.checked running 0 inp ∈ mid2 := by simpa using hrun
  have hl := (cycle _ (hf2 ▸ List.mem_filter.2 ⟨hm, rfl⟩)).2.2 running 0 inp rfl
  rw [← hl] at hi2
  have hreq : (⟨stopRunning, true⟩ : Trig) ∈ requests props { env with act := priv (app.act running n) } running := by
    rw [requests_eq env _ (by simp [Level])]; simp [hr, ne]
  have hd : (requests props { env with act := priv (app.act running n) } running).foldl (pick props running) running = initialized ∨
      (requests props { env with act := priv (app.act running n) } running).foldl (pick props running) running = shuttingDown := by
    rcases chosen (c := running) (by simp [Level]) (requests props { env with act := priv (app.act running n) } running) with h | ⟨t, -, h⟩
    · exact absurd h (leaves (d := initialized) (by simp [Level]) hreq (by simp [table]))
    · rcases h with ⟨h, -⟩ | ⟨h, -⟩ | ⟨h, -⟩ | ⟨h, -⟩ | ⟨-, -, h⟩ | ⟨-, -, h⟩
      · exact absurd h (by decide)
      · exact absurd h (by decide)
      · exact absurd h (by decide)
      · exact absurd h (by decide)
      · exact Or.inl h
      · exact Or.inr h
  generalize (requests props { env with act := priv (app.act running n) } running).foldl (pick props running) running = d at hi2 hd
  have hld : Level d := by rcases hd with rfl | rfl <;> simp [Level]
  obtain ⟨s3, h3, hi3⟩ := calls_inv app calls hi2
  obtain ⟨s4, mid4, h4, -, hf4⟩ := run_at hi3 env' _ rfl
  have hd' : ([] ++ pubTrigs calls).foldl (pick props d) d = initialized ∨ ([] ++ pubTrigs calls).foldl (pick props d) d = shuttingDown := by
    rcases chosen hld ([] ++ pubTrigs calls) with h | ⟨t, ht, h⟩
    · rw [h]; exact hd
    · simp only [List.nil_append, pubTrigs, List.mem_map] at ht
      obtain ⟨e, he, rfl⟩ := ht
      rcases h with ⟨h, -⟩ | ⟨-, h, -⟩ | ⟨h, -⟩ | ⟨-, h, -⟩ | ⟨h, -⟩ | ⟨-, -, h⟩
      · rcases hd with rfl | rfl <;> exact absurd h (by decide)
      · simp at h
      · rcases hd with rfl | rfl <;> exact absurd h (by decide)
      · exact absurd (by simpa using h ▸ he) hcalls
      · rcases hd with rfl | rfl <;> exact absurd h (by decide)
      · exact Or.inr h
  refine ⟨s4, _, exec_append app _ _ _ _ _ _ _ h3 h4, ?_, ?_⟩
  · intro l i o hm
    have hm : Obs.set l i o ∈ mid4 := by simpa using hm
    have := (cycle _ (hf4 ▸ List.mem_filter.2 ⟨hm, rfl⟩)).1 l i o rfl
    rcases hd' with h | h <;> · rw [h] at this; subst this; rfl
  · have := has_set (chosen_level hld ([] ++ pubTrigs calls))
    rw [← hf4] at this
    exact ⟨_, List.mem_append_right _ (List.mem_cons_of_mem _ (List.mem_filter.1 this).1)⟩

/-- Neither the exit handler nor the event shut down. -/
def Quiet : Ev Bool → Prop
  | .exit => False
  | e => Without shutDown e

/-- The program is started or on the way to it, and no event to shut it down is pending. -/
def Alive (c : LevelRef) (pend : List Trig) : Prop :=
  (c = off ∧ ⟨startInitializing, false⟩ ∈ pend) ∨ ((c = initializing ∨ c = initialized ∨ c = running) ∧ ∀ t ∈ pend, t.event ≠ shutDown)

theorem alive_next {c : LevelRef} {pend : List Trig} (h : Alive c pend) :
    pend.foldl (pick props c) c = initializing ∨ pend.foldl (pick props c) c = initialized ∨ pend.foldl (pick props c) c = running := by
  rcases h with ⟨rfl, h⟩ | ⟨hc, h⟩
  · rcases chosen (c := off) (by simp [Level]) pend with h' | ⟨t, -, h'⟩
    · exact absurd h' (leaves (d := initializing) (by simp [Level]) h (by simp [table]))
    · rcases h' with ⟨-, -, h⟩ | ⟨h, -⟩ | ⟨h, -⟩ | ⟨h, -⟩ | ⟨h, -⟩ | ⟨h, -⟩
      · exact Or.inl h
      all_goals exact absurd h (by decide)
  · have hl : Level c := Or.inr (Or.inr hc)
    rcases chosen hl pend with h' | ⟨t, ht, h'⟩
    · rw [h']; exact hc
    · rcases h' with ⟨h', -⟩ | ⟨h', -⟩ | ⟨-, -, h'⟩ | ⟨-, -, h'⟩ | ⟨-, -, h'⟩ | ⟨-, h', -⟩
      · rw [h'] at hc; exact absurd hc (by decide)
      · rw [h'] at hc; exact absurd hc (by decide)
      · exact Or.inr (Or.inl h')
      · exact Or.inr (Or.inr h')
      · exact Or.inr (Or.inl h')
      · exact absurd h' (h t ht)

theorem alive_kept : Kept app Quiet Alive := by
  refine ⟨?_, ?_, ?_⟩
  · rintro c pend e (⟨h1, h2⟩ | ⟨h1, h2⟩) hq
    · exact Or.inl ⟨h1, by simp [h2]⟩
    · refine Or.inr ⟨h1, fun t ht => ?_⟩
      rcases List.mem_append.1 ht with ht | ht
      · exact h2 t ht
      · simp at ht; rw [ht]; exact hq
  · intro c pend _ hq
    exact absurd hq (by simp [Quiet])
  · intro c pend env n h hq
    have hn := alive_next h
    refine Or.inr ⟨?_, by simp⟩
    rw [show app.props = props from rfl]
    generalize pend.foldl (pick props c) c = l at hn
    refine alive_next (Or.inr ⟨hn, fun t ht => ?_⟩)
    rw [requests_eq env l (Or.inr (Or.inr hn))] at ht
    have hb := hq
    simp only [Quiet, Without] at hb
    simp only [List.mem_append, pubTrigs, List.mem_map] at ht
    rcases ht with (((⟨e, he, rfl⟩ | ht) | ⟨e, he, rfl⟩) | ht) | ⟨e, he, rfl⟩ | ⟨e, he, rfl⟩
    · exact fun h => (hb 0).1 (h ▸ he)
    · split at ht
      · simp at ht; subst ht; decide
      · split at ht
        · simp at ht; subst ht; decide
        · simp at ht
    · exact fun h => (hb 1).1 (h ▸ he)
    · split at ht
      · simp at ht; subst ht; decide
      · simp at ht
    · exact fun h => (hb 0).2 (h ▸ he)
    · exact fun h => (hb 1).2 (h ▸ he)

theorem alive_runs {s : Sys} {c : LevelRef} {pend : List Trig} (hi : Safety.Inv props s c pend) (hg : Alive c pend) (evs : List (Ev Bool)) (hev : ∀ e ∈ evs, Quiet e) :
    ∃ s' tr, exec app s evs = .ok (s', tr) ∧ ¬ Stops tr := by
  obtain ⟨s', tr, c', pend', h, -, -, hx⟩ := exec_inv app alive_kept evs hev hi hg
  refine ⟨s', tr, h, fun hs => ?_⟩
  obtain ⟨c1, pend1, h1, hm⟩ := hx _ hs rfl
  have := (cycle _ hm).2.1 off rfl
  have hn := alive_next h1
  rw [show app.props = props from rfl] at this
  rw [← this] at hn
  exact absurd hn (by decide)

/-- Once started (`main` triggers start initializing before the executor runs), the program is stopped by nothing but the exit handler and the event shut down. -/
theorem only_exit_stops (acts : LevelRef → Nat) (s0 : Sys) (h0 : construct props acts = .ok s0) (evs : List (Ev Bool)) (hev : ∀ e ∈ evs, Quiet e) :
    ∃ s tr, exec app s0 (.call startInitializing :: evs) = .ok (s, tr) ∧ ¬ Stops tr := by
  obtain ⟨e, he, -, hi⟩ := construct_inv h0
  have he' : e = off := by simpa [props] using he.symm
  subst he'
  obtain ⟨s1, h1, hi1⟩ := calls_inv app [startInitializing] hi
  obtain ⟨s2, tr2, h2, hs⟩ := alive_runs hi1 (Or.inl ⟨rfl, by simp [pubTrigs]⟩) evs hev
  exact ⟨s2, _, exec_append app _ _ _ _ _ _ _ h1 h2, by simpa [Stops, pubTrigs] using hs⟩

/-! ### C200 -/

/-- C200 (partial): after the exit handler in the levels initializing, initialized and running two runs of the safety system are enough to stop the executor, whatever events are triggered.  Missing: the
other moments (`exit_lost_violated`), and start initializing between the two runs (`exit_cancelled_violated`). -/
theorem exit_ends_partial (acts : LevelRef → Nat) (s0 : Sys) (h0 : construct props acts = .ok s0) (hist : List (Ev Bool)) (s : Sys) (tr : List Obs) (hx : exec app s0 hist = .ok (s, tr))
    (hc : s.cur = some initializing ∨ s.cur = some initialized ∨ s.cur = some running) (calls calls' : List EventId) (hcalls : startInitializing ∉ calls') (env env' : Env Bool) :
    ∃ s' tr', exec app s ((.exit :: (calls.map Ev.call ++ [.run env])) ++ (calls'.map Ev.call ++ [.run env'])) = .ok (s', tr') ∧ Stops tr' := by
  obtain ⟨s1, tr1, s2, tr2, h1, -, -, -, h2, hs, -⟩ := exit_stops acts s0 h0 hist s tr hx hc calls calls' hcalls env env'
  exact ⟨s2, _, exec_append app _ _ _ _ _ _ _ h1 h2, by simp only [Stops, List.mem_append] at hs ⊢; exact Or.inr hs⟩

/-- The exit handler before the first run of the safety system has no effect: the program goes on until it is called again. -/
theorem exit_lost_violated (acts : LevelRef → Nat) (s0 : Sys) (h0 : construct props acts = .ok s0) (evs : List (Ev Bool)) (hev : ∀ e ∈ evs, Quiet e) :
    ∃ s tr, exec app s0 (.call startInitializing :: .exit :: evs) = .ok (s, tr) ∧ ¬ Stops tr := by
  obtain ⟨e, he, -, hi⟩ := construct_inv h0
  have he' : e = off := by simpa [props] using he.symm
  subst he'
  obtain ⟨s1, h1, hi1⟩ := calls_inv app [startInitializing] hi
  obtain ⟨s2, h2, hi2⟩ := triggers_inv (priv app.exitT) hi1
  obtain ⟨s3, tr3, h3, hs⟩ := alive_runs hi2 (Or.inl ⟨rfl, by simp [pubTrigs]⟩) evs hev
  have ex : exec app s1 (.exit :: evs) = .ok (s3, (priv app.exitT).map Obs.trig ++ tr3) := by simp only [exec, step, h2, h3, bind, Except.bind, Pure.pure, Except.pure]
  refine ⟨s3, _, exec_append app _ _ _ _ _ _ _ h1 ex, ?_⟩
  simpa [Stops, pubTrigs] using hs

/-- The event start initializing after the run which follows the exit handler cancels the exit: the program goes on until the handler is called again. -/
theorem exit_cancelled_violated (acts : LevelRef → Nat) (s0 : Sys) (h0 : construct props acts = .ok s0) (hist : List (Ev Bool)) (s : Sys) (tr : List Obs) (hx : exec app s0 hist = .ok (s, tr))
    (hc : s.cur = some initializing ∨ s.cur = some initialized ∨ s.cur = some running) (calls : List EventId) (env : Env Bool) (evs : List (Ev Bool)) (hev : ∀ e ∈ evs, Quiet e) :
    ∃ s' tr', exec app s ((.exit :: (calls.map Ev.call ++ [.run env])) ++ .call startInitializing :: evs) = .ok (s', tr') ∧ ¬ Stops tr' := by
  obtain ⟨c, pend, hlc, hi⟩ := reach acts s0 h0 hist s tr hx
  obtain ⟨s3, mid3, h3, hi3, hf3⟩ := exit_first hlc hi (by rw [hi.1] at hc; simpa using hc) calls env
  obtain ⟨s4, h4, hi4⟩ := calls_inv app [startInitializing] hi3
  obtain ⟨s5, tr5, h5, hs⟩ := alive_runs hi4 (Or.inl ⟨rfl, by simp [pubTrigs]⟩) evs hev
  refine ⟨s5, _, exec_append app _ _ _ _ _ _ _ h3 (exec_append app _ _ _ _ _ _ _ h4 h5), ?_⟩
  intro hm
  have hm : Obs.action off ∈ mid3 ∨ Obs.action off ∈ tr5 := by simpa [Stops, pubTrigs] using hm
  rcases hm with hm | hm
  · exact absurd ((cycle _ (hf3 ▸ List.mem_filter.2 ⟨hm, rfl⟩)).2.1 off rfl) (by decide)
  · exact hs hm

def reading (b : Bool) : Env Bool := ⟨fun _ => b, [], fun _ => [], fun _ => []⟩

def show' (evs : List (Ev Bool)) : List LevelRef × Bool :=
  match construct props (fun _ => 0) with
  | .error _ => ([], false)
  | .ok s0 => match exec app s0 evs with
    | .error _ => ([], false)
    | .ok (_, tr) => (tr.filterMap (fun o => match o with | .set l _ _ => some l | _ => none), decide (Obs.action off ∈ tr))

/-- Case: started, initialized, the input starts and stops it, then the exit handler. -/
example : show' [.call startInitializing, .run (reading false), .call initializingDone, .run (reading true), .run (reading true), .run (reading false), .run (reading false), .exit,
    .run (reading true), .run (reading true)] = ([initializing, initialized, running, running, initialized, shuttingDown, off], true) := by decide +kernel

/-- Case: the exit handler before the first run. -/
example : show' [.call startInitializing, .exit, .run (reading false), .run (reading false), .run (reading false)] = ([initializing, initializing, initializing], false) := by decide +kernel

/-- Case: started again during the exit. -/
example : show' [.call startInitializing, .run (reading false), .exit, .run (reading false), .call startInitializing, .run (reading false), .run (reading false)] =
    ([initializing, shuttingDown, initializing, initializing], false) := by decide +kernel

end Verif.Examples.SystemTest2
