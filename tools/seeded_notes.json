{
 "verify / return true": {
  "tightened": [
   "constructor_decides"
  ]
 },
 "divisor / t.realtime ∧ t.nice < 0": {
  "tightened": [
   "accepted_iff"
  ]
 },
 "step / | .connectPtr i t => if w i ≠ none then (w, true)": {
  "tightened": [
   "connectPtr_spec"
  ]
 },
 "RateLimiterFl.rateGt / if d = 0 then false": {
  "tightened": [
   "equal_times"
  ]
 },
 "RateLimiter.newSym / def newSym (rate : K) : St K := new rate rate": {
  "tightened": [
   "symmetric_bound"
  ]
 },
 "Combined.combine / fun k => if k = i then w.cs i ++ [j] else w.cs k } i (w.pos i)": {
  "tightened": [
   "combine_follows"
  ]
 },
 "Conc.step / else if (p.lvl s.next).id < (p.lvl n).id then": {
  "tightened": [
   "concurrent_lowest_partial"
  ]
 },
 "Mat.trace / (List.range M).foldl (fun r i => r + A.at' i i) 0": {
  "tightened": [
   "trace_eq"
  ]
 },
 "step / | .starting, .pre false => some ({ s with st := upd s.st i .running, frames := .body i :: fs }, [.enter i])": {
  "tightened": [
   "precondition_decides"
  ]
 },
 "WrapAround.wrap / if out < 0 then out": {
  "remark": "the branch is unreachable in exact arithmetic, so no claim is broken; with rounding it is modelled in WrapAroundFl"
 },
 "Kalman.predict (equivalent) / (Mat.mul k.Bd u (G _ _)) (Mat.zero (G _ _))\n": {
  "remark": "equivalent edit"
 },
 "VectorCmp.glide / h)\n    else g": {
  "remark": "equivalent in exact arithmetic: an overshoot by one step is above the target in every element, so the second test steps back below the target and takes the target"
 },
 "Race.Conflict /   | .wr _, .wr _ => False\n": {
  "tightened": [
   "conflict_iff"
  ],
  "remark": "an edit of the specification, not of the model"
 },
 "Race.Conflict /   | .rd v, .wr w => v = w\n  | .rd v, .rd w => v = w\n  | _, _ => False": {
  "tightened": [
   "conflict_iff"
  ],
  "remark": "an edit of the specification, not of the model"
 },
 "Gain.step /   | .smooth b => ({ s with smooth := b, gain := s.target }, none)": {
  "tightened": [
   "enabling_smooth_reverts_violated"
  ]
 },
 "DeviceRaces.sbg /     | .block => acc [rd euler, rd quat, rd accel, rd gyro]": {
  "tightened": [
   "DeviceRaceVars.SBG.vars_violated"
  ]
 },
 "DeviceRaces.mouse /     | .digIn => [[rd left], [rd middle], []]": {
  "tightened": [
   "DeviceRaceVars.Mouse.vars_violated"
  ]
 },
 "DeviceRaces.DeviceRaces.only /   only\n    | _ => none": {
  "remark": "not a wrong program for this claim: more threads may call the methods, and the theorems hold for them too"
 },
 "Pretty.text / [' ']": {
  "tightened": [
   "reads_back"
  ]
 },
 "Curses.printf /   | '%' :: '%' :: rest => (printf rest).map ('%' :: '%' :: ·)": {
  "tightened": [
   "printed_iff",
   "doubled_printed"
  ]
 },
 "Corrector.triangles /   | a :: b :: c :: rest => ⟨a, c, b⟩ :: triangles rest": {
  "remark": "equivalent: the corners of a triangle in another order"
 },
 "DynBlocks.tick /   | .idle => if true then match": {
  "remark": "equivalent for this claim: it is about which blocks run, not about when; the edit belongs to C22"
 },
 "TimeDiff.run / sig.ts }": {
  "tightened": [
   "stamp_middle"
  ]
 },
 "GainFl.run / rnd (g * x)": {
  "tightened": [
   "output_spec"
  ]
 },
 "IntegratorFl.run / dt s.prevTs ts": {
  "tightened": [
   "first_keeps"
  ]
 },
 "IntegratorFl.run / else some 0\n": {
  "tightened": [
   "disabled_keeps"
  ]
 },
 "written /   | .commands => L.commands :: [0, 1, 3, 4, 5].map fun i => L.commands + 1 + i / 2": {
  "property": "C124",
  "breaks": "none",
  "remark": "equivalent edit: 2/2 = 3/2"
 },
 "Out.set /   if buffer.length < size then { s with buffer := buffer } else { s with pin := write buffer }": {
  "property": "C95",
  "breaks": "the pin changes exactly when a whole block was written",
  "tightened": [
   "set_blocks"
  ]
 },
 "Out.set /   if buffer.length ≤ size then { s with buffer := buffer } else { s with buffer := [], pin := write buffer }": {
  "property": "C95",
  "breaks": "the pin changes exactly when a whole block was written",
  "tightened": [
   "set_blocks"
  ]
 },
 "prog /   | .up, .out, r => if ¬ r then [.lock, .work, .refresh false, .unlock, .work] else [.work]": {
  "property": "C229",
  "breaks": "a value taken over by one side is refreshed by the other",
  "tightened": [
   "handover"
  ]
 },
 "prog /   | .up, .inp, _ => [.lock, .work, .read, .refresh false, .unlock]": {
  "property": "C229",
  "breaks": "a value taken over by one side is refreshed by the other",
  "tightened": [
   "handover"
  ]
 },
 "setStart / def setStart (s : St n) (start : Fin (n + 1) → Y) : St n := { s with last := start}": {
  "property": "C164",
  "breaks": "setting a start position ends the movement",
  "tightened": [
   "setStart_spec"
  ]
 },
 "setStart / def setStart (s : St n) (start : Fin (n + 1) → Y) : St n := { s with last := start, finished := false }": {
  "property": "C164",
  "breaks": "setting a start position ends the movement",
  "tightened": [
   "setStart_spec"
  ]
 },
 "new /     dVal := none, dTime := 0, count := 1 }": {
  "property": "C33",
  "breaks": "before the first value the upsampling side holds the initial value",
  "tightened": [
   "up_before_first"
  ]
 },
 "init / def init (s : St K) (rows : List (Row K)) : St K := { s with raw := rows}": {
  "property": "C253",
  "breaks": "reading a new file discards the coefficients",
  "tightened": [
   "init_moving_violated"
  ]
 },
 "getSignalById /   s.signalList.find? (fun p => (s.sigs[p]?).any (fun g => getId g ≠ id))": {
  "property": "C87",
  "breaks": "a signal is found by its id",
  "tightened": [
   "lookup_spec"
  ]
 },
 "step /   | .setActiveLevel => ({ s with hasLevel := false }, false)": {
  "property": "C30",
  "breaks": "the configuration is stored",
  "tightened": [
   "configured"
  ]
 },
 "step /   | .register => ({ s with registered := false }, false)": {
  "property": "C30",
  "breaks": "the configuration is stored",
  "tightened": [
   "configured"
  ]
 },
 "step /   let pf := if s.first then p.phi else lowpass 0.2 p.phi s.phiPrev": {
  "property": "C94",
  "breaks": "the angle is filtered with factor 0.1",
  "tightened": [
   "filter_step"
  ]
 },
 "new / def new (lower upper : K) (offRange : Bool) : St K := ⟨lower, upper, false, true, false, offRange⟩": {
  "property": "C32",
  "breaks": "a new checker has neither event nor level",
  "tightened": [
   "new_spec"
  ]
 },
 "new / def new (lower upper : K) (offRange : Bool) : St K := ⟨lower, upper, false, false, true, offRange⟩": {
  "property": "C32",
  "breaks": "a new checker has neither event nor level",
  "tightened": [
   "new_spec"
  ]
 },
 "new / def new (i : Nat) : St K := ⟨i, none, true, false, false, false⟩": {
  "property": "C30",
  "breaks": "a new switch is not armed",
  "tightened": [
   "new_unarmed"
  ]
 },
 "step /   | .wait => if c > 1 then some (c - 1) else none": {
  "property": "C20",
  "breaks": "a permit is given to a waiter",
  "tightened": [
   "waits_iff"
  ]
 },
 "init /   ⟨\"\", \"\", \"\", \"\", \"\", \"\", \"\", true, none, none, false, libs, []⟩": {
  "property": "C101",
  "breaks": "none",
  "remark": "equivalent edit: the value is overwritten before it is read"
 },
 "InUser /   | .check k => ∃ o os m ms, k.os = o :: os ∨ k.ms = some (m :: ms)": {
  "property": "C228",
  "breaks": "none",
  "remark": "the predicate of the hypothesis is weakened; the claim remains true"
 },
 "InUser /   | .loop i _ => s.st i ≠ .starting": {
  "property": "C228",
  "breaks": "none",
  "remark": "the predicate of the hypothesis is weakened; the claim remains true"
 },
 "seq4 /   exitc j e := if j = 0 then (e.count ≥ 121, { e with count := e.count - 1 }) else (true, e)": {
  "property": "",
  "breaks": "none",
  "remark": "data of an example, not part of the model"
 },
 "seq4 /     else { e with count := e.count + 100, eCount := e.eCount + 1}": {
  "property": "",
  "breaks": "none",
  "remark": "data of an example, not part of the model"
 },
 "prog /   mons i := if i ≠ 0 then mons else []": {
  "property": "",
  "breaks": "none",
  "remark": "data of an example, not part of the model"
 },
 "prog /   blocking _ := false": {
  "property": "",
  "breaks": "none",
  "remark": "data of an example, not part of the model"
 },
 "attempt /   [inp (pre true), inp (call 2), inp tick, inp tick, inp tick, inp tick, inp (cond false)] ++": {
  "property": "",
  "breaks": "none",
  "remark": "data of an example, not part of the model"
 },
 "attempt /   [inp (pre false), inp (call 2), inp tick, inp tick, inp tick, inp tick, inp (cond true)] ++": {
  "property": "",
  "breaks": "none",
  "remark": "data of an example, not part of the model"
 },
 "critical /   let p := p.setLvl 1 { p.lvl 1 with inputAction := [some ⟨2, a⟩], outputAction := [some 1] }": {
  "property": "",
  "breaks": "none",
  "remark": "data of an example, not part of the model"
 },
 "critical /   { p with entryLevel := some 0, criticalInputs := [1], criticalOutputs := [1] }": {
  "property": "",
  "breaks": "none",
  "remark": "data of an example, not part of the model"
 },
 "sample / def sample : List Step := (List.range 13).flatMap (fun k => [.cRun, .iRun (k + 1000000000), .read, .write])": {
  "property": "",
  "breaks": "none",
  "remark": "data of an example, not part of the model"
 },
 "MedianVec.medianOf / if lt a b then (if lt b c then c else if lt a c then c else a)": {
  "tightened": [
   "first_scan_in_bounds"
  ]
 },
 "ownTrig / def ownTrig (r : Option EventId) : List Trig := r.toList.map (fun e => ⟨e, false⟩)": {
  "property": "C261",
  "breaks": "C261: the input action triggers its event without the private context",
  "tightened": [
   "input_reaction"
  ]
 },
 "trigger / if (p.lvl n).id ≤ (p.lvl m).id then .ok (Sys.setAct { s with next := some n } n 0)\n          else .ok s": {
  "tightened": [
   "higher_event_ignored"
  ]
 },
 "g8 / noncomputable def g8 : Cfg 0 := ⟨fun _ => 2, fun _ => 1, fun _ => 0, 1 / 10⟩": {
  "property": "",
  "breaks": "none",
  "remark": "data of an example, not part of the model"
 },
 "g8 / noncomputable def g8 : Cfg 0 := ⟨fun _ => 2, fun _ => 1, fun _ => 1, 0 / 10⟩": {
  "property": "",
  "breaks": "none",
  "remark": "data of an example, not part of the model"
 },
 "caseEx / def caseEx : Cfg ℚ := { r := 10, g := 2, gmin := -11, gmax := 10, v := 0, x0 := 0, lower := -100, upper := 100, ts0 := 0 }": {
  "property": "",
  "breaks": "none",
  "remark": "data of an example, not part of the model"
 },
 "caseEx / def caseEx : Cfg ℚ := { r := 10, g := 2, gmin := -10, gmax := 10, v := 0, x0 := 1, lower := -100, upper := 100, ts0 := 0 }": {
  "property": "",
  "breaks": "none",
  "remark": "data of an example, not part of the model"
 },
 "init / def init {T : Type} : State T := { writers := [], log := ⟨none, 1⟩, loggers := [], entries := [], out := [] }": {
  "property": "",
  "breaks": "none",
  "remark": "the category of the static logger is set by getLogger before it is used: no behaviour changes"
 },
 "start / def start : St := ⟨false, 1, 0, (0, 1)⟩": {
  "property": "",
  "breaks": "none",
  "remark": "what is shown before the first run is not part of the claims on the clock"
 },
 "new / def new (falling rising : K) : St K := ⟨none, 1, falling, rising, false⟩": {
  "property": "",
  "breaks": "none",
  "remark": "with the previous value NaN the previous time has no influence: no behaviour changes"
 },
 "new / def new (falling rising : K) : St K := ⟨none, 0, falling, rising, true⟩": {
  "property": "C29",
  "breaks": "C29: a new limiter is switched on",
  "tightened": [
   "off_until_enabled"
  ]
 },
 "ramp / def ramp (x : ℚ) (t0 : Nat) : List (Op ℚ) := (List.range 100).map fun k => .run (some x) (t0 + 1000000 * k) false": {
  "property": "",
  "breaks": "none",
  "remark": "data of a replayed test"
 },
 "integ /     [[rd .prev, put .first false, rd .prev, need .enabled false, rd .upper, rd .lower, wr .out, rd .out, wr .prev],": {
  "property": "",
  "breaks": "none",
  "remark": "the paths left reach the same members too early: the claim still holds"
 },
 "integ /      [put .enabled false], [put .enabled false], [wr .prev], [wr .upper, wr .lower, rd .prev, wr .prev], [rd .out]]": {
  "property": "",
  "breaks": "none",
  "remark": "the paths left reach the same members too early: the claim still holds"
 },
 "fileTable / def fileTable : List (Row ℚ) := [⟨1, 6, 0, 0, 0⟩, ⟨2, -3, 6, 3, 1⟩, ⟨1, 1, 0, 9, 15⟩]": {
  "property": "",
  "breaks": "none",
  "remark": "data of an example, not part of the model"
 },
 "getLogger /   { s with loggers := s.loggers ++ [log] }": {
  "property": "",
  "breaks": "none",
  "remark": "the category of the static logger is set again by each getLogger before it is copied: no behaviour changes"
 },
 "actions /   if l = some 9 then [⟨34, true⟩] else if l = some 22 ∧ s.nofAct 22 + 1 > 2 then [⟨34, false⟩] else []": {
  "property": "",
  "breaks": "none",
  "remark": "the replayed run never reaches a second call: same run"
 },
 "canSendOpen /      [put .enabled true], [wr .scale], [wr .ctrl]]": {
  "property": "",
  "breaks": "none",
  "remark": "the member is read too early on both sides of the flag: the claim still holds"
 },
 "toEeros / def toEeros (t : ℤ × ℕ) : ℕ := ((t.1 % 2 ^ 64).toNat * 1000000000 + t.2) % 3 ^ 64": {
  "property": "C92",
  "breaks": "C92: times before 1970 convert modulo a wrong power",
  "tightened": [
   "toEeros_mod"
  ]
 },
 "endstopWrites /   [(.gpio false, 5), (.gpio false, 6), (.activeHigh false, 1), (.activeHigh false, 0), (.enabled false, 1), (.enabled true, 1)]": {
  "property": "",
  "breaks": "none",
  "remark": "the later write of the same endpoint overrides the edited one: same final configuration"
 },
 "setMinMax / def setMinMax (s : St K) (_min _max : K) : St K := { s with min := s.min}": {
  "property": "",
  "breaks": "none",
  "remark": "the code ignores the arguments; assigning a member to itself changes nothing"
 },
 "gain /     [[put .enabled true], [put .enabled false], [put .smooth false], [put .smooth false], [put .parabolic true], [put .parabolic false],": {
  "property": "",
  "breaks": "none",
  "remark": "the remaining paths reach the same members too early: the claim still holds"
 },
 "gain /     [[put .enabled true], [put .enabled true], [put .smooth true], [put .smooth false], [put .parabolic true], [put .parabolic false],": {
  "property": "",
  "breaks": "none",
  "remark": "the remaining paths reach the same members too early: the claim still holds"
 },
 "mouseIn /     [[need .first true, wr .pos, put .first true, rd .pos, wr .pos, rd .pos, wr .out, wr .outT, wr .button, wr .buttonT],": {
  "property": "",
  "breaks": "none",
  "remark": "the remaining paths reach the same members too early: the claim still holds"
 },
 "mouseIn /     [[need .first false, wr .pos, put .first false, rd .pos, wr .pos, rd .pos, wr .out, wr .outT, wr .button, wr .buttonT],": {
  "property": "",
  "breaks": "none",
  "remark": "the remaining paths reach the same members too early: the claim still holds"
 },
 "rplidar /     ([.acq .driver] ++ List.replicate 4 (.use .driver) ++ List.replicate (2 + n) (.use .driver) ++ List.replicate 3 (.use .driver) ++": {
  "property": "",
  "breaks": "none",
  "remark": "only the number of uses changes, between acquisition and release as before: the claim still holds"
 },
 "getId / def getId {V : Type} (g : Sig V) : Nat := g.id + 65536 % 4294967296": {
  "tightened": [
   "Verif.Control.Signal.id_halves"
  ],
  "property": "C87"
 },
 "Properties.addLevel /     count := p.count + 2, levels := p.levels ++ [r] }": {
  "remark": "equivalent for the properties: the references of levels stay different from each other; only the lemmas which name them by their numbers fail"
 },
 "toExc / def toExc : List Inp := toAct ++ [.ret 5, .tick, .tick, .cond false, .tick, .tick, .tick, .tick, .tick, .tick, .tick, .pre true]": {
  "remark": "the edited definition is example data of a demonstration or of a replayed test, not part of the model"
 },
 "toExc / def toExc : List Inp := toAct ++ [.ret 5, .tick, .tick, .cond true, .tick, .tick, .tick, .tick, .tick, .tick, .tick, .pre false]": {
  "remark": "the edited definition is example data of a demonstration or of a replayed test, not part of the model"
 },
 "selfDemo /     levels := [1, 2, 5], count := 6 }": {
  "remark": "the edited definition is example data of a demonstration or of a replayed test, not part of the model"
 },
 "selfDemo /   { lvl := fun r => { id := (r : Int), transitions := if r = 3 then [(1, (1, .pub)), (2, (2, .pub)), (3, (5, .pub))] else [] }": {
  "remark": "the edited definition is example data of a demonstration or of a replayed test, not part of the model"
 },
 "ramp / def ramp (x : ℚ) (t0 : Nat) : List (Op ℚ) := (List.range 100).map fun k => .run (some x) (t0 - 1000000 * k) true": {
  "remark": "the edited definition is example data of a demonstration or of a replayed test, not part of the model"
 },
 "demo /     mons := fun i => if i = 1 then [⟨7, .resume, some 3⟩] else [] }": {
  "remark": "the edited definition is example data of a demonstration or of a replayed test, not part of the model"
 },
 "demo /   { caller := fun i => if i = 1 then some 0 else if i = 3 then some 1 else none": {
  "remark": "the edited definition is example data of a demonstration or of a replayed test, not part of the model"
 },
 "actions /   if l = some 9 then [⟨34, true⟩] else if l = some 22 ∧ s.nofAct 22 + 0 > 2 then [⟨34, true⟩] else []": {
  "remark": "the edited definition is example data of a demonstration or of a replayed test, not part of the model"
 },
 "ins / def ins (a b : ℚ) : Nat → Option (XVal ℚ) := fun i => if i ≠ 0 then some (.fin a) else some (.fin b)": {
  "remark": "the edited definition is example data of a demonstration or of a replayed test, not part of the model"
 },
 "ins / def ins (a b : ℚ) : Nat → Option (XVal ℚ) := fun i => if i = 0 then some (.fin b) else some (.fin a)": {
  "remark": "the edited definition is example data of a demonstration or of a replayed test, not part of the model"
 },
 "call /   | .interval => .ok d none true": {
  "property": "C320",
  "breaks": "getScanDataWithInterval reports success though the library got no command",
  "tightened": [
   "own_failure_iff"
  ],
  "remark": "no theorem spoke of the result of the calls; own_failure_iff added, it fails with this edit"
 },
 "destroy /   | none => (k, true)": {
  "property": "C96",
  "breaks": "destroy reports success although nothing was mapped",
  "tightened": [
   "life_partial"
  ],
  "remark": "no theorem spoke of the result; life_partial now does and fails with this edit"
 },
 "destroy /   | some a => ({ k with maps := k.maps.filter (· ≠ a) }, false)": {
  "property": "C96",
  "breaks": "destroy reports a failure although the memory was unmapped",
  "tightened": [
   "life_partial"
  ],
  "remark": "no theorem spoke of the result; life_partial now does and fails with this edit"
 },
 "init / def init : St := ⟨fun _ => 1, fun _ => none, false, false⟩": {
  "property": "C89",
  "breaks": "the axes are not 0 before the first input",
  "tightened": [
   "events_fresh",
   "rotation_unset_violated"
  ],
  "remark": "all theorems started from any state; the two theorems from the constructor on were added and fail with this edit"
 },
 "init / def init : St := ⟨fun _ => 0, fun _ => none, true, false⟩": {
  "property": "C89",
  "breaks": "a button is pressed before the first input",
  "tightened": [
   "events_fresh",
   "rotation_unset_violated"
  ],
  "remark": "all theorems started from any state; the two theorems from the constructor on were added and fail with this edit"
 }
}