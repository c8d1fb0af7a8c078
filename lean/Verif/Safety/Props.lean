import Verif.Safety.Lemmas
import Verif.Safety.Instances
import Verif.Safety.Concurrent
import Mathlib.Order.Basic
import Mathlib.Tactic.Common
import Mathlib.Data.Int.Order.Basic
/-!
Property theorems C01–C08 and C61 about the safety system.
-/
namespace Verif.Safety
variable {V : Type}

/-- A concrete system used in the non-vacuity examples: level 0 ("off") has id 0, level 1
("safe") id 1, level 2 ("on") id 2.  Event 7 (public) leads from 2 to 1, event 8 (private) from 2 to 0, event 9 (public) from 2 to itself,
event 5 (public) from 1 to 2.  Output 40 and input 50 are critical. -/
def demo : Properties Bool where
  lvl r := match r with
    | 0 => { id := 0, inputAction := [some ⟨50, .ignore⟩], outputAction := [some 40] }
    | 1 => { id := 1, transitions := [(5, (2, .pub))],
             inputAction := [some ⟨50, .ignore⟩], outputAction := [some 40] }
    | _ => { id := r, transitions := [(7, (1, .pub)), (8, (0, .priv)), (9, (2, .pub))],
             inputAction := [none, some ⟨50, .check true 8⟩], outputAction := [some 40, none],
             hasAction := true }
  levels := [0, 1, 2]
  criticalOutputs := [40]
  criticalInputs := [50]
  entryLevel := some 2
  count := 3

def demoEnv (v : Bool) : Env Bool :=
  { read := fun _ => v, act := [⟨7, true⟩], beforeIn := fun _ => [], beforeOut := fun _ => [] }

/-- The demo properties without null actions are accepted (null pointers are rejected by crashing in `verify`). -/
def demo' : Properties Bool :=
  { demo with lvl := fun r => { demo.lvl r with
      inputAction := (demo.lvl r).inputAction.filter (·.isSome)
      outputAction := (demo.lvl r).outputAction.filter (·.isSome) } }

theorem demo'_constructs : ∃ s, construct demo' (fun _ => 0) = .ok s := ⟨_, rfl⟩

/-! ### C01 -/

/-- **C01.** For every accepted set of properties and every history of `triggerEvent` and `run`
calls (with arbitrary input values, level actions and events triggered by others during a run) the history executes without fault or undefined
behaviour, the current level is the one last assigned in the trace, and every assignment of the current level either keeps it or follows a transition
registered in the then current level for an event triggered since that level was assigned (a private one only if triggered from the private context). -/
theorem level_changes_registered [CppVal V] (p : Properties V) (acts : LevelRef → Nat) (s0 : Sys)
    (h : construct p acts = .ok s0) (ops : List (Op V)) :
    ∃ s tr e, exec p s0 ops = .ok (s, tr) ∧ p.entryLevel = some e ∧
      s.cur = some (after e [] tr).1 ∧ Legal (registeredRule p) e [] tr := by
  obtain ⟨e, he, -, hi⟩ := construct_inv h
  obtain ⟨s, tr, hx, hl, hi'⟩ := exec_sat ops hi
  exact ⟨s, tr, e, hx, he, hi'.1, legal_mono (exact_registered p) _ _ _ hl⟩

/-- **C01, private events.** An event triggered from outside the safety system (no private context) for which the
current level has no public transition changes nothing, whatever private transition is registered; with a public transition the destination
becomes the next level, unless a change is already pending; the private context reaches both. -/
theorem private_needs_context [CppVal V] (p : Properties V) (s : Sys) (c : LevelRef) (e : EventId) (hc : s.cur = some c) :
    ((∀ m, findTrans (p.lvl c).transitions e ≠ some (m, .pub)) →
      step p s (.trigger e : Op V) = .ok (s, [.trig ⟨e, false⟩])) ∧
    (∀ m ty priv, findTrans (p.lvl c).transitions e = some (m, ty) → (ty = .pub ∨ priv = true) → s.next = some c →
      ∃ s', trigger p s e priv = .ok s' ∧ s'.next = some m ∧ s'.cur = some c) := by
  constructor
  · intro h
    have hd : (p.lvl c).dest e false = none := by
      unfold Level.dest
      split
      · rename_i d t heq
        cases t with
        | pub => exact absurd heq (h d)
        | priv => simp
      · rfl
    simp [step, triggers, trigger, hc, hd, bind, Except.bind, pure, Except.pure]
  · intro m ty priv hf hp hn
    have hd : (p.lvl c).dest e priv = some m := by
      unfold Level.dest
      rw [hf]
      rcases hp with rfl | rfl <;> simp
    exact ⟨Sys.setAct { s with next := some m } m 0, by simp [trigger, hc, hd, hn], rfl, hc⟩

/-- Case: the private event 8 of level 2 from outside changes nothing, from the private context it leads to level 0. -/
example : step demo' ⟨some 2, some 2, fun _ => 0⟩ (.trigger 8 : Op Bool) =
      .ok (⟨some 2, some 2, fun _ => 0⟩, [.trig ⟨8, false⟩]) ∧
    ∃ s', trigger demo' ⟨some 2, some 2, fun _ => 0⟩ 8 true = .ok s' ∧ s'.next = some 0 ∧ s'.cur = some 2 :=
  ⟨(private_needs_context demo' _ 2 8 rfl).1 (by
      intro m h
      have h' : some ((0, .priv) : LevelRef × EventType) = some (m, .pub) := h
      simp at h'),
    (private_needs_context demo' ⟨some 2, some 2, fun _ => 0⟩ 2 8 rfl).2 0 .priv true rfl (.inr rfl) rfl⟩

/-- **C01, last sentence** (under the condition that entry level and transition targets were
added with `addLevel`, which `verify` does not check, see `unadded_level_reachable`): the current level is always one of the installed levels. -/
theorem current_level_installed_partial [CppVal V] (p : Properties V) (acts : LevelRef → Nat) (s0 : Sys)
    (h : construct p acts = .ok s0) (hcl : Closed p) (ops : List (Op V)) :
    ∃ s tr l, exec p s0 ops = .ok (s, tr) ∧ s.cur = some l ∧ l ∈ p.levels := by
  obtain ⟨e, he, -, hi⟩ := construct_inv h
  obtain ⟨s, tr, hx, hl, hi'⟩ := exec_sat ops hi
  exact ⟨s, tr, _, hx, hi'.1, after_mem_levels hcl (hcl.1 e he) hl⟩

theorem findTrans_mem {ts : List (EventId × (LevelRef × EventType))} {e v}
    (h : findTrans ts e = some v) : (e, v) ∈ ts := by
  induction ts with
  | nil => simp [findTrans] at h
  | cons a ts ih =>
    obtain ⟨k, w⟩ := a
    simp only [findTrans] at h
    split at h
    · rename_i hk; simp at h; simp [hk, h]
    · simp [ih h]

theorem demo'_closed : Closed demo' := by
  refine ⟨by intro e he; cases he; decide, ?_⟩
  intro l hl e d ty hf
  have hm := findTrans_mem hf
  have hl' : l = 0 ∨ l = 1 ∨ l = 2 := by simpa [demo', demo] using hl
  have hd : d = 0 ∨ d = 1 ∨ d = 2 := by
    rcases hl' with rfl | rfl | rfl
    · simp [demo', demo] at hm
    · simp [demo', demo] at hm; simp [hm]
    · simp [demo', demo] at hm; rcases hm with h | h | h <;> simp [h]
  rcases hd with rfl | rfl | rfl <;> decide

/-- Without closedness the current level can be one that was never added: the constructor
accepts the properties, and one public event leads to level 99. -/
theorem unadded_level_reachable : ∃ (p : Properties Bool) (s0 s : Sys) (tr : List Obs),
    construct p (fun _ => 0) = .ok s0 ∧
    exec p s0 [.trigger 1, .run (demoEnv true)] = .ok (s, tr) ∧ s.cur = some 99 ∧ 99 ∉ p.levels := by
  let p : Properties Bool :=
    { lvl := fun r => if r = 0 then { id := 0, transitions := [(1, (99, .pub))] } else { id := 5 }
      levels := [0], entryLevel := some 0, count := 1 }
  refine ⟨p, _, _, _, rfl, rfl, rfl, by decide⟩

/-- Non-vacuity of C01: in the demo system a history really changes the level (2 → 1 by the public event 7). -/
example : ∃ s0 s tr, construct demo' (fun _ => 0) = .ok s0 ∧
    exec demo' s0 [.trigger 7, .run (demoEnv true)] = .ok (s, tr) ∧ s0.cur = some 2 ∧ s.cur = some 1 :=
  ⟨_, _, _, rfl, rfl, rfl, rfl⟩

/-- ... and a private event moves the system only from inside: triggering 8 from outside keeps level 2,
the input action (input reads false) leads to level 0. -/
example : ∃ s0 s s' tr tr', construct demo' (fun _ => 0) = .ok s0 ∧
    exec demo' s0 [.trigger 8] = .ok (s, tr) ∧ s.next = some 2 ∧
    exec demo' s0 [.run (demoEnv false)] = .ok (s', tr') ∧ s'.cur = some 0 :=
  ⟨_, _, _, _, _, rfl, rfl, rfl, rfl, rfl⟩

/-! ### C02 -/

/-- **C02 (partial).** In every history, at every assignment of the current level: if no event
triggered since the last assignment leads from the current level back to itself, the level entered is the lowest of all
requested ones (the current one if none was requested).
Missing: histories with self transitions, for which the claim is false (`lowest_wins_violated`). -/
theorem lowest_level_wins_partial [CppVal V] (p : Properties V) (acts : LevelRef → Nat) (s0 : Sys)
    (h : construct p acts = .ok s0) (ops : List (Op V)) :
    ∃ s tr e, exec p s0 ops = .ok (s, tr) ∧ p.entryLevel = some e ∧
      s.cur = some (after e [] tr).1 ∧ Legal (lowestRule p) e [] tr := by
  obtain ⟨e, he, -, hi⟩ := construct_inv h
  obtain ⟨s, tr, hx, hl, hi'⟩ := exec_sat ops hi
  exact ⟨s, tr, e, hx, he, hi'.1, legal_mono (exact_lowest p) _ _ _ hl⟩

/-- **C02, order independence (partial).** Under the same restriction, and with pairwise different ids
of the requested levels, the pending level does not depend on the order or multiplicity of the events. -/
theorem trigger_order_irrelevant_partial (p : Properties V) (s s1 s2 : Sys) (c : LevelRef)
    (ts us : List Trig) (o1 o2 : List Obs)
    (hs : s.cur = some c ∧ s.next = some c)
    (hsame : ∀ t, t ∈ ts ↔ t ∈ us)
    (hself : ∀ t ∈ ts, ¬ Registered p c t c)
    (hids : ∀ t ∈ ts, ∀ u ∈ ts, ∀ d d', Registered p c t d → Registered p c u d' →
      (p.lvl d).id = (p.lvl d').id → d = d')
    (h1 : triggers p s ts = .ok (s1, o1)) (h2 : triggers p s us = .ok (s2, o2)) :
    s1.next = s2.next := by
  have hi : Inv p s c [] := ⟨hs.1, by simpa using hs.2⟩
  have key : ∀ (vs : List Trig) (s' : Sys) (o : List Obs), triggers p s vs = .ok (s', o) →
      s'.next = some (vs.foldl (pick p c) c) := by
    intro vs s' o hv
    obtain ⟨s'', o', he, -, hinv⟩ := triggers_sat vs hi
    have ho := triggers_obs vs he
    rw [he] at hv
    simp at hv
    have haf : ∀ (l : List Trig) (q : List Trig), after c q (l.map Obs.trig) = (c, q ++ l) := by
      intro l; induction l with
      | nil => simp [after]
      | cons a l ih => intro q; simp [after, ih]
    have := hinv.2
    rw [ho, haf] at this
    simpa [← hv.1] using this
  rw [key ts s1 o1 h1, key us s2 o2 h2]
  have A := foldl_pick_lowest p c ts hself
  have B := foldl_pick_lowest p c us (fun t ht => hself t ((hsame t).2 ht))
  generalize ts.foldl (pick p c) c = m at A
  generalize us.foldl (pick p c) c = n at B
  congr 1
  rcases A with ⟨ha, rfl⟩ | ⟨⟨t, ht, hr⟩, ha⟩ <;> rcases B with ⟨hb, hn⟩ | ⟨⟨u, hu, hru⟩, hb⟩
  · exact hn.symm
  · exact absurd hru (ha u ((hsame u).2 hu) n)
  · exact absurd hr (hb t ((hsame t).1 ht) m)
  · have h1 := ha u ((hsame u).2 hu) n hru
    have h2 := hb t ((hsame t).1 ht) m hr
    exact hids t ht u ((hsame u).2 hu) m n hr hru (by omega)

/-- Case: the events 7 (to level 1) and 8 (to level 0) in both orders meet all hypotheses. -/
example : ∃ s1 o1 s2 o2, triggers demo' ⟨some 2, some 2, fun _ => 0⟩ [⟨7, true⟩, ⟨8, true⟩] = .ok (s1, o1) ∧
    triggers demo' ⟨some 2, some 2, fun _ => 0⟩ [⟨8, true⟩, ⟨7, true⟩, ⟨8, true⟩] = .ok (s2, o2) ∧ s1.next = s2.next := by
  have hreg : ∀ t : Trig, t = ⟨7, true⟩ ∨ t = ⟨8, true⟩ → ∀ d, Registered demo' 2 t d → d = 0 ∨ d = 1 := by
    rintro t (rfl | rfl) d ⟨ty, h, -⟩
    · have h' : some ((1, .pub) : LevelRef × EventType) = some (d, ty) := h
      simp at h'; exact .inr h'.1.symm
    · have h' : some ((0, .priv) : LevelRef × EventType) = some (d, ty) := h
      simp at h'; exact .inl h'.1.symm
  refine ⟨_, _, _, _, rfl, rfl, ?_⟩
  refine trigger_order_irrelevant_partial demo' ⟨some 2, some 2, fun _ => 0⟩ _ _ 2
    [⟨7, true⟩, ⟨8, true⟩] [⟨8, true⟩, ⟨7, true⟩, ⟨8, true⟩] _ _ ⟨rfl, rfl⟩ ?_ ?_ ?_ rfl rfl
  · intro t; simp; tauto
  · intro t ht h
    rcases hreg t (by simpa using ht) 2 h with h | h <;> simp at h
  · intro t ht u hu d d' hd hd' hid
    rcases hreg t (by simpa using ht) d hd with rfl | rfl <;> rcases hreg u (by simpa using hu) d' hd' with rfl | rfl <;>
      first | rfl | (exact absurd hid (by decide))

/-- The full C02 is false: with a registered self transition the result depends on the order.
Current level 2; event 1 leads to level 1 (lower), event 2 to level 2 itself, event 3 to level 5 (higher).
`3, 2, 3'` ends in the *higher* level although the current level was requested too. -/
theorem lowest_wins_violated : ∃ (p : Properties Bool) (s0 s1 s2 : Sys) (tr1 tr2 : List Obs),
    construct p (fun _ => 0) = .ok s0 ∧ s0.cur = some 2 ∧
    exec p s0 [.trigger 2, .trigger 3] = .ok (s1, tr1) ∧ s1.next = some 5 ∧
    exec p s0 [.trigger 3, .trigger 2] = .ok (s2, tr2) ∧ s2.next = some 2 := by
  let p : Properties Bool :=
    { lvl := fun r => { id := (r : Int), transitions := if r = 2 then [(2, (2, .pub)), (3, (5, .pub))] else [] }
      levels := [2, 5], entryLevel := some 2, count := 6 }
  exact ⟨p, _, _, _, _, _, rfl, rfl, rfl, rfl, rfl, rfl⟩

/-- Non-vacuity: from the demo level 2 the events 7 (to 1) and 8 (private, to 0) compete and the lowest wins. -/
example : ∃ s, construct demo' (fun _ => 0) = .ok s ∧
    (∃ s1 o1, triggers demo' s [⟨7, true⟩, ⟨8, true⟩] = .ok (s1, o1) ∧ s1.next = some 0) ∧
    (∃ s2 o2, triggers demo' s [⟨8, true⟩, ⟨7, true⟩] = .ok (s2, o2) ∧ s2.next = some 0) :=
  ⟨_, rfl, ⟨_, _, rfl, rfl⟩, ⟨_, _, rfl, rfl⟩⟩

/-! ### C03 -/

/-- **C03.** In any reachable state, one `run` executes exactly the actions of one level `l` — all its
input actions in order, then its level action, then all its output actions in order, each once — where `l` is the level pending at the start;
`l` is the current level from the start of the run to its end, when the level pending then is assigned; events triggered
meanwhile do not influence which actions are executed. -/
theorem run_executes_one_level [CppVal V] (p : Properties V) (acts : LevelRef → Nat) (s0 s : Sys)
    (h : construct p acts = .ok s0) (ops : List (Op V)) (tr : List Obs)
    (hx : exec p s0 ops = .ok (s, tr)) (env : Env V) :
    ∃ s' mid l m, s.next = some l ∧
      run p env s = .ok (s', .level l :: (mid ++ [.level m])) ∧ s'.cur = some m ∧
      mid.filter Obs.isExec = expectedCycle p l ∧
      (∀ x ∈ mid, Obs.isLevel x = false) := by
  obtain ⟨e, he, -, hi⟩ := construct_inv h
  obtain ⟨s1, tr1, hx', hl, hi'⟩ := exec_sat ops hi
  rw [hx] at hx'
  simp at hx'
  obtain ⟨rfl, rfl⟩ := hx'
  obtain ⟨s', mid, l, m, hn, hc', -, hr, -, -, -, hex, hlev⟩ := run_shape env hi'
  exact ⟨s', mid, l, m, hn, hr, hc', hex, hlev⟩

/-- Non-vacuity: the demo cycle in level 2 with an input action that fires executes input, level action and output of level 2 although the pending level
changes in between. -/
example : ∃ s0 s' tr, construct demo' (fun _ => 0) = .ok s0 ∧ run demo' (demoEnv false) s0 = .ok (s', tr) ∧
    tr.filter Obs.isExec = [.checked 2 0 50, .action 2, .set 2 0 40] ∧ s'.cur = some 0 :=
  ⟨_, _, _, rfl, rfl, rfl, rfl⟩

/-! ### C04 -/

/-- **C04 (partial).** If the constructor accepted the properties and every transition target and the
entry level were added with `addLevel`, then in every run after any history every critical output is set by an output action
and every critical input is checked by an input action of the level executed.
Missing: the constructor does not itself ensure the `Closed` hypothesis (`critical_unhandled`). -/
theorem critical_handled_partial [CppVal V] (p : Properties V) (acts : LevelRef → Nat) (s0 s : Sys)
    (h : construct p acts = .ok s0) (hcl : Closed p) (ops : List (Op V)) (tr : List Obs)
    (hx : exec p s0 ops = .ok (s, tr)) (env : Env V) :
    ∃ s' tr', run p env s = .ok (s', tr') ∧
      (∀ out ∈ p.criticalOutputs, ∃ l i, Obs.set l i out ∈ tr') ∧
      (∀ inp ∈ p.criticalInputs, ∃ l i, Obs.checked l i inp ∈ tr') := by
  obtain ⟨e, he, hv, hi⟩ := construct_inv h
  obtain ⟨s1, tr1, hx', hl, hi'⟩ := exec_sat ops hi
  rw [hx] at hx'
  simp at hx'
  obtain ⟨rfl, rfl⟩ := hx'
  obtain ⟨s', mid, l, m, hn, hc', -, hr, hl1, -, -, hex, hlev⟩ := run_shape env hi'
  have hmem : l ∈ p.levels := by
    have h0 := after_mem_levels hcl (hcl.1 e he) hl
    rcases foldl_pick_registered p (after e [] tr).1 (after e [] tr).2 (after e [] tr).1 with hk | ⟨t, _, ty, hf, _⟩
    · rw [hl1, hk]; exact h0
    · rw [hl1]; exact hcl.2 _ h0 _ _ _ hf
  obtain ⟨ho, hin⟩ := verifyLevels_spec hv l hmem
  have sub : ∀ x ∈ expectedCycle p l, x ∈ Obs.level l :: (mid ++ [Obs.level m]) := by
    intro x hx
    rw [← hex] at hx
    have := (List.mem_filter.1 hx).1
    simp [this]
  refine ⟨s', _, hr, ?_, ?_⟩
  · intro out hout
    obtain ⟨i, hmi⟩ := eraseHandled_spec _ _ ho out hout
    refine ⟨l, i, sub _ ?_⟩
    unfold expectedCycle
    simp only [List.mem_append, List.mem_map]
    exact Or.inr ⟨(i, out), hmi, rfl⟩
  · intro inp hinp
    obtain ⟨i, hmi⟩ := eraseHandled_spec _ _ hin inp hinp
    rw [indexed_map] at hmi
    obtain ⟨⟨j, ia⟩, hj, hji⟩ := List.mem_map.1 hmi
    simp at hji
    refine ⟨l, i, sub _ ?_⟩
    unfold expectedCycle
    simp only [List.mem_append, List.mem_map]
    exact Or.inl (Or.inl ⟨(j, ia), hj, by simp [hji]⟩)

/-- What the constructor has to check: an entry level is set, and every level added has, for every critical output, an
action on that output and, for every critical input, a check of it. -/
def Acceptable (p : Properties V) : Prop :=
  p.entryLevel.isSome ∧ ∀ l ∈ p.levels,
    (∀ out ∈ p.criticalOutputs, some out ∈ (p.lvl l).outputAction) ∧
    (∀ inp ∈ p.criticalInputs, ∃ ia, some ia ∈ (p.lvl l).inputAction ∧ ia.input = inp)

/-- No null pointer was put into an action list. -/
def NoNull (p : Properties V) : Prop :=
  ∀ l ∈ p.levels, none ∉ (p.lvl l).outputAction ∧ none ∉ (p.lvl l).inputAction

theorem eraseHandled_ok : ∀ (acts : List (Option Nat)) (crit : List Nat), none ∉ acts →
    eraseHandled crit acts = .ok (crit.filter (fun x => some x ∉ acts))
  | [], crit, _ => by simp [eraseHandled, List.filter_eq_self.2]
  | none :: _, _, h => by simp at h
  | some x :: rest, crit, h => by
    rw [eraseHandled, eraseHandled_ok rest _ (fun hc => h (List.mem_cons_of_mem _ hc)), List.filter_filter]
    congr 2
    funext y
    by_cases hy : y = x <;> simp [hy]

theorem verifyLevels_decides (p : Properties V) : ∀ ls : List LevelRef,
    (∀ l ∈ ls, none ∉ (p.lvl l).outputAction ∧ none ∉ (p.lvl l).inputAction) →
    ((∀ l ∈ ls, (∀ out ∈ p.criticalOutputs, some out ∈ (p.lvl l).outputAction) ∧
      (∀ inp ∈ p.criticalInputs, ∃ ia, some ia ∈ (p.lvl l).inputAction ∧ ia.input = inp)) ∧
      verifyLevels p ls = .ok ()) ∨
    ((¬ ∀ l ∈ ls, (∀ out ∈ p.criticalOutputs, some out ∈ (p.lvl l).outputAction) ∧
      (∀ inp ∈ p.criticalInputs, ∃ ia, some ia ∈ (p.lvl l).inputAction ∧ ia.input = inp)) ∧
      verifyLevels p ls = .error .fault) := by
  intro ls
  induction ls with
  | nil => intro _; left; simp [verifyLevels]
  | cons r rest ih =>
    intro hn
    obtain ⟨hn1, hn2⟩ := hn r List.mem_cons_self
    have hn2' : none ∉ (p.lvl r).inputAction.map (Option.map InAct.input) := by
      intro hc
      obtain ⟨x, hx, he⟩ := List.mem_map.1 hc
      cases x with
      | none => exact hn2 hx
      | some v => simp at he
    have e1 : (p.criticalOutputs.filter (fun x => some x ∉ (p.lvl r).outputAction) = []) ↔
        ∀ out ∈ p.criticalOutputs, some out ∈ (p.lvl r).outputAction := by
      simp [List.filter_eq_nil_iff]
    have e2 : (p.criticalInputs.filter (fun x => some x ∉ (p.lvl r).inputAction.map (Option.map InAct.input)) = []) ↔
        ∀ inp ∈ p.criticalInputs, ∃ ia, some ia ∈ (p.lvl r).inputAction ∧ ia.input = inp := by
      rw [List.filter_eq_nil_iff]
      constructor
      · intro h inp hi
        have := h inp hi
        simp only [decide_eq_true_eq, not_not] at this
        obtain ⟨x, hx, he⟩ := List.mem_map.1 this
        cases x with
        | none => simp at he
        | some v => exact ⟨v, hx, by simpa using he⟩
      · intro h inp hi
        obtain ⟨ia, h1, h2⟩ := h inp hi
        simp only [decide_eq_true_eq, not_not]
        exact List.mem_map.2 ⟨some ia, h1, by simp [h2]⟩
    simp only [verifyLevels, eraseHandled_ok _ _ hn1, eraseHandled_ok _ _ hn2', bind, Except.bind]
    by_cases c1 : p.criticalOutputs.filter (fun x => some x ∉ (p.lvl r).outputAction) = []
    · by_cases c2 : p.criticalInputs.filter (fun x => some x ∉ (p.lvl r).inputAction.map (Option.map InAct.input)) = []
      · have h1 := e1.1 c1
        have h2 := e2.1 c2
        rcases ih (fun l hl => hn l (List.mem_cons_of_mem _ hl)) with ⟨ha, hb⟩ | ⟨ha, hb⟩
        · left
          refine ⟨fun l hl => ?_, ?_⟩
          · rcases List.mem_cons.1 hl with rfl | hl
            · exact ⟨h1, h2⟩
            · exact ha l hl
          · simp only [c1, c2, hb]; rfl
        · right
          refine ⟨fun hc => ha (fun l hl => hc l (List.mem_cons_of_mem _ hl)), ?_⟩
          simp only [c1, c2, hb]; rfl
      · right
        refine ⟨fun hc => c2 (e2.2 (hc r List.mem_cons_self).2), ?_⟩
        simp only [c1, ne_eq, not_true_eq_false, if_false, c2, not_false_eq_true, if_true]; rfl
    · right
      refine ⟨fun hc => c1 (e1.2 (hc r List.mem_cons_self).1), ?_⟩
      simp only [ne_eq, c1, not_false_eq_true, if_true]; rfl

/-- **C04** (decision) The constructor succeeds exactly for acceptable properties and throws `Fault` for all others. -/
theorem constructor_decides (p : Properties V) (acts : LevelRef → Nat) (hn : NoNull p) :
    (Acceptable p → ∃ s e, p.entryLevel = some e ∧ construct p acts = .ok s ∧ s.cur = some e ∧ s.next = some e) ∧
    (¬ Acceptable p → construct p acts = .error .fault) := by
  have hv := verifyLevels_decides p p.levels hn
  constructor
  · rintro ⟨he, ha⟩
    obtain ⟨e, he⟩ := Option.isSome_iff_exists.1 he
    rcases hv with ⟨_, hb⟩ | ⟨hb, _⟩
    · refine ⟨Sys.setAct { cur := some e, next := some e, nofAct := acts } e 0, e, he, ?_, rfl, rfl⟩
      simp [construct, verify, hb, he, bind, Except.bind, pure, Except.pure]
    · exact absurd ha hb
  · intro hna
    rcases hv with ⟨ha, hb⟩ | ⟨_, hb⟩
    · cases he : p.entryLevel with
      | none => simp [construct, verify, hb, he, bind, Except.bind, pure, Except.pure]; rfl
      | some e => exact absurd ⟨by simp [he], ha⟩ hna
    · simp [construct, verify, hb, bind, Except.bind]

/-- Non-vacuity: the demo is acceptable, and without entry level or without the output action it is not. -/
example : NoNull demo' ∧ Acceptable demo' ∧ ¬ Acceptable { demo' with entryLevel := none } ∧
    ¬ Acceptable { demo' with criticalOutputs := [41] } := by
  have h : NoNull demo' := by
    intro l hl
    have hl' : l = 0 ∨ l = 1 ∨ l = 2 := by simpa [demo', demo] using hl
    rcases hl' with rfl | rfl | rfl <;> simp [demo', demo]
  refine ⟨h, ?_, by simp [Acceptable], ?_⟩
  · refine Classical.byContradiction fun hc => ?_
    have := (constructor_decides demo' (fun _ => 0) h).2 hc
    cases this
  · intro hc
    have := (constructor_decides { demo' with criticalOutputs := [41] } (fun _ => 0) h).1 hc
    obtain ⟨_, _, _, h2, _⟩ := this
    cases h2

/-- The full C04 is false: a transition to a level that was never added passes verification, and the
cycles in that level do not touch the critical output. -/
theorem critical_unhandled : ∃ (p : Properties Bool) (s0 s s' : Sys) (tr tr' : List Obs),
    construct p (fun _ => 0) = .ok s0 ∧ 40 ∈ p.criticalOutputs ∧
    exec p s0 [.trigger 1] = .ok (s, tr) ∧ run p (demoEnv true) s = .ok (s', tr') ∧
    ∀ l i, Obs.set l i 40 ∉ tr' := by
  let p : Properties Bool :=
    { lvl := fun r => if r = 0 then { id := 0, transitions := [(1, (99, .pub))], outputAction := [some 40] }
        else { id := 5 }
      levels := [0], entryLevel := some 0, count := 1, criticalOutputs := [40] }
  refine ⟨p, _, _, _, _, _, rfl, by decide, rfl, rfl, ?_⟩
  intro l i hmem
  revert hmem
  show Obs.set l i 40 ∈ [Obs.level 99, Obs.level 99] → False
  simp

/-- Non-vacuity of `critical_handled_partial`: the demo properties satisfy all hypotheses and have critical signals. -/
example : (∃ s0, construct demo' (fun _ => 0) = .ok s0) ∧ Closed demo' ∧
    demo'.criticalOutputs = [40] ∧ demo'.criticalInputs = [50] :=
  ⟨⟨_, rfl⟩, demo'_closed, rfl, rfl⟩

/-! ### C05 -/
namespace Inst

theorem count_eq (ops : List Op) (s : St) :
    ∀ f : Nat, s.instCount.toNat = (s.live + f) % 256 →
    (exec s ops).1.instCount.toNat = ((exec s ops).1.live + (f + (exec s ops).2)) % 256 := by
  induction ops generalizing s with
  | nil => intro f h; simpa [exec] using h
  | cons op ops ih =>
    intro f h
    cases op with
    | construct valid =>
      simp only [exec, step]
      split
      · have := ih { s with instCount := s.instCount + 1 } (f+1) (by
          simp [UInt8.toNat_add]; omega)
        simp only [if_true]
        rw [this]; congr 1; omega
      · split
        · have := ih { s with instCount := s.instCount + 1 } (f+1) (by
            simp [UInt8.toNat_add]; omega)
          simp only [if_true]
          rw [this]; congr 1; omega
        · have := ih { instCount := s.instCount + 1, live := s.live + 1 } f (by
            simp [UInt8.toNat_add]; omega)
          simpa using this
    | destroy =>
      simp only [exec, step]
      split
      · simpa using ih s f h
      · have := ih { instCount := s.instCount - 1, live := s.live - 1 } f (by
          have hb := s.instCount.toNat_lt
          rw [UInt8.toNat_sub]; simp; omega)
        simpa using this

theorem live_le_one_aux (ops : List Op) (s : St) (f : Nat)
    (h : s.instCount.toNat = (s.live + f) % 256) (hl : s.live ≤ 1)
    (hf : f + (exec s ops).2 ≤ 253) : (exec s ops).1.live ≤ 1 := by
  induction ops generalizing s f with
  | nil => simpa [exec] using hl
  | cons op ops ih =>
    cases op with
    | construct valid =>
      simp only [exec, step] at hf ⊢
      have hb := s.instCount.toNat_lt
      split at hf
      · rename_i hgt
        simp only [hgt, if_true] at hf ⊢
        exact ih { s with instCount := s.instCount + 1 } (f+1) (by simp [UInt8.toNat_add]; omega) hl (by omega)
      · rename_i hgt
        simp only [hgt, if_false] at hf ⊢
        split at hf
        · rename_i hv
          simp only [hv, if_true] at hf ⊢
          exact ih { s with instCount := s.instCount + 1 } (f+1) (by simp [UInt8.toNat_add]; omega) hl (by omega)
        · rename_i hv
          simp only [hv, if_false] at hf ⊢
          have hc : (s.instCount + 1).toNat ≤ 1 := by
            have := UInt8.le_iff_toNat_le.1 (UInt8.not_lt.1 hgt); simpa using this
          have h0 : (s.instCount.toNat + 1) % 256 ≤ 1 := by simpa [UInt8.toNat_add] using hc
          have hl0 : s.live = 0 := by
            have : (exec { instCount := s.instCount + 1, live := s.live + 1 } ops).2 ≥ 0 := by omega
            omega
          refine ih { instCount := s.instCount + 1, live := s.live + 1 } f (by simp [UInt8.toNat_add]; omega) (by simp [hl0]) ?_
          simpa using hf
    | destroy =>
      simp only [exec, step] at hf ⊢
      have hb := s.instCount.toNat_lt
      split at hf
      · rename_i h0
        simp only [h0, if_true] at hf ⊢
        have := ih s f h hl (by simpa using hf)
        simpa [h0] using this
      · rename_i h0
        simp only [h0, if_false] at hf ⊢
        exact ih { instCount := s.instCount - 1, live := s.live - 1 } f
          (by rw [UInt8.toNat_sub]; simp; omega) (by simp; omega) (by simpa using hf)

/-- **C05 (partial), uniqueness.** In every history with at most 253 failed construction attempts at most one safety
system exists.  Missing: longer histories, where the 8 bit counter wraps (`two_instances`). -/
theorem at_most_one_partial (ops : List Op) (h : (exec init ops).2 ≤ 253) :
    (exec init ops).1.live ≤ 1 :=
  live_le_one_aux ops init 0 rfl (by decide) (by simpa using h)

/-- Case: two failed attempts (one because an object exists, one with invalid properties). -/
example : (exec init [.construct true, .construct true, .destroy, .construct false]).2 = 2 ∧
    (exec init [.construct true, .construct true, .destroy, .construct false]).1.live ≤ 1 :=
  ⟨by decide, at_most_one_partial _ (by decide)⟩

/-- **C05 (partial), availability.** In every history without a failed attempt a construction with valid properties succeeds
iff no safety system exists.  Missing: histories with failed attempts, which block all later ones (`failed_attempt_blocks`). -/
theorem construct_iff_none_partial (ops : List Op) (h : (exec init ops).2 = 0) :
    (step (exec init ops).1 (.construct true)).2 = .ok ↔ (exec init ops).1.live = 0 := by
  have h1 := count_eq ops init 0 rfl
  have h2 := at_most_one_partial ops (by omega)
  generalize (exec init ops).1 = s at *
  simp only [h, Nat.zero_add, Nat.add_zero] at h1
  have hb := s.instCount.toNat_lt
  simp only [step]
  constructor
  · intro hr
    by_contra hne
    have hl : s.live = 1 := by omega
    have hc : s.instCount = 1 := by
      apply UInt8.toNat_inj.1; rw [h1, hl]; rfl
    rw [hc] at hr
    rw [if_pos (by decide)] at hr
    simp at hr
  · intro hl
    have hc : s.instCount = 0 := by
      apply UInt8.toNat_inj.1; rw [h1, hl]; rfl
    rw [hc, if_neg (by decide)]; simp

/-- The second half of C05 is false: one attempt with invalid properties makes every later attempt fail although
no safety system exists. -/
theorem failed_attempt_blocks :
    (exec init [.construct false]).1.live = 0 ∧
    (step (exec init [.construct false]).1 (.construct true)).2 = .fault := by decide

/-- The first half of C05 is false for long histories: with one living object, after 254 failed attempts the counter has wrapped and a second
safety system is constructed. -/
theorem two_instances :
    ∃ ops, (exec init ops).1.live = 2 := by
  refine ⟨.construct true :: (List.replicate 254 (.construct true) ++ [.construct true]), ?_⟩
  decide +kernel

/-- Non-vacuity: construct, destroy, construct again. -/
example : (exec init [.construct true, .destroy, .construct true]).2 = 0 ∧
    (exec init [.construct true, .destroy, .construct true]).1.live = 1 := by decide

end Inst

/-! ### C06 -/

theorem addEvent_find {l : Level V} {e next t} (e' : EventId) :
    findTrans (l.addEvent e next t).transitions e' =
      if e' = e ∧ findTrans l.transitions e = none then some (next, t) else findTrans l.transitions e' := by
  have happ : ∀ (xs : List (EventId × (LevelRef × EventType))) (e' : EventId),
      findTrans (xs ++ [(e, (next, t))]) e' =
        match findTrans xs e' with | some v => some v | none => if e' = e then some (next, t) else none := by
    intro xs e'
    induction xs with
    | nil => simp [findTrans, eq_comm]
    | cons a xs ih => obtain ⟨k, v⟩ := a; simp only [List.cons_append, findTrans]; split <;> simp [*]
  unfold Level.addEvent
  cases h : findTrans l.transitions e with
  | some v => simp
  | none =>
    simp only [happ]
    by_cases he : e' = e
    · subst he; simp [h]
    · simp only [he, false_and, if_false]
      cases findTrans l.transitions e' <;> rfl

theorem addEvent_id {l : Level V} {e next t} : (l.addEvent e next t).id = l.id := by
  unfold Level.addEvent; split <;> rfl

/-- Pointwise effect of the registration loop. -/
theorem addEventWhere_spec (p : Properties V) (sel : Int → Bool) (e next t) :
    (p.addEventWhere sel e next t).levels = p.levels ∧
    (∀ r, ((p.addEventWhere sel e next t).lvl r).id = (p.lvl r).id) ∧
    (∀ r e', findTrans ((p.addEventWhere sel e next t).lvl r).transitions e' =
      if r ∈ p.levels ∧ sel (p.lvl r).id = true ∧ e' = e ∧ findTrans (p.lvl r).transitions e = none
      then some (next, t) else findTrans (p.lvl r).transitions e') := by
  unfold Properties.addEventWhere
  suffices H : ∀ (ls : List LevelRef) (q : Properties V),
      let q' := ls.foldl (fun q r => if sel (q.lvl r).id then q.addEventToLevel r e next t else q) q
      q'.levels = q.levels ∧ (∀ r, (q'.lvl r).id = (q.lvl r).id) ∧
      (∀ r e', findTrans (q'.lvl r).transitions e' =
        if r ∈ ls ∧ sel (q.lvl r).id = true ∧ e' = e ∧ findTrans (q.lvl r).transitions e = none
        then some (next, t) else findTrans (q.lvl r).transitions e') from H p.levels p
  intro ls
  induction ls with
  | nil => intro q; simp
  | cons r0 ls ih =>
    intro q
    simp only [List.foldl_cons]
    have one : ∀ r, ((q.addEventToLevel r0 e next t).lvl r) =
        if r = r0 then (q.lvl r0).addEvent e next t else q.lvl r := by
      intro r; simp [Properties.addEventToLevel, Properties.setLvl]
    have lev : (q.addEventToLevel r0 e next t).levels = q.levels := rfl
    by_cases hs : sel (q.lvl r0).id = true
    · simp only [hs, if_true]
      obtain ⟨h1, h2, h3⟩ := ih (q.addEventToLevel r0 e next t)
      have hid : ∀ r, ((q.addEventToLevel r0 e next t).lvl r).id = (q.lvl r).id := by
        intro r; rw [one]; split
        · rename_i h; subst h; exact addEvent_id
        · rfl
      refine ⟨by rw [h1, lev], fun r => by rw [h2, hid], ?_⟩
      intro r e'
      rw [h3, hid]
      by_cases hr : r = r0
      · subst hr
        simp only [one, if_true, addEvent_find, hs, List.mem_cons, true_or, true_and]
        by_cases hn : findTrans (q.lvl r).transitions e = none
        · simp [hn]
        · by_cases he : e' = e
          · subst he; simp [hn]
          · simp [he]
      · simp [one, hr]
    · obtain ⟨h1, h2, h3⟩ := ih q
      simp only [hs]
      refine ⟨h1, h2, ?_⟩
      intro r e'
      rw [show (List.foldl (fun q r => if sel (q.lvl r).id = true then q.addEventToLevel r e next t else q)
        (if false = true then q.addEventToLevel r0 e next t else q) ls) =
        (List.foldl (fun q r => if sel (q.lvl r).id = true then q.addEventToLevel r e next t else q) q ls) from rfl, h3]
      by_cases hr : r = r0
      · subst hr; simp [hs]
      · simp [hr]

/-- **C06, above.** Exactly the added levels with an id at least that of `level` that had no transition for `e` get one; nothing else changes. -/
theorem registration_above (p : Properties V) (level : LevelRef) (e next t) (r : LevelRef) (e' : EventId) :
    findTrans ((p.addEventToLevelAndAbove level e next t).lvl r).transitions e' =
      if r ∈ p.levels ∧ (p.lvl level).id ≤ (p.lvl r).id ∧ e' = e ∧ findTrans (p.lvl r).transitions e = none
      then some (next, t) else findTrans (p.lvl r).transitions e' := by
  have := (addEventWhere_spec p (fun i => decide (i ≥ (p.lvl level).id)) e next t).2.2 r e'
  simpa [Properties.addEventToLevelAndAbove] using this

/-- **C06, below.** -/
theorem registration_below (p : Properties V) (level : LevelRef) (e next t) (r : LevelRef) (e' : EventId) :
    findTrans ((p.addEventToLevelAndBelow level e next t).lvl r).transitions e' =
      if r ∈ p.levels ∧ (p.lvl r).id ≤ (p.lvl level).id ∧ e' = e ∧ findTrans (p.lvl r).transitions e = none
      then some (next, t) else findTrans (p.lvl r).transitions e' := by
  have := (addEventWhere_spec p (fun i => decide (i ≤ (p.lvl level).id)) e next t).2.2 r e'
  simpa [Properties.addEventToLevelAndBelow] using this

/-- Case: event 5 in level 1 and below reaches level 0; level 1 has a transition for it already and keeps it; level 2 is not reached. -/
example : findTrans ((demo.addEventToLevelAndBelow 1 5 0 .priv).lvl 0).transitions 5 = some (0, .priv) ∧
    findTrans ((demo.addEventToLevelAndBelow 1 5 0 .priv).lvl 1).transitions 5 = some (2, .pub) ∧
    findTrans ((demo.addEventToLevelAndBelow 1 5 0 .priv).lvl 2).transitions 5 = none := ⟨rfl, rfl, rfl⟩

/-- **C06, between.** -/
theorem registration_between (p : Properties V) (lower upper : LevelRef) (e next t) (r : LevelRef)
    (e' : EventId) :
    findTrans ((p.addEventToAllLevelsBetween lower upper e next t).lvl r).transitions e' =
      if r ∈ p.levels ∧ ((p.lvl lower).id ≤ (p.lvl r).id ∧ (p.lvl r).id ≤ (p.lvl upper).id) ∧
        e' = e ∧ findTrans (p.lvl r).transitions e = none
      then some (next, t) else findTrans (p.lvl r).transitions e' := by
  have := (addEventWhere_spec p
    (fun i => decide (i ≥ (p.lvl lower).id) && decide (i ≤ (p.lvl upper).id)) e next t).2.2 r e'
  simpa [Properties.addEventToAllLevelsBetween] using this

/-- Case: event 6 between level 1 and level 2. -/
example : findTrans ((demo.addEventToAllLevelsBetween 1 2 6 0 .pub).lvl 0).transitions 6 = none ∧
    findTrans ((demo.addEventToAllLevelsBetween 1 2 6 0 .pub).lvl 1).transitions 6 = some (0, .pub) ∧
    findTrans ((demo.addEventToAllLevelsBetween 1 2 6 0 .pub).lvl 2).transitions 6 = some (0, .pub) := ⟨rfl, rfl, rfl⟩

/-- **C06, single level** (works whether or not the level was added). -/
theorem registration_single (p : Properties V) (level : LevelRef) (e next t) (r : LevelRef)
    (e' : EventId) :
    findTrans ((p.addEventToLevel level e next t).lvl r).transitions e' =
      if r = level ∧ e' = e ∧ findTrans (p.lvl r).transitions e = none
      then some (next, t) else findTrans (p.lvl r).transitions e' := by
  simp only [Properties.addEventToLevel, Properties.setLvl]
  by_cases hr : r = level
  · subst hr; simp [addEvent_find]
  · simp [hr]

/-- Case: event 6 in level 1 only; event 5 is registered there already and stays. -/
example : findTrans ((demo.addEventToLevel 1 6 0 .pub).lvl 1).transitions 6 = some (0, .pub) ∧
    findTrans ((demo.addEventToLevel 1 6 0 .pub).lvl 2).transitions 6 = none ∧
    findTrans ((demo.addEventToLevel 1 5 0 .priv).lvl 1).transitions 5 = some (2, .pub) := ⟨rfl, rfl, rfl⟩

/-- The registration calls a user can make. -/
inductive RegOp where
  | single (level : LevelRef) (e : EventId) (next : LevelRef) (t : EventType)
  | above (level : LevelRef) (e : EventId) (next : LevelRef) (t : EventType)
  | below (level : LevelRef) (e : EventId) (next : LevelRef) (t : EventType)
  | between (lower upper : LevelRef) (e : EventId) (next : LevelRef) (t : EventType)
  | addLevel (level : LevelRef)

def RegOp.apply (p : Properties V) : RegOp → Properties V
  | .single l e n t => p.addEventToLevel l e n t
  | .above l e n t => p.addEventToLevelAndAbove l e n t
  | .below l e n t => p.addEventToLevelAndBelow l e n t
  | .between a b e n t => p.addEventToAllLevelsBetween a b e n t
  | .addLevel l => p.addLevel l

/-- **C06, first registration wins.** A transition registered for a (level, event) pair is never changed by any later
sequence of registrations. -/
theorem first_registration_wins (p : Properties V) (ops : List RegOp) (r : LevelRef) (e : EventId)
    (v : LevelRef × EventType) (h : findTrans (p.lvl r).transitions e = some v) :
    findTrans ((ops.foldl RegOp.apply p).lvl r).transitions e = some v := by
  induction ops generalizing p with
  | nil => exact h
  | cons op ops ih =>
    apply ih
    have hno : ∀ e0, ¬ (e = e0 ∧ findTrans (p.lvl r).transitions e0 = none) := by
      rintro e0 ⟨rfl, h0⟩; simp [h] at h0
    cases op with
    | single l e0 n t =>
      simp only [RegOp.apply]
      rw [registration_single, if_neg (fun hh => hno e0 hh.2)]; exact h
    | above l e0 n t =>
      simp only [RegOp.apply]; rw [registration_above, if_neg (fun hh => hno e0 hh.2.2)]; exact h
    | below l e0 n t =>
      simp only [RegOp.apply]; rw [registration_below, if_neg (fun hh => hno e0 hh.2.2)]; exact h
    | between a b e0 n t =>
      simp only [RegOp.apply]; rw [registration_between, if_neg (fun hh => hno e0 hh.2.2)]; exact h
    | addLevel l =>
      simp only [RegOp.apply, Properties.addLevel, Properties.setLvl]
      by_cases hr : r = l
      · subst hr; simpa using h
      · simpa [hr] using h

/-- Case: event 7 of level 2 leads to level 1; five attempts to change that have no effect. -/
example : findTrans (([.single 2 7 0 .pub, .above 0 7 0 .priv, .below 2 7 0 .pub, .between 0 2 7 0 .pub, .addLevel 2].foldl
    RegOp.apply demo).lvl 2).transitions 7 = some (1, .pub) :=
  first_registration_wins demo _ 2 7 _ rfl

/-- Non-vacuity: registering event 7 in level 1 and above touches level 1 but not level 2 (which has one) nor level 0. -/
example : findTrans ((demo.addEventToLevelAndAbove 1 7 0 .pub).lvl 1).transitions 7 = some (0, .pub) ∧
    findTrans ((demo.addEventToLevelAndAbove 1 7 0 .pub).lvl 2).transitions 7 = some (1, .pub) ∧
    findTrans ((demo.addEventToLevelAndAbove 1 7 0 .pub).lvl 0).transitions 7 = none := ⟨rfl, rfl, rfl⟩

/-! ### C07 -/
namespace Conc

/-- The levels that have been current during an execution (newest first). -/
def history (p : Properties V) (s : St) : List Op → List LevelRef
  | [] => [s.cur]
  | op :: ops => s.cur :: history p (step p s op) ops

/-- `m` is reachable from a level in `hs` by one registered transition. -/
def FromSome (p : Properties V) (hs : List LevelRef) (m : LevelRef) : Prop :=
  ∃ l ∈ hs, ∃ t, Registered p l t m

/-- **C07 (partial).** Under every interleaving of `triggerEvent` calls of any number of threads with `run`, the current level is the entry
level or the destination of a transition registered in a level that was current at some earlier time.
Missing: that the transition is registered in the level that is *left*; this is false (`stale_transition`). -/
theorem concurrent_level_discipline_partial (p : Properties V) (e : LevelRef) (ops : List Op) :
    (exec p (init e) ops).cur = e ∨
      FromSome p (history p (init e) ops) (exec p (init e) ops).cur := by
  suffices H : ∀ (ops : List Op) (s : St) (hs : List LevelRef),
      (∀ th n, s.pending th = some n → FromSome p hs n) →
      (s.next = e ∨ FromSome p hs s.next) → (s.cur = e ∨ FromSome p hs s.cur) →
      let s' := exec p s ops
      s'.cur = e ∨ FromSome p (hs ++ history p s ops) s'.cur by
    have := H ops (init e) [] (by simp [init]) (Or.inl rfl) (Or.inl rfl)
    simpa using this
  have mono : ∀ hs hs' m, (∀ x ∈ hs, x ∈ hs') → FromSome p hs m → FromSome p hs' m :=
    fun hs hs' m hsub ⟨l, hl, t, ht⟩ => ⟨l, hsub l hl, t, ht⟩
  intro ops
  induction ops with
  | nil =>
    intro s hs h1 h2 h3
    simp only [exec, List.foldl_nil, history]
    exact h3.imp_right (mono _ _ _ (by simp +contextual))
  | cons op ops ih =>
    intro s hs h1 h2 h3
    have hsub : ∀ x ∈ hs, x ∈ hs ++ [s.cur] := by simp +contextual
    have key := ih (step p s op) (hs ++ [s.cur]) ?_ ?_ ?_
    · simpa [exec, history, List.append_assoc] using key
    · intro th n hp
      cases op with
      | lookup th' t =>
        simp only [step] at hp
        split at hp
        · exact mono _ _ _ hsub (h1 th n hp)
        · by_cases hth : th = th'
          · simp only [hth, if_true] at hp
            exact ⟨s.cur, by simp, t, dest_eq_some.1 hp⟩
          · simp only [hth, if_false] at hp
            exact mono _ _ _ hsub (h1 th n hp)
      | locked th' =>
        have hp' : s.pending th = some n := by
          simp only [step] at hp
          split at hp
          · exact hp
          · by_cases hth : th = th'
            · split at hp
              · simp [hth] at hp
              · split at hp <;> simp [hth] at hp
            · split at hp
              · simpa [hth] using hp
              · split at hp <;> simpa [hth] using hp
        exact mono _ _ _ hsub (h1 th n hp')
      | take => exact mono _ _ _ hsub (h1 th n hp)
    · cases op with
      | lookup th' t =>
        have : (step p s (.lookup th' t)).next = s.next := by simp only [step]; split <;> rfl
        rw [this]; exact h2.imp_right (mono _ _ _ hsub)
      | locked th' =>
        simp only [step]
        split
        · exact h2.imp_right (mono _ _ _ hsub)
        · rename_i n hn
          split
          · exact Or.inr (mono _ _ _ hsub (h1 th' n hn))
          · split
            · exact Or.inr (mono _ _ _ hsub (h1 th' n hn))
            · exact h2.imp_right (mono _ _ _ hsub)
      | take => exact h2.imp_right (mono _ _ _ hsub)
    · cases op with
      | lookup th' t =>
        have : (step p s (.lookup th' t)).cur = s.cur := by simp only [step]; split <;> rfl
        rw [this]; exact h3.imp_right (mono _ _ _ hsub)
      | locked th' =>
        have : (step p s (.locked th')).cur = s.cur := by
          simp only [step]; split
          · rfl
          · split
            · rfl
            · split <;> rfl
        rw [this]; exact h3.imp_right (mono _ _ _ hsub)
      | take => exact h2.imp_right (mono _ _ _ hsub)

/-- C07 is false in full: thread 0 looks up its destination in level 2, the level changes to 0
meanwhile, and the late update moves the system from level 0 (which has no transition at all) up to level 1. -/
theorem stale_transition : ∃ ops1 ops2,
    let s1 := exec demo' (init 2) ops1
    let s2 := exec demo' s1 ops2
    s1.cur = 0 ∧ s2.cur = 1 ∧ (∀ op ∈ ops2, op = .locked 0 ∨ op = .take) ∧
      ∀ t m, ¬ Registered demo' 0 t m := by
  refine ⟨[.lookup 0 ⟨7, false⟩, .lookup 1 ⟨8, true⟩, .locked 1, .take], [.locked 0, .take], rfl, rfl, by simp, ?_⟩
  rintro t m ⟨ty, hf, -⟩
  simp [demo', demo, findTrans] at hf

/-- The destinations that pass the locked section during an execution, in order. -/
def asked (p : Properties V) (s : St) : List Op → List LevelRef
  | [] => []
  | .locked th :: ops => (s.pending th).toList ++ asked p (step p s (.locked th)) ops
  | op :: ops => asked p (step p s op) ops

/-- **C07, priority among threads (partial).** Between two level changes of `run`, whatever the interleaving of the threads: the level that
will be taken is the one with the lowest id among those asked for (a change already waiting included), and the current one if none was asked
for.  Missing: requests for the current level itself, which make the system forget a change that is waiting (`lowest_wins_violated`). -/
theorem concurrent_lowest_partial (p : Properties V) (s : St) (ops : List Op) (ht : Op.take ∉ ops)
    (hself : s.cur ∉ asked p s ops) :
    let waiting := (if s.next = s.cur then [] else [s.next]) ++ asked p s ops
    (exec p s ops).cur = s.cur ∧ (waiting = [] → (exec p s ops).next = s.cur) ∧
    (waiting ≠ [] → (exec p s ops).next ∈ waiting ∧ ∀ n ∈ waiting, (p.lvl (exec p s ops).next).id ≤ (p.lvl n).id) := by
  induction ops generalizing s with
  | nil =>
    by_cases h : s.next = s.cur <;> simp [exec, asked, h]
  | cons op ops ih =>
    have ht' : Op.take ∉ ops := fun h => ht (List.mem_cons_of_mem _ h)
    have hx : exec p s (op :: ops) = exec p (step p s op) ops := rfl
    rw [hx]
    cases op with
    | take => simp at ht
    | lookup th t =>
      have hc : (step p s (.lookup th t)).cur = s.cur := by simp only [step]; split <;> rfl
      have hn : (step p s (.lookup th t)).next = s.next := by simp only [step]; split <;> rfl
      have := ih (step p s (.lookup th t)) ht' (by rw [hc]; exact hself)
      simpa only [hc, hn, asked] using this
    | locked th =>
      cases hp : s.pending th with
      | none =>
        have hs : step p s (.locked th) = s := by simp [step, hp]
        have ha : asked p s (.locked th :: ops) = asked p s ops := by simp [asked, hp, hs]
        rw [hs]
        rw [ha] at hself ⊢
        exact ih s ht' hself
      | some n =>
        have ha : asked p s (.locked th :: ops) = n :: asked p (step p s (.locked th)) ops := by simp [asked, hp]
        rw [ha] at hself ⊢
        have hnc : n ≠ s.cur := fun h => hself (by simp [h])
        have hc : (step p s (.locked th)).cur = s.cur := by
          simp only [step, hp]; split
          · rfl
          · split <;> rfl
        have hn : (step p s (.locked th)).next =
            if s.next = s.cur then n else if (p.lvl n).id < (p.lvl s.next).id then n else s.next := by
          simp only [step, hp]; split
          · rfl
          · split <;> rfl
        have := ih (step p s (.locked th)) ht' (by rw [hc]; exact fun h => hself (List.mem_cons_of_mem _ h))
        rw [hc, hn] at this
        revert this
        generalize asked p (step p s (.locked th)) ops = l
        generalize exec p (step p s (.locked th)) ops = s'
        by_cases h1 : s.next = s.cur
        · simp only [h1, if_true, hnc, if_false]
          exact id
        · simp only [h1, if_false]
          by_cases h2 : (p.lvl n).id < (p.lvl s.next).id
          · simp only [h2, if_true, hnc, if_false]
            rintro ⟨g1, -, g3⟩
            obtain ⟨g4, g5⟩ := g3 (by simp)
            refine ⟨g1, by simp, fun _ => ⟨List.mem_cons_of_mem _ g4, fun m hm => ?_⟩⟩
            rcases List.mem_cons.1 hm with rfl | hm
            · exact le_trans (g5 n (by simp)) h2.le
            · exact g5 m hm
          · simp only [h2, if_false, h1]
            rintro ⟨g1, -, g3⟩
            obtain ⟨g4, g5⟩ := g3 (by simp)
            refine ⟨g1, by simp, fun _ => ⟨?_, fun m hm => ?_⟩⟩
            · rcases List.mem_cons.1 g4 with h | h
              · simp [h]
              · exact List.mem_cons_of_mem _ (List.mem_cons_of_mem _ h)
            · rcases List.mem_cons.1 hm with rfl | hm
              · exact g5 _ (by simp)
              rcases List.mem_cons.1 hm with rfl | hm
              · exact le_trans (g5 s.next (by simp)) (not_lt.1 h2)
              · exact g5 m (List.mem_cons_of_mem _ hm)

/-- Two threads ask for level 1 and level 0 in level 2: level 0 is taken in either order. -/
example : asked demo' (init 2) [.lookup 0 ⟨7, false⟩, .lookup 1 ⟨8, true⟩, .locked 0, .locked 1] = [1, 0] ∧
    (exec demo' (init 2) [.lookup 0 ⟨7, false⟩, .lookup 1 ⟨8, true⟩, .locked 0, .locked 1, .take]).cur = 0 ∧
    (exec demo' (init 2) [.lookup 0 ⟨7, false⟩, .lookup 1 ⟨8, true⟩, .locked 1, .locked 0, .take]).cur = 0 := ⟨rfl, rfl, rfl⟩

/-- Non-vacuity of the partial theorem: an execution that changes the level. -/
example : (exec demo' (init 2) [.lookup 0 ⟨7, false⟩, .locked 0, .take]).cur = 1 := rfl

end Conc

/-! ### C08 -/

/-- **C08, ignore.** -/
theorem ignore_never [CppVal V] (v : V) : (InTest.ignore : InTest V).eval v = none := rfl

section
variable {K : Type} [LinearOrder K]

/-- **C08, check on numbers.** A check fires iff the value read differs from the expected one
(NaN differs from everything, even itself). -/
theorem check_fires (x v : XVal K) (e : EventId) :
    (InTest.check x e).eval v = some e ↔ (v ≠ x ∨ v = .nan) := by
  cases x <;> cases v <;> simp [InTest.eval, CppVal.eq, XVal.eq]

/-- Case: expected 3, read 4, 3 and NaN. -/
example : (InTest.check (.fin 3 : XVal Int) 8).eval (.fin 4) = some 8 ∧ (InTest.check (.fin 3 : XVal Int) 8).eval (.fin 3) = none ∧
    (InTest.check (.fin 3 : XVal Int) 8).eval .nan = some 8 := ⟨rfl, rfl, rfl⟩

/-- **C08, range check (partial).** For real limits a range check fires iff the value is outside `[min,max]`; infinities are outside, but NaN does *not*
fire (`range_nan_silent`). -/
theorem range_fires_partial (lo hi : K) (v : XVal K) (e : EventId) (hv : v ≠ .nan) :
    (InTest.range (.fin lo) (.fin hi) e false).eval v = some e ↔
      ¬ ∃ q, v = .fin q ∧ lo ≤ q ∧ q ≤ hi := by
  cases v with
  | fin q =>
    simp only [InTest.eval, CppVal.lt, XVal.lt]
    simp
  | pinf => simp [InTest.eval, CppVal.lt, XVal.lt]
  | ninf => simp [InTest.eval, CppVal.lt, XVal.lt]
  | nan => simp at hv

/-- Case: limits 2 and 5; 1 and plus infinity fire, both limits do not. -/
example : (InTest.range (.fin 2) (.fin 5 : XVal Int) 8 false).eval (.fin 1) = some 8 ∧
    (InTest.range (.fin 2) (.fin 5 : XVal Int) 8 false).eval (.fin 2) ≠ some 8 ∧
    (InTest.range (.fin 2) (.fin 5 : XVal Int) 8 false).eval (.fin 5) ≠ some 8 :=
  ⟨(range_fires_partial (2 : Int) 5 (.fin 1) 8 (by simp)).2 (by rintro ⟨q, h, h1, -⟩; cases h; exact absurd h1 (by decide)),
    fun h => (range_fires_partial (2 : Int) 5 (.fin 2) 8 (by simp)).1 h ⟨2, rfl, by decide, by decide⟩,
    fun h => (range_fires_partial (2 : Int) 5 (.fin 5) 8 (by simp)).1 h ⟨5, rfl, by decide, by decide⟩⟩

/-- **C08, off-range check.** Fires iff the value lies strictly inside. -/
theorem off_range_fires (lo hi : K) (v : XVal K) (e : EventId) :
    (InTest.range (.fin lo) (.fin hi) e true).eval v = some e ↔
      ∃ q, v = .fin q ∧ lo < q ∧ q < hi := by
  cases v <;> simp [InTest.eval, CppVal.lt, XVal.lt]

/-- Case: limits 2 and 5; 3 fires, the limits and infinity do not. -/
example : (InTest.range (.fin 2) (.fin 5 : XVal Int) 8 true).eval (.fin 3) = some 8 ∧
    (InTest.range (.fin 2) (.fin 5 : XVal Int) 8 true).eval (.fin 2) = none ∧
    (InTest.range (.fin 2) (.fin 5 : XVal Int) 8 true).eval .pinf = none := ⟨rfl, rfl, rfl⟩

/-- C08 for NaN is false: a NaN input never violates a range check, for any limits. -/
theorem range_nan_silent (lo hi : XVal K) (e : EventId) (off : Bool) :
    (InTest.range lo hi e off).eval (.nan : XVal K) = none := by
  cases off <;> cases lo <;> cases hi <;> simp [InTest.eval, CppVal.lt, XVal.lt]

end

/-- **C08, check on digital inputs.** -/
theorem check_fires_bool (x v : Bool) (e : EventId) :
    (InTest.check x e).eval v = some e ↔ v ≠ x := by
  cases x <;> cases v <;> simp [InTest.eval, CppVal.eq]

/-- Case: expected true. -/
example : (InTest.check true 8).eval false = some 8 ∧ (InTest.check true 8).eval true = none := ⟨rfl, rfl⟩

/-- The values written by `n` successive executions of an output action. -/
def writes [CppVal V] : Nat → OutKind V → List (Option V)
  | 0, _ => []
  | n+1, k => k.step.1 :: writes n k.step.2

/-- **C08, leave / set.** -/
theorem leave_never_writes [CppVal V] (n : Nat) :
    writes n (OutKind.leave : OutKind V) = List.replicate n none := by
  induction n with
  | zero => rfl
  | succ n ih => simp [writes, OutKind.step, ih, List.replicate_succ]

theorem set_always_writes [CppVal V] (n : Nat) (v : V) :
    writes n (OutKind.set v) = List.replicate n (some v) := by
  induction n with
  | zero => rfl
  | succ n ih => simp [writes, OutKind.step, ih, List.replicate_succ]

/-- **C08, toggle.** The `i`-th execution writes `low` for even and `high` for odd `i`, provided `low` equals itself (is not NaN)
and equality on the value type is genuine. -/
theorem toggle_alternates [CppVal V] (heq : ∀ a b : V, CppVal.eq a b = true → a = b)
    (low high : V) (hlow : CppVal.eq low low = true) (n i : Nat) (hi : i < n) :
    (writes n (OutKind.newToggle low high))[i]? = some (some (if i % 2 = 0 then low else high)) := by
  suffices H : ∀ n i, i < n →
      (writes n (OutKind.toggle low low high))[i]? = some (some (if i % 2 = 0 then low else high)) ∧
      (writes n (OutKind.toggle high low high))[i]? = some (some (if i % 2 = 0 then high else low)) from
    (H n i hi).1
  intro n
  induction n with
  | zero => intro i h; omega
  | succ n ih =>
    intro i h
    cases i with
    | zero => simp [writes, OutKind.step]
    | succ i =>
      have := ih i (by omega)
      have e1 : (i + 1) % 2 = 0 ↔ ¬ i % 2 = 0 := by omega
      simp only [writes, OutKind.step, hlow, if_true, List.getElem?_cons_succ]
      refine ⟨?_, ?_⟩
      · rw [this.2]; by_cases hh : i % 2 = 0 <;> simp [e1, hh]
      · by_cases hc : CppVal.eq high low = true
        · have := heq _ _ hc
          subst this
          rw [if_pos hc, this.2]
          simp
        · rw [if_neg hc, this.1]; by_cases hh : i % 2 = 0 <;> simp [e1, hh]

/-- The side conditions hold for digital outputs and for non-NaN numbers. -/
example : (∀ a b : Bool, CppVal.eq a b = true → a = b) ∧ CppVal.eq false false = true := by decide
theorem XVal.eq_genuine {K : Type} [LinearOrder K] (a b : XVal K) (h : CppVal.eq a b = true) : a = b := by
  cases a <;> cases b <;> simp_all [CppVal.eq, XVal.eq]
example : writes 3 (OutKind.newToggle false true) = [some false, some true, some false] := rfl

/-- A toggle configured with NaN as low value never toggles. -/
theorem toggle_nan_stuck {K : Type} [LinearOrder K] (high : XVal K) (n : Nat) :
    writes n (OutKind.newToggle (.nan : XVal K) high) = List.replicate n (some .nan) := by
  induction n with
  | zero => rfl
  | succ n ih =>
    simp only [writes, OutKind.newToggle, OutKind.step, CppVal.eq, XVal.eq] at ih ⊢
    simp [List.replicate_succ, ih]

/-! ### C61: activation counter -/

/-- **C61.** In any state in which the level is settled, `n` runs without any event triggered execute the same level and increase its activation
counter by exactly `n`. -/
theorem quiet_runs_count [CppVal V] (p : Properties V) (l : LevelRef) (envs : List (Env V)) (s : Sys)
    (hs : s.cur = some l ∧ s.next = some l)
    (hquiet : ∀ env ∈ envs, env.act = [] ∧ (∀ i, env.beforeIn i = []) ∧ (∀ i, env.beforeOut i = []) ∧
      ∀ ia ∈ (p.lvl l).inputAction, ∀ a, ia = some a → ∀ i, a.test.eval (env.read i) = none) :
    ∃ s' tr, exec p s (envs.map Op.run) = .ok (s', tr) ∧ s'.cur = some l ∧ s'.next = some l ∧
      s'.nofAct l = s.nofAct l + envs.length := by
  have hin : ∀ (env : Env V), (∀ i, env.beforeIn i = []) → ∀ (lst : List (Option (InAct V))),
      (∀ ia ∈ lst, ∀ a, ia = some a → ∀ i, a.test.eval (env.read i) = none) →
      ∀ (i : Nat) (s : Sys), ∃ o, runInputs p env l i lst s = .ok (s, o) := by
    intro env hb lst
    induction lst with
    | nil => intro _ i s; exact ⟨[], by simp [runInputs, hb, pubTrigs, triggers]⟩
    | cons a lst ih =>
      intro hq i s
      obtain ⟨o, ho⟩ := ih (fun ia hia => hq ia (by simp [hia])) (i+1) s
      cases a with
      | none =>
        exact ⟨o, by simp [runInputs, hb, pubTrigs, triggers, ho, bind, Except.bind, Pure.pure, Except.pure]⟩
      | some ia =>
        have := hq (some ia) (by simp) ia rfl i
        exact ⟨.checked l i ia.input :: o, by simp [runInputs, hb, pubTrigs, triggers, ho, this, ownTrig, bind, Except.bind, Pure.pure, Except.pure]⟩
  have hout : ∀ (env : Env V), (∀ i, env.beforeOut i = []) → ∀ (lst : List (Option OutputRef)),
      ∀ (i : Nat) (s : Sys), ∃ o, runOutputs p env l i lst s = .ok (s, o) := by
    intro env hb lst
    induction lst with
    | nil => intro i s; exact ⟨[], by simp [runOutputs, hb, pubTrigs, triggers]⟩
    | cons a lst ih =>
      intro i s
      obtain ⟨o, ho⟩ := ih (i+1) s
      rcases a with _ | out
      · exact ⟨o, by simp [runOutputs, hb, pubTrigs, triggers, ho, bind, Except.bind, Pure.pure, Except.pure]⟩
      · exact ⟨.set l i out :: o, by simp [runOutputs, hb, pubTrigs, triggers, ho, bind, Except.bind, Pure.pure, Except.pure]⟩
  induction envs generalizing s with
  | nil => exact ⟨s, [], rfl, hs.1, hs.2, by simp⟩
  | cons env envs ih =>
    obtain ⟨q1, q2, q3, q4⟩ := hquiet env (by simp)
    obtain ⟨o1, h1⟩ := hin env q2 _ q4 0 (Sys.setAct { s with cur := some l } l (s.nofAct l + 1))
    have h2 : ∃ o2, runAction p env l (Sys.setAct { s with cur := some l } l (s.nofAct l + 1)) =
        .ok (Sys.setAct { s with cur := some l } l (s.nofAct l + 1), o2) := by
      unfold runAction
      split
      · exact ⟨[.action l], by simp [q1, triggers, bind, Except.bind, Pure.pure, Except.pure]⟩
      · exact ⟨_, rfl⟩
    obtain ⟨o2, h2⟩ := h2
    obtain ⟨o3, h3⟩ := hout env q3 (p.lvl l).outputAction 0
      (Sys.setAct { s with cur := some l } l (s.nofAct l + 1))
    have hrun : ∃ o, run p env s =
        .ok (Sys.setAct { s with cur := some l } l (s.nofAct l + 1), o) := by
      refine ⟨[.level l] ++ o1 ++ o2 ++ o3 ++ [.level l], ?_⟩
      unfold run
      simp only [hs.2] at h1 h2 h3
      simp only [takeNext, hs.2]
      rw [h1]; simp only [bind, Except.bind, Pure.pure, Except.pure]
      rw [h2]; simp only
      rw [h3]; simp [Sys.setAct]
    obtain ⟨o, hrun⟩ := hrun
    obtain ⟨s', tr, hx, hc, hn, ha⟩ := ih (Sys.setAct { s with cur := some l } l (s.nofAct l + 1))
      ⟨rfl, by simpa [Sys.setAct] using hs.2⟩ (fun env he => hquiet env (by simp [he]))
    refine ⟨s', o ++ tr, ?_, hc, hn, ?_⟩
    · simp [exec, step, hrun, hx, bind, Except.bind, Pure.pure, Except.pure]
    · rw [ha]; simp [Sys.setAct]; omega

/-- Case: two quiet runs of level 2 of the demo (its input reads the expected value, its action triggers nothing). -/
example : ∃ s' tr, exec demo' ⟨some 2, some 2, fun _ => 5⟩ ([{ demoEnv true with act := [] }, { demoEnv true with act := [] }].map Op.run) =
    .ok (s', tr) ∧ s'.cur = some 2 ∧ s'.next = some 2 ∧ s'.nofAct 2 = 7 := by
  refine quiet_runs_count demo' 2 _ ⟨some 2, some 2, fun _ => 5⟩ ⟨rfl, rfl⟩ ?_
  intro env henv
  have : env = { demoEnv true with act := [] } := by simpa using henv
  subst this
  refine ⟨rfl, fun _ => rfl, fun _ => rfl, ?_⟩
  intro ia hia a ha i
  have h' : ia ∈ [some (⟨50, .check true 8⟩ : InAct Bool)] := hia
  simp at h'
  subst h'
  cases ha
  rfl

/-- **C61, entering.** An event that is accepted resets the counter of the level it leads to. -/
theorem accepted_event_resets (p : Properties V) (s s' : Sys) (e : EventId) (priv : Bool)
    (h : trigger p s e priv = .ok s') (hne : s'.next ≠ s.next) :
    ∃ n, s'.next = some n ∧ s'.nofAct n = 0 := by
  unfold trigger at h
  split at h
  · simp at h
  · split at h
    · simp at h; subst h; simp at hne
    · split at h
      · simp at h; subst h; exact ⟨_, rfl, by simp [Sys.setAct]⟩
      · split at h
        · simp at h
        · split at h
          · simp at h; subst h; exact ⟨_, rfl, by simp [Sys.setAct]⟩
          · simp at h; subst h; simp at hne

/-- Case: event 7 in level 2. -/
example : ∃ s', trigger demo' ⟨some 2, some 2, fun _ => 5⟩ 7 false = .ok s' ∧ s'.next ≠ some 2 ∧
    ∃ n, s'.next = some n ∧ s'.nofAct n = 0 :=
  ⟨_, rfl, by decide, accepted_event_resets demo' ⟨some 2, some 2, fun _ => 5⟩ _ 7 false rfl (by decide)⟩

/-- Non-vacuity: event 7 leads to level 1, whose counter is then the number of runs. -/
example : ∃ s0 s tr, construct demo' (fun _ => 33) = .ok s0 ∧
    exec demo' s0 [.trigger 7, .run (demoEnv true), .run (demoEnv true), .run (demoEnv true)] = .ok (s, tr) ∧
    s.cur = some 1 ∧ s.nofAct 1 = 3 :=
  ⟨_, _, _, rfl, rfl, rfl, rfl⟩

end Verif.Safety
