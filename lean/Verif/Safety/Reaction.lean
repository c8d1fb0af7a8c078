import Verif.Safety.Props
import Verif.Safety.Priority
import Verif.Control.TimeDomainProps
import Verif.Control.PeripheralOutput
/-!
The way from a fault of a block to the outputs of the safety system, over the models of the time domain (`Verif.Control.TimeDomain`) and of the safety system (`Verif.Safety.Model`): the
executor runs the safety system as its main task (src/core/Executor.cpp:366-369), each time domain runs in its own thread (src/core/Executor.cpp:93-94).  A time domain in which a
block throws triggers its event (src/control/TimeDomain.cpp:29-38), without the private context.  Simplified: the events arrive between two runs of the safety system (for events during a run
see C03 and C07).
-/
namespace Verif.Safety.Reaction

open Verif.Control
open Verif.Control.TimeDomain (Outcome)

variable {V : Type}

/-- The events triggered by runs of time domains (of any of them, any number of times, in the order of the events), each with what its blocks do; `none`: an exception leaves the function of a thread
(src/task/Async.cpp:60-64), which ends the program. -/
def domainEvents : List (TimeDomain.St × (Nat → Outcome)) → Option (List EventId)
  | [] => some []
  | (d, out) :: rest =>
    if (TimeDomain.run d out).ending = .returned then (domainEvents rest).map (fun es => (TimeDomain.run d out).events ++ es) else none

/-- From one run of the safety system to the next: the runs of time domains which end in this time, then the run of the safety system. -/
def cycle [CppVal V] (p : Properties V) (s : Sys) (tds : List (TimeDomain.St × (Nat → Outcome))) (env : Env V) : Option (Except Err (Sys × List Obs)) :=
  (domainEvents tds).map (fun es => exec p s (es.map (Op.trigger (V := V)) ++ [.run env]))

/-- In this run a block of the time domain throws a not-connected or NaN-output fault. -/
def Faulty (d : TimeDomain.St) (out : Nat → Outcome) : Prop :=
  d.running = true ∧ ∃ k, k < d.blocks.length ∧ (∀ j, j < k → out j = .ok) ∧ (out k = .notConnected ∨ out k = .nanOutput)

theorem faulty_run {d : TimeDomain.St} {out : Nat → Outcome} {e : EventId} (h : Faulty d out) (he : d.event = some e) :
    (TimeDomain.run d out).events = [e] ∧ (TimeDomain.run d out).ending = .returned := by
  obtain ⟨hr, k, hk, hok, hf⟩ := h
  have := TimeDomain.first_fault d out hr k hk hok (by rcases hf with h | h <;> rw [h] <;> simp)
  rw [this]
  rcases hf with h | h <;> simp [h, he]

theorem mem_domainEvents {tds : List (TimeDomain.St × (Nat → Outcome))} {es : List EventId} (h : domainEvents tds = some es) {d : TimeDomain.St}
    {out : Nat → Outcome} (hm : (d, out) ∈ tds) {e : EventId} (he : e ∈ (TimeDomain.run d out).events) : e ∈ es := by
  induction tds generalizing es with
  | nil => simp at hm
  | cons x tds ih =>
    obtain ⟨d', out'⟩ := x
    simp only [domainEvents] at h
    by_cases hr : (TimeDomain.run d' out').ending = .returned
    · rw [if_pos hr] at h
      cases hx : domainEvents tds with
      | none => rw [hx] at h; simp at h
      | some es' =>
        rw [hx] at h
        simp only [Option.map_some, Option.some.injEq] at h
        subst h
        rcases List.mem_cons.1 hm with heq | hm
        · cases heq; exact List.mem_append_left _ he
        · exact List.mem_append_right _ (ih hx hm)
    · rw [if_neg hr] at h; simp at h

/-- A time domain with a registered event never ends the program by these faults. -/
theorem domains_return (tds : List (TimeDomain.St × (Nat → Outcome))) (h : ∀ x ∈ tds, x.1.event ≠ none ∧ ∀ k, x.2 k ≠ .other) : ∃ es, domainEvents tds = some es := by
  induction tds with
  | nil => exact ⟨[], rfl⟩
  | cons x tds ih =>
    obtain ⟨es, hes⟩ := ih (fun y hy => h y (List.mem_cons_of_mem _ hy))
    obtain ⟨d, out⟩ := x
    obtain ⟨he, ho⟩ := h (d, out) (by simp)
    have hr : (TimeDomain.run d out).ending = .returned := by
      unfold TimeDomain.run
      split
      · rfl
      · rcases TimeDomain.loop_spec out 0 d.blocks with ⟨-, h2⟩ | ⟨k, hk, -, h2, h3⟩
        · simp [h2]
        · rw [h3]
          cases hev : d.event with
          | none => exact absurd hev he
          | some e =>
            have := ho (0 + k)
            cases hk : out (0 + k) <;> simp_all
    exact ⟨_, by simp only [domainEvents]; rw [if_pos hr, hes]; rfl⟩

theorem pick_le {p : Properties V} {c n : LevelRef} {t : Trig} {k : Int} (hn : (p.lvl n).id ≤ k) (hk : k < (p.lvl c).id) : (p.lvl (pick p c n t)).id ≤ k := by
  unfold pick
  split
  · exact hn
  · have hne : n ≠ c := by rintro rfl; omega
    rw [if_neg hne]
    split
    · omega
    · exact hn

theorem foldl_pick_le {p : Properties V} {c : LevelRef} {k : Int} (hk : k < (p.lvl c).id) (ts : List Trig) :
    ∀ n, (p.lvl n).id ≤ k → (p.lvl (ts.foldl (pick p c) n)).id ≤ k := by
  induction ts with
  | nil => intro n h; exact h
  | cons t ts ih => intro n h; exact ih _ (pick_le h hk)

theorem foldl_pick_mem {p : Properties V} {c d : LevelRef} {t : Trig} (hr : Registered p c t d) (hk : (p.lvl d).id < (p.lvl c).id) (ts : List Trig) :
    ∀ n, t ∈ ts → (p.lvl (ts.foldl (pick p c) n)).id ≤ (p.lvl d).id := by
  induction ts with
  | nil => intro n h; simp at h
  | cons a ts ih =>
    intro n h
    by_cases ha : t ∈ ts
    · exact ih _ ha
    · have : a = t := by rcases List.mem_cons.1 h with h | h <;> simp_all
      subst this
      refine foldl_pick_le hk ts _ ?_
      rw [pick_some hr]
      split
      · exact Int.le_refl _
      · split <;> omega

theorem exec_append [CppVal V] (p : Properties V) (s : Sys) (l m : List (Op V)) :
    exec p s (l ++ m) = (do let (s', o) ← exec p s l; let (s'', o') ← exec p s' m; return (s'', o ++ o')) := by
  induction l generalizing s with
  | nil => simp only [List.nil_append, exec, bind, Except.bind, Pure.pure, Except.pure]; split <;> simp_all
  | cons op l ih =>
    simp only [List.cons_append, exec, ih, bind, Except.bind, Pure.pure, Except.pure]
    cases step p s op with
    | error e => rfl
    | ok x =>
      simp only
      cases exec p x.1 l with
      | error e => rfl
      | ok y =>
        simp only
        cases exec p y.1 m with
        | error e => rfl
        | ok z => simp

/-- Triggering events one after the other. -/
theorem exec_triggers [CppVal V] {p : Properties V} (es : List EventId) {s : Sys} {c : LevelRef} {pend : List Trig} (h : Inv p s c pend) :
    ∃ s', exec p s (es.map (Op.trigger (V := V))) = .ok (s', (pubTrigs es).map Obs.trig) ∧ Inv p s' c (pend ++ pubTrigs es) := by
  induction es generalizing s pend with
  | nil => exact ⟨s, rfl, by simpa [pubTrigs] using h⟩
  | cons e es ih =>
    obtain ⟨s1, h1, hi1⟩ := trigger_sat h ⟨e, false⟩
    obtain ⟨s2, h2, hi2⟩ := ih hi1
    refine ⟨s2, ?_, by simpa [pubTrigs] using hi2⟩
    simp only [List.map_cons, exec, step, triggers, bind, Except.bind, Pure.pure, Except.pure, h1, h2]
    simp [pubTrigs]

/-- After any history: if among the events triggered until the next run of the safety system is one which leads from the current level `c` publicly to a lower level `d`, then in this run,
before any of its actions is executed, a level `l` not above `d` becomes the current level; all its output actions and no others are executed, and with them every critical output is set. -/
theorem events_reaction [CppVal V] (p : Properties V) (acts : LevelRef → Nat) (s0 s : Sys) (h : construct p acts = .ok s0) (hcl : Closed p) (ops : List (Op V)) (tr : List Obs)
    (hx : exec p s0 ops = .ok (s, tr)) (c : LevelRef) (hc : s.cur = some c) (es : List EventId)
    (e : EventId) (hees : e ∈ es) (d : LevelRef) (hr : Registered p c ⟨e, false⟩ d) (hd : (p.lvl d).id < (p.lvl c).id) (env : Env V) :
    ∃ (s1 s' : Sys) (l : LevelRef) (mid : List Obs) (m : LevelRef), exec p s (es.map (Op.trigger (V := V))) = .ok (s1, (pubTrigs es).map Obs.trig) ∧
      exec p s1 [.run env] = .ok (s', .level l :: (mid ++ [.level m])) ∧ (p.lvl l).id ≤ (p.lvl d).id ∧
      mid.filter Obs.isExec = expectedCycle p l ∧ ∀ o ∈ p.criticalOutputs, ∃ i, Obs.set l i o ∈ mid := by
  obtain ⟨e0, he0, hv, hi⟩ := construct_inv h
  obtain ⟨s1, tr1, hx', hl, hi'⟩ := exec_sat ops hi
  rw [hx] at hx'
  simp only [Except.ok.injEq, Prod.mk.injEq] at hx'
  obtain ⟨rfl, rfl⟩ := hx'
  generalize hpend : (after e0 [] tr).2 = pend at hi'
  have hcc : (after e0 [] tr).1 = c := by
    have := hi'.1.symm.trans hc
    simpa using this
  rw [hcc] at hi'
  have hcm : c ∈ p.levels := hcc ▸ after_mem_levels hcl (hcl.1 e0 he0) hl
  obtain ⟨s2, h2, hi2⟩ := exec_triggers (V := V) es hi'
  obtain ⟨s', mid, l, m, hn, hc', -, hrun, hl1, -, -, hex, hlev⟩ := run_shape env hi2
  refine ⟨s2, s', l, mid, m, h2, ?_, ?_, hex, ?_⟩
  · simp only [bind, Except.bind, exec, step, hrun, Pure.pure, Except.pure, List.append_nil]
  · rw [hl1, List.foldl_append]
    exact foldl_pick_mem hr hd _ _ (List.mem_map_of_mem hees)
  · intro o ho
    have hmem : l ∈ p.levels := by
      rcases foldl_pick_registered p c (pend ++ pubTrigs es) c with hk | ⟨t, _, ty, hft, _⟩
      · rw [hl1, hk]; exact hcm
      · rw [hl1]; exact hcl.2 _ hcm _ _ _ hft
    obtain ⟨hvo, -⟩ := verifyLevels_spec hv l hmem
    obtain ⟨i, hmi⟩ := eraseHandled_spec _ _ hvo o ho
    refine ⟨i, ?_⟩
    have : Obs.set l i o ∈ expectedCycle p l := by
      unfold expectedCycle
      simp only [List.mem_append, List.mem_map]
      exact Or.inr ⟨(i, o), hmi, rfl⟩
    rw [← hex] at this
    exact (List.mem_filter.1 this).1

/-- C142.  After any history: if a block of a time domain throws a fault, and the event of the time domain leads from the current level `c` publicly
to a lower level `d`, then in the next run of the safety system, before any of its actions is executed, a level `l` not above `d` becomes the current level; all its output actions and
no others are executed, and with them every critical output is set.  Further runs of this and other time domains and events pending before do not matter. -/
theorem fault_reaction [CppVal V] (p : Properties V) (acts : LevelRef → Nat) (s0 s : Sys) (h : construct p acts = .ok s0) (hcl : Closed p) (ops : List (Op V)) (tr : List Obs)
    (hx : exec p s0 ops = .ok (s, tr)) (c : LevelRef) (hc : s.cur = some c) (tds : List (TimeDomain.St × (Nat → Outcome)))
    (htd : ∀ x ∈ tds, x.1.event ≠ none ∧ ∀ k, x.2 k ≠ .other) (td : TimeDomain.St) (out : Nat → Outcome) (hm : (td, out) ∈ tds) (hf : Faulty td out)
    (e : EventId) (he : td.event = some e) (d : LevelRef) (hr : Registered p c ⟨e, false⟩ d) (hd : (p.lvl d).id < (p.lvl c).id) (env : Env V) :
    ∃ (s' : Sys) (es : List Trig) (l : LevelRef) (mid : List Obs) (m : LevelRef), cycle p s tds env = some (.ok (s', es.map Obs.trig ++ .level l :: (mid ++ [.level m]))) ∧ (p.lvl l).id ≤ (p.lvl d).id ∧
      mid.filter Obs.isExec = expectedCycle p l ∧ ∀ o ∈ p.criticalOutputs, ∃ i, Obs.set l i o ∈ mid := by
  obtain ⟨es, hes⟩ := domains_return tds htd
  obtain ⟨hev, -⟩ := faulty_run hf he
  have hees : e ∈ es := mem_domainEvents hes hm (by rw [hev]; simp)
  obtain ⟨s1, s', l, mid, m, h1, h2, hl, hex, hcr⟩ := events_reaction p acts s0 s h hcl ops tr hx c hc es e hees d hr hd env
  refine ⟨s', pubTrigs es, l, mid, m, ?_, hl, hex, hcr⟩
  unfold cycle
  rw [hes]
  simp only [Option.map_some, exec_append, h1, bind, Except.bind, h2, Pure.pure, Except.pure]

/-- The outcomes of a time domain whose blocks are peripheral outputs with these inputs. -/
def outcomes {K : Type} (blocks : List (PeripheralOutput.St K × Option (XVal K))) (k : Nat) : Outcome :=
  match blocks[k]? with
  | some (b, i) => (PeripheralOutput.run b i).2
  | none => .ok

/-- A peripheral output which gets NaN or infinity, or nothing, makes its time domain faulty. -/
theorem bad_value_faulty {K : Type} (td : TimeDomain.St) (hr : td.running = true) (blocks : List (PeripheralOutput.St K × Option (XVal K)))
    (hlen : blocks.length = td.blocks.length) (hb : ∃ x ∈ blocks, ∀ v, x.2 = some v → PeripheralOutput.bad v = true) : Faulty td (outcomes blocks) := by
  have key : ∀ n, (∀ j, j < n → outcomes blocks j = .ok) ∨ ∃ k, k < n ∧ (∀ j, j < k → outcomes blocks j = .ok) ∧ outcomes blocks k ≠ .ok := by
    intro n
    induction n with
    | zero => left; intro j hj; omega
    | succ n ih =>
      rcases ih with h | ⟨k, hk, h⟩
      · by_cases hn : outcomes blocks n = .ok
        · left
          intro j hj
          rcases Nat.lt_succ_iff_lt_or_eq.1 hj with hj | rfl
          · exact h j hj
          · exact hn
        · exact Or.inr ⟨n, by omega, h, hn⟩
      · exact Or.inr ⟨k, by omega, h⟩
  have hne : ∀ k, outcomes blocks k ≠ .ok → outcomes blocks k = .notConnected ∨ outcomes blocks k = .nanOutput := by
    intro k hk
    unfold outcomes at hk ⊢
    split at hk
    · rename_i b i hbi
      cases i with
      | none => left; rfl
      | some v =>
        right
        simp only [PeripheralOutput.run] at hk ⊢
        split <;> simp_all
    · exact absurd rfl hk
  rcases key td.blocks.length with h | ⟨k, hk, hok, hf⟩
  · exfalso
    obtain ⟨x, hx, hbad⟩ := hb
    obtain ⟨k, hk, hxk⟩ := List.mem_iff_getElem.1 hx
    have := h k (by omega)
    unfold outcomes at this
    rw [List.getElem?_eq_getElem hk, hxk] at this
    obtain ⟨b, i⟩ := x
    cases i with
    | none => simp [PeripheralOutput.run] at this
    | some v => simp [PeripheralOutput.run, hbad v rfl] at this
  · exact ⟨hr, k, hk, hok, hne k hf⟩

/-- Violated if the event is registered as a private one: the time domain has no private context, the fault has no effect on the safety system. -/
theorem private_event_violated [CppVal V] (p : Properties V) (s : Sys) (c d : LevelRef) (hc : s.cur = some c) (e : EventId)
    (hp : findTrans (p.lvl c).transitions e = some (d, .priv)) (td : TimeDomain.St) (out : Nat → Outcome) (hf : Faulty td out) (he : td.event = some e) :
    domainEvents [(td, out)] = some [e] ∧ exec p s [Op.trigger (V := V) e] = .ok (s, [.trig ⟨e, false⟩]) := by
  obtain ⟨h1, h2⟩ := faulty_run hf he
  constructor
  · simp [domainEvents, h1, h2]
  · have ht : trigger p s e false = .ok s := by
      unfold trigger
      simp [hc, Level.dest, hp]
    simp [exec, step, triggers, ht, bind, Except.bind, Pure.pure, Except.pure]

/-- Violated without a registered event: the fault leaves the thread of the time domain and ends the program, the safety system is not run any more. -/
theorem no_event_violated [CppVal V] (p : Properties V) (s : Sys) (td : TimeDomain.St) (out : Nat → Outcome) (hf : Faulty td out) (he : td.event = none)
    (rest : List (TimeDomain.St × (Nat → Outcome))) (env : Env V) : cycle p s ((td, out) :: rest) env = none := by
  obtain ⟨hr, k, hk, hok, hfk⟩ := hf
  have := TimeDomain.first_fault td out hr k hk hok (by rcases hfk with h | h <;> rw [h] <;> simp)
  have hend : (TimeDomain.run td out).ending = .fault := by
    rw [this]
    rcases hfk with h | h <;> simp [h, he]
  simp [cycle, domainEvents, hend]

/-- Case of `fault_reaction`: level 2, a time domain of three blocks whose second one gets NaN, event 7 leads to level 1, which sets output 40. -/
example : Registered demo' 2 ⟨7, false⟩ 1 ∧ (demo'.lvl 1).id < (demo'.lvl 2).id ∧
    Faulty { blocks := [11, 12, 13], event := some 7 } (outcomes [((⟨.fin 0, .fin 0, []⟩ : PeripheralOutput.St Int), some (.fin 3)), (⟨.fin 0, .fin 0, []⟩, some .nan), (⟨.fin 0, .fin 0, []⟩, none)]) ∧
    ∃ s0 s' tr, construct demo' (fun _ => 0) = .ok s0 ∧ s0.cur = some 2 ∧
      cycle demo' s0 [({ blocks := [11, 12, 13], event := some 7 }, fun k => if k = 1 then .nanOutput else .ok)] (demoEnv true) = some (.ok (s', tr)) ∧
      tr.filter Obs.isExec = [.checked 1 0 50, .set 1 0 40] ∧ s'.cur = some 1 := by
  refine ⟨⟨.pub, by decide, Or.inl rfl⟩, by decide, ?_, ?_⟩
  · exact bad_value_faulty _ rfl _ rfl ⟨_, List.mem_cons_of_mem _ (List.mem_cons_self ..), by rintro v h; cases h; rfl⟩
  · exact ⟨_, _, _, rfl, rfl, rfl, rfl, rfl⟩

/-- Case of `private_event_violated`. -/
example : findTrans (demo'.lvl 2).transitions 8 = some (0, .priv) := by decide

/-- Case of `no_event_violated`. -/
example : Faulty { blocks := [11] } (fun _ => .nanOutput) := ⟨rfl, 0, by decide, by intro j hj; omega, Or.inr rfl⟩

end Verif.Safety.Reaction
