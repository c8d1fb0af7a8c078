import Verif.Safety.Reaction
/-!
C01, C04, C269: which safety levels can be reached, and when critical outputs and inputs are handled in all of them.
Model: `Safety/Model.lean` (`src/safety/SafetySystem.cpp`, `src/safety/SafetyProperties.cpp`).
-/
namespace Verif.Safety
variable {V : Type}

/-- Specification: the levels reached from `a` along registered transitions.  A private transition is one which only the safety system itself may
trigger. -/
inductive Reaches (p : Properties V) (a : LevelRef) : LevelRef → Prop
  | refl : Reaches p a a
  | step {b c : LevelRef} {t : Trig} : Reaches p a b → Registered p b t c → Reaches p a c

/-- Specification: an action on every critical output and a check of every critical input is listed in level `l`. -/
def ListsCritical (p : Properties V) (l : LevelRef) : Prop :=
  (∀ out ∈ p.criticalOutputs, some out ∈ (p.lvl l).outputAction) ∧
    ∀ inp ∈ p.criticalInputs, ∃ ia, some ia ∈ (p.lvl l).inputAction ∧ ia.input = inp

/-- Specification: every input check of level `l` can pass. -/
def CanRest [CppVal V] (p : Properties V) (l : LevelRef) : Prop :=
  ∀ ia, some ia ∈ (p.lvl l).inputAction → ∃ v, ia.test.eval v = none

/-- Specification: the private transitions of level `l` can be used by its level action. -/
def PrivateUsable (p : Properties V) (l : LevelRef) : Prop :=
  ∀ e d, findTrans (p.lvl l).transitions e = some (d, .priv) → (p.lvl l).hasAction = true

theorem mem_indexed {α : Type} (a : α) (xs : List (Option α)) (k : Nat) : (∃ i, (i, a) ∈ indexed k xs) ↔ some a ∈ xs := by
  induction xs generalizing k with
  | nil => simp [indexed]
  | cons x xs ih =>
    cases x with
    | none => simp [indexed, ih]
    | some b =>
      simp only [indexed, List.mem_cons, Prod.mk.injEq, Option.some.injEq, ← ih (k + 1)]
      constructor
      · rintro ⟨i, ⟨-, h⟩ | h⟩
        · exact .inl h
        · exact .inr ⟨i, h⟩
      · rintro (h | ⟨i, h⟩)
        · exact ⟨k, .inl ⟨rfl, h⟩⟩
        · exact ⟨i, .inr h⟩

/-- What a run of level `l` does with the outputs and inputs. -/
theorem run_handles [CppVal V] {p : Properties V} (env : Env V) {s : Sys} {c l : LevelRef} {pend : List Trig} (h : Inv p s c pend) (hl : s.next = some l) :
    ∃ s' tr', run p env s = .ok (s', tr') ∧ (∀ out, (∃ m i, Obs.set m i out ∈ tr') ↔ some out ∈ (p.lvl l).outputAction) ∧
      ∀ inp, (∃ m i, Obs.checked m i inp ∈ tr') ↔ ∃ ia, some ia ∈ (p.lvl l).inputAction ∧ ia.input = inp := by
  obtain ⟨s', mid, l', m, hn, -, -, hr, -, -, -, hex, -⟩ := run_shape env h
  obtain rfl : l' = l := by rw [hl] at hn; exact (Option.some.inj hn).symm
  have hm : ∀ x, Obs.isExec x = true → (x ∈ Obs.level l' :: (mid ++ [Obs.level m]) ↔ x ∈ expectedCycle p l') := by
    intro x hx
    rw [← hex, List.mem_filter]
    cases x <;> simp_all [Obs.isExec]
  refine ⟨s', _, hr, fun out => ?_, fun inp => ?_⟩
  · rw [← mem_indexed out _ 0]
    constructor
    · rintro ⟨a, i, h⟩
      rw [hm _ rfl] at h
      unfold expectedCycle at h
      simp only [List.mem_append, List.mem_map, reduceCtorEq, and_false, exists_false, false_or, Obs.set.injEq, Prod.exists] at h
      rcases h with h | ⟨j, o, hj, -, rfl, rfl⟩
      · split at h <;> simp at h
      · exact ⟨_, hj⟩
    · rintro ⟨i, hi⟩
      refine ⟨l', i, (hm _ rfl).2 ?_⟩
      unfold expectedCycle
      simp only [List.mem_append, List.mem_map]
      exact .inr ⟨(i, out), hi, rfl⟩
  · constructor
    · rintro ⟨a, i, h⟩
      rw [hm _ rfl] at h
      unfold expectedCycle at h
      simp only [List.mem_append, List.mem_map, reduceCtorEq, and_false, exists_false, or_false, Obs.checked.injEq, Prod.exists] at h
      rcases h with ⟨j, ia, hj, -, rfl, rfl⟩ | h
      · exact ⟨ia, (mem_indexed ia _ 0).1 ⟨_, hj⟩, rfl⟩
      · split at h <;> simp at h
    · rintro ⟨ia, hia, rfl⟩
      obtain ⟨i, hi⟩ := (mem_indexed ia _ 0).2 hia
      refine ⟨l', i, (hm _ rfl).2 ?_⟩
      unfold expectedCycle
      simp only [List.mem_append, List.mem_map]
      exact .inl (.inl ⟨(i, ia), hi, rfl⟩)

/-! ### Every level which is entered is reached along registered transitions -/

theorem after_reaches {p : Properties V} {a c : LevelRef} {pend : List Trig} {o : List Obs} (hc : Reaches p a c) (hl : Legal (exactRule p) c pend o) :
    Reaches p a (after c pend o).1 := by
  induction o generalizing c pend with
  | nil => exact hc
  | cons x o ih =>
    cases x with
    | level m =>
      simp only [Legal, after] at hl ⊢
      refine ih ?_ hl.2
      rcases exact_registered p _ _ _ hl.1 with rfl | ⟨t, _, ht⟩
      · exact hc
      · exact .step hc ht
    | _ => simp only [Legal, after] at hl ⊢; exact ih hc hl

theorem exec_reaches [CppVal V] {p : Properties V} {acts : LevelRef → Nat} {s0 s : Sys} (h : construct p acts = .ok s0) {ops : List (Op V)} {tr : List Obs}
    (hx : exec p s0 ops = .ok (s, tr)) : ∃ e c l pend, p.entryLevel = some e ∧ Inv p s c pend ∧ s.next = some l ∧ Reaches p e c ∧ Reaches p e l := by
  obtain ⟨e, he, -, hi⟩ := construct_inv h
  obtain ⟨s1, tr1, hx', hl, hi'⟩ := exec_sat ops hi
  rw [hx] at hx'
  simp only [Except.ok.injEq, Prod.mk.injEq] at hx'
  obtain ⟨rfl, rfl⟩ := hx'
  have hc := after_reaches (Reaches.refl (a := e)) hl
  refine ⟨e, _, _, _, he, hi', hi'.2, hc, ?_⟩
  rcases foldl_pick_registered p (after e [] tr).1 (after e [] tr).2 (after e [] tr).1 with hk | ⟨t, _, ht⟩
  · rw [hk]; exact hc
  · exact .step hc ht

/-! ### Every level reached along registered transitions can be entered -/

theorem inputs_rest [CppVal V] {p : Properties V} {env : Env V} {level : LevelRef} (hb : ∀ i, env.beforeIn i = []) (xs : List (Option (InAct V))) :
    ∀ (i : Nat) (s : Sys), (∀ (j : Nat) (ia : InAct V), xs[j]? = some (some ia) → ia.test.eval (env.read (i + j)) = none) →
      ∃ o, runInputs p env level i xs s = .ok (s, o) := by
  induction xs with
  | nil => intro i s _; exact ⟨[], by simp [runInputs, hb, pubTrigs, triggers]⟩
  | cons x xs ih =>
    intro i s h
    obtain ⟨o, ho⟩ := ih (i + 1) s (fun j ia hj => by
      have := h (j + 1) ia (by simpa using hj)
      rwa [show i + (j + 1) = i + 1 + j by omega] at this)
    cases x with
    | none => exact ⟨o, by simp [runInputs, hb, pubTrigs, triggers, ho, bind, Except.bind, Pure.pure, Except.pure]⟩
    | some ia =>
      have h0 := h 0 ia rfl
      rw [Nat.add_zero] at h0
      exact ⟨_, by simp [runInputs, hb, pubTrigs, triggers, ownTrig, h0, ho, bind, Except.bind, Pure.pure, Except.pure]; rfl⟩

theorem outputs_rest {p : Properties V} {env : Env V} {level : LevelRef} (hb : ∀ i, env.beforeOut i = []) (xs : List (Option OutputRef)) :
    ∀ (i : Nat) (s : Sys), ∃ o, runOutputs p env level i xs s = .ok (s, o) := by
  induction xs with
  | nil => intro i s; exact ⟨[], by simp [runOutputs, hb, pubTrigs, triggers]⟩
  | cons x xs ih =>
    intro i s
    obtain ⟨o, ho⟩ := ih (i + 1) s
    cases x with
    | none => exact ⟨o, by simp [runOutputs, hb, pubTrigs, triggers, ho, bind, Except.bind, Pure.pure, Except.pure]⟩
    | some out => exact ⟨_, by simp [runOutputs, hb, pubTrigs, triggers, ho, bind, Except.bind, Pure.pure, Except.pure]; rfl⟩

/-- An environment in which level `l` rests, while its level action triggers `ts`. -/
theorem rest_env [CppVal V] [Nonempty V] {p : Properties V} {l : LevelRef} (h : CanRest p l) (ts : List Trig) :
    ∃ env : Env V, env.act = ts ∧ (∀ i, env.beforeIn i = []) ∧ (∀ i, env.beforeOut i = []) ∧
      ∀ (j : Nat) (ia : InAct V), (p.lvl l).inputAction[j]? = some (some ia) → ia.test.eval (env.read j) = none := by
  have hr : ∀ j : Nat, ∃ v : V, ∀ ia : InAct V, (p.lvl l).inputAction[j]? = some (some ia) → ia.test.eval v = none := by
    intro j
    rcases hj : (p.lvl l).inputAction[j]? with _ | _ | ia
    · exact ⟨Classical.arbitrary V, by simp⟩
    · exact ⟨Classical.arbitrary V, by simp⟩
    · obtain ⟨v, hv⟩ := h ia (List.mem_of_getElem? hj)
      exact ⟨v, by intro ia' h'; simp only [Option.some.injEq] at h'; rw [← h']; exact hv⟩
  choose r hr using hr
  exact ⟨⟨r, ts, fun _ => [], fun _ => []⟩, rfl, fun _ => rfl, fun _ => rfl, hr⟩

theorem trigger_enters {p : Properties V} {s : Sys} {b c : LevelRef} {t : Trig} (hc : s.cur = some b) (hn : s.next = some b) (ht : Registered p b t c) :
    trigger p s t.event t.priv = .ok (Sys.setAct { s with next := some c } c 0) := by
  simp [trigger, hc, hn, dest_eq_some.2 ht]

/-- A run in which nothing is triggered keeps the level which was next. -/
theorem run_rests [CppVal V] [Nonempty V] {p : Properties V} {s : Sys} {b : LevelRef} (hn : s.next = some b) (h : CanRest p b) :
    ∃ env s' o, run p env s = .ok (s', o) ∧ s'.cur = some b ∧ s'.next = some b := by
  obtain ⟨env, ha, hi, ho, hr⟩ := rest_env h []
  generalize h1 : Sys.setAct { s with cur := some b } b (s.nofAct b + 1) = s1
  have hs1 : s1.next = some b := by rw [← h1]; simpa [Sys.setAct] using hn
  obtain ⟨o1, ho1⟩ := inputs_rest (p := p) (env := env) (level := b) hi (p.lvl b).inputAction 0 s1 (by simpa using hr)
  obtain ⟨o3, ho3⟩ := outputs_rest (p := p) (env := env) (level := b) ho (p.lvl b).outputAction 0 s1
  have h2 : ∃ o2, runAction p env b s1 = .ok (s1, o2) := by
    unfold runAction
    rw [ha]
    split <;> exact ⟨_, rfl⟩
  obtain ⟨o2, ho2⟩ := h2
  refine ⟨env, { s1 with cur := some b }, [.level b] ++ o1 ++ o2 ++ o3 ++ [.level b], ?_, rfl, hs1⟩
  unfold run
  simp only [takeNext, hn] at h1 ⊢
  rw [h1, ho1]; simp only [bind, Except.bind, Pure.pure, Except.pure]
  rw [ho2]; simp only
  rw [ho3]; simp only [hs1]

/-- A run whose level action uses one transition. -/
theorem run_moves [CppVal V] [Nonempty V] {p : Properties V} {s : Sys} {b c : LevelRef} {t : Trig} (hn : s.next = some b) (h : CanRest p b)
    (ht : Registered p b t c) (hact : (p.lvl b).hasAction = true) : ∃ env s' o, run p env s = .ok (s', o) ∧ s'.next = some c := by
  obtain ⟨env, ha, hi, ho, hr⟩ := rest_env h [t]
  generalize h1 : Sys.setAct { s with cur := some b } b (s.nofAct b + 1) = s1
  have hs1 : s1.next = some b := by rw [← h1]; simpa [Sys.setAct] using hn
  have hc1 : s1.cur = some b := by rw [← h1]; simp [Sys.setAct]
  obtain ⟨o1, ho1⟩ := inputs_rest (p := p) (env := env) (level := b) hi (p.lvl b).inputAction 0 s1 (by simpa using hr)
  generalize h2 : Sys.setAct { s1 with next := some c } c 0 = s2
  have hs2 : s2.next = some c := by rw [← h2]; simp [Sys.setAct]
  obtain ⟨o3, ho3⟩ := outputs_rest (p := p) (env := env) (level := b) ho (p.lvl b).outputAction 0 s2
  have ho2 : runAction p env b s1 = .ok (s2, [.action b, .trig t]) := by
    unfold runAction
    rw [ha, if_pos hact]
    simp [triggers, trigger_enters hc1 hs1 ht, h2, bind, Except.bind, Pure.pure, Except.pure]
  refine ⟨env, { s2 with cur := some c }, [.level b] ++ o1 ++ [.action b, .trig t] ++ o3 ++ [.level c], ?_, hs2⟩
  unfold run
  simp only [takeNext, hn] at h1 ⊢
  rw [h1, ho1]; simp only [bind, Except.bind, Pure.pure, Except.pure]
  rw [ho2]; simp only
  rw [ho3]; simp only [hs2]

theorem reached [CppVal V] [Nonempty V] {p : Properties V} {acts : LevelRef → Nat} {s0 : Sys} (h : construct p acts = .ok s0) (hrest : ∀ l, CanRest p l)
    (hpriv : ∀ l, PrivateUsable p l) {e l : LevelRef} (he : p.entryLevel = some e) (hl : Reaches p e l) :
    ∃ (ops : List (Op V)) (s : Sys) (tr : List Obs), exec p s0 ops = .ok (s, tr) ∧ s.next = some l := by
  induction hl with
  | refl =>
    obtain ⟨e', he', -, hi⟩ := construct_inv h
    rw [he] at he'
    obtain rfl := Option.some.inj he'
    exact ⟨[], s0, [], rfl, hi.2⟩
  | @step b c t hb ht ih =>
    obtain ⟨ops, s, tr, hx, hn⟩ := ih
    obtain ⟨ty, hf, hty⟩ := ht
    cases ty with
    | priv =>
      obtain ⟨env, s', o, hr, hn'⟩ := run_moves hn (hrest b) ⟨_, hf, hty⟩ (hpriv b _ _ hf)
      refine ⟨ops ++ [.run env], s', tr ++ o, ?_, hn'⟩
      rw [Reaction.exec_append, hx]
      simp [exec, step, hr, bind, Except.bind, Pure.pure, Except.pure]
    | pub =>
      obtain ⟨env, s', o, hr, hc', hn'⟩ := run_rests hn (hrest b)
      have htr := trigger_enters (t := ⟨t.event, false⟩) hc' hn' ⟨_, hf, .inl rfl⟩
      refine ⟨ops ++ [.run env, .trigger t.event], Sys.setAct { s' with next := some c } c 0, tr ++ (o ++ [.trig ⟨t.event, false⟩]), ?_, rfl⟩
      rw [Reaction.exec_append, hx]
      simp only [exec, step, hr, triggers, htr, bind, Except.bind, Pure.pure, Except.pure, List.append_nil]

/-- **C269** A safety level becomes the current one in some history exactly if it is reached from the entry level along registered transitions, whether it
was ever added or not.  (Every input check can pass, and private transitions stand only in levels which have a level action to trigger them.) -/
theorem current_iff_reached [CppVal V] [Nonempty V] (p : Properties V) (acts : LevelRef → Nat) (s0 : Sys) (h : construct p acts = .ok s0)
    (hrest : ∀ l, CanRest p l) (hpriv : ∀ l, PrivateUsable p l) (e : LevelRef) (he : p.entryLevel = some e) (l : LevelRef) :
    (∃ (ops : List (Op V)) (s : Sys) (tr : List Obs), exec p s0 ops = .ok (s, tr) ∧ s.cur = some l) ↔ Reaches p e l := by
  constructor
  · rintro ⟨ops, s, tr, hx, hc⟩
    obtain ⟨e', c, l', pend, he', hi, -, hrc, -⟩ := exec_reaches h hx
    rw [he] at he'
    obtain rfl := Option.some.inj he'
    have := hi.1
    rw [hc] at this
    rw [Option.some.inj this]
    exact hrc
  · intro hl
    obtain ⟨ops, s, tr, hx, hn⟩ := reached h hrest hpriv he hl
    obtain ⟨env, s', o, hr, hc, -⟩ := run_rests hn (hrest l)
    refine ⟨ops ++ [.run env], s', tr ++ o, ?_, hc⟩
    rw [Reaction.exec_append, hx]
    simp [exec, step, hr, bind, Except.bind, Pure.pure, Except.pure]

/-- **C269** Every run in every history executes an action on every critical output and a check of every critical input exactly if every level reached from
the entry level along registered transitions lists them. -/
theorem critical_handled_iff [CppVal V] [Nonempty V] (p : Properties V) (acts : LevelRef → Nat) (s0 : Sys) (h : construct p acts = .ok s0)
    (hrest : ∀ l, CanRest p l) (hpriv : ∀ l, PrivateUsable p l) (e : LevelRef) (he : p.entryLevel = some e) :
    (∀ (ops : List (Op V)) (s : Sys) (tr : List Obs), exec p s0 ops = .ok (s, tr) → ∀ env, ∃ s' tr', run p env s = .ok (s', tr') ∧
      (∀ out ∈ p.criticalOutputs, ∃ l i, Obs.set l i out ∈ tr') ∧ ∀ inp ∈ p.criticalInputs, ∃ l i, Obs.checked l i inp ∈ tr') ↔
    ∀ l, Reaches p e l → ListsCritical p l := by
  constructor
  · intro hall l hl
    obtain ⟨ops, s, tr, hx, hn⟩ := reached h hrest hpriv he hl
    obtain ⟨_, c, _, pend, _, hi, -, -, -⟩ := exec_reaches h hx
    obtain ⟨env, -⟩ := rest_env (V := V) (hrest l) []
    obtain ⟨s', tr', hr, ho, hin⟩ := hall ops s tr hx env
    obtain ⟨s2, tr2, hr2, ho2, hin2⟩ := run_handles env hi hn
    rw [hr] at hr2
    simp only [Except.ok.injEq, Prod.mk.injEq] at hr2
    obtain ⟨rfl, rfl⟩ := hr2
    exact ⟨fun out hout => (ho2 out).1 (ho out hout), fun inp hinp => (hin2 inp).1 (hin inp hinp)⟩
  · intro hall ops s tr hx env
    obtain ⟨e', c, l, pend, he', hi, hn, -, hl⟩ := exec_reaches h hx
    rw [he] at he'
    obtain rfl := Option.some.inj he'
    obtain ⟨s', tr', hr, ho, hin⟩ := run_handles env hi hn
    exact ⟨s', tr', hr, fun out hout => (ho out).2 ((hall l hl).1 out hout), fun inp hinp => (hin inp).2 ((hall l hl).2 inp hinp)⟩

/-- **C04 violated**, for every accepted set of properties with a level on the way which does not list a critical output (it was not added with
`addLevel`): a history leads to a run, in whatever environment, which leaves this output alone. -/
theorem critical_unhandled_violated [CppVal V] [Nonempty V] (p : Properties V) (acts : LevelRef → Nat) (s0 : Sys) (h : construct p acts = .ok s0)
    (hrest : ∀ l, CanRest p l) (hpriv : ∀ l, PrivateUsable p l) (e l : LevelRef) (he : p.entryLevel = some e) (hl : Reaches p e l)
    (out : OutputRef) (hout : some out ∉ (p.lvl l).outputAction) :
    ∃ (ops : List (Op V)) (s : Sys) (tr : List Obs), exec p s0 ops = .ok (s, tr) ∧
      ∀ env, ∃ s' tr', run p env s = .ok (s', tr') ∧ ∀ m i, Obs.set m i out ∉ tr' := by
  obtain ⟨ops, s, tr, hx, hn⟩ := reached h hrest hpriv he hl
  obtain ⟨_, c, _, pend, _, hi, -, -, -⟩ := exec_reaches h hx
  refine ⟨ops, s, tr, hx, fun env => ?_⟩
  obtain ⟨s', tr', hr, ho, -⟩ := run_handles env hi hn
  exact ⟨s', tr', hr, fun m i hm => hout ((ho out).1 ⟨m, i, hm⟩)⟩

/-- Three levels: 0 is the entry level, 1 is reached by an event from outside, 2 only by the level action of 1; level 2 was never added and leaves the
critical output 40 alone. -/
def forgotten : Properties Bool :=
  { lvl := fun r =>
      if r = 0 then { id := 0, transitions := [(1, (1, .pub))], outputAction := [some 40], inputAction := [some ⟨50, .check true 9⟩] }
      else if r = 1 then { id := 1, transitions := [(2, (2, .priv))], outputAction := [some 41, some 40], hasAction := true }
      else { id := 7, outputAction := [some 41] }
    levels := [0, 1], entryLevel := some 0, count := 2, criticalOutputs := [40] }

theorem forgotten_rests (l : LevelRef) : CanRest forgotten l := by
  intro ia hia
  by_cases h0 : l = 0
  · subst h0
    simp [forgotten] at hia
    subst hia
    exact ⟨true, rfl⟩
  · by_cases h1 : l = 1 <;> simp [forgotten, h0, h1] at hia

theorem forgotten_private (l : LevelRef) : PrivateUsable forgotten l := by
  intro e d h
  by_cases h0 : l = 0
  · subst h0
    simp only [forgotten, if_true, findTrans] at h
    split at h <;> simp at h
  · by_cases h1 : l = 1
    · subst h1; rfl
    · simp [forgotten, h0, h1, findTrans] at h

theorem forgotten_reached : Reaches forgotten 0 2 :=
  .step (t := ⟨2, true⟩) (.step (t := ⟨1, false⟩) .refl ⟨.pub, rfl, .inl rfl⟩) ⟨.priv, rfl, .inr rfl⟩

example : ∃ s0, construct forgotten (fun _ => 0) = .ok s0 ∧ (∃ (ops : List (Op Bool)) (s : Sys) (tr : List Obs), exec forgotten s0 ops = .ok (s, tr) ∧ s.cur = some 2) ∧
    ¬ ∃ (ops : List (Op Bool)) (s : Sys) (tr : List Obs), exec forgotten s0 ops = .ok (s, tr) ∧ s.cur = some 3 := by
  refine ⟨_, rfl, (current_iff_reached forgotten _ _ rfl forgotten_rests forgotten_private 0 rfl 2).2 forgotten_reached,
    (current_iff_reached forgotten _ _ rfl forgotten_rests forgotten_private 0 rfl 3).not.2 ?_⟩
  have hle : ∀ l, Reaches forgotten 0 l → l ≤ 2 := by
    intro l hl
    induction hl with
    | refl => decide
    | @step b c t _ ht _ =>
      obtain ⟨ty, hf, -⟩ := ht
      by_cases h0 : b = 0
      · subst h0; simp only [forgotten, if_true, findTrans] at hf; split at hf <;> simp at hf; rw [← hf.1]; decide
      · by_cases h1 : b = 1
        · subst h1; simp [forgotten, findTrans] at hf; rw [← hf.2.1]; decide
        · simp [forgotten, h0, h1, findTrans] at hf
  intro h
  exact absurd (hle 3 h) (by decide)

example : ∃ s0, construct forgotten (fun _ => 0) = .ok s0 ∧ 40 ∈ forgotten.criticalOutputs ∧ Reaches forgotten 0 2 ∧ some 40 ∉ (forgotten.lvl 2).outputAction ∧
    ¬ ListsCritical forgotten 2 :=
  ⟨_, rfl, by decide, forgotten_reached, by decide, fun h => absurd (h.1 40 (by decide)) (by decide)⟩

/-- With the third level as it should be, all reachable levels list the critical output. -/
example : ∀ l, Reaches demo' 2 l → ListsCritical demo' l := by
  intro l hl
  have hm : l ∈ demo'.levels := by
    induction hl with
    | refl => decide
    | step _ ht ih => obtain ⟨ty, hf, -⟩ := ht; exact demo'_closed.2 _ ih _ _ _ hf
  have hl' : l = 0 ∨ l = 1 ∨ l = 2 := by simpa [demo', demo] using hm
  rcases hl' with rfl | rfl | rfl <;> refine ⟨?_, ?_⟩ <;> simp [demo', demo]

end Verif.Safety
