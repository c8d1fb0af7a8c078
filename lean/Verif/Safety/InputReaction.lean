import Verif.Examples.App
/-!
C261: what follows when a check of an input fails (InputAction.hpp:37-43, 55-69; SafetySystem.cpp:81-123): the event of the input action is triggered with the private context, so also
transitions registered for private events are taken, and the run ends in a level not above the one the event leads to.
-/
namespace Verif.Safety.InputReaction
open Verif.Safety Verif.Examples Verif.Safety.Reaction
variable {V : Type}

/-- Specification: the check of an input on the value `v` fails and has the event `e`. -/
def Bad [CppVal V] (t : InTest V) (v : V) (e : EventId) : Prop :=
  (∃ x, t = .check x e ∧ CppVal.eq v x = false) ∨
  (∃ a b, t = .range a b e false ∧ (CppVal.lt v a = true ∨ CppVal.lt b v = true)) ∨
  (∃ a b, t = .range a b e true ∧ CppVal.lt a v = true ∧ CppVal.lt v b = true)

theorem eval_bad [CppVal V] {t : InTest V} {v : V} {e : EventId} (h : Bad t v e) : t.eval v = some e := by
  rcases h with ⟨x, rfl, h⟩ | ⟨a, b, rfl, h | h⟩ | ⟨a, b, rfl, h1, h2⟩ <;> simp [InTest.eval, *]

theorem mem_inReq [CppVal V] (env : Env V) (l : List (Option (InAct V))) : ∀ (k i : Nat) (ia : InAct V) (e : EventId), l[i]? = some (some ia) →
    ia.test.eval (env.read (k + i)) = some e → (⟨e, true⟩ : Trig) ∈ inReq env k l := by
  induction l with
  | nil => intro k i ia e h; simp at h
  | cons a l ih =>
    intro k i ia e h he
    cases i with
    | zero =>
      have ha : a = some ia := by simpa using h
      subst ha
      have he' : ia.test.eval (env.read k) = some e := by simpa using he
      simp [inReq, ownTrig, he']
    | succ i =>
      have := ih (k + 1) i ia e (by simpa using h) (by rw [Nat.add_assoc, Nat.add_comm 1 i]; exact he)
      cases a <;> simp [inReq, this]

/-- C261.  After any history: if in a run of the safety system which executes the level `l` the value read by the `i`-th input action fails its check, and its event leads from `l`, publicly
or privately, to a lower level `d`, then whatever else happens in this run it ends with a current level `m` not above `d`; the next run executes the actions of `m`, all of them and no others. -/
theorem input_reaction [CppVal V] (p : Properties V) (acts : LevelRef → Nat) (s0 s : Sys) (h : construct p acts = .ok s0) (ops : List (Op V)) (tr : List Obs)
    (hx : exec p s0 ops = .ok (s, tr)) (env env' : Env V) :
    ∃ (s' s'' : Sys) (l m m' : LevelRef) (mid mid' : List Obs), exec p s [.run env] = .ok (s', .level l :: (mid ++ [.level m])) ∧ s'.cur = some m ∧ mid.filter Obs.isExec = expectedCycle p l ∧
      exec p s' [.run env'] = .ok (s'', .level m :: (mid' ++ [.level m'])) ∧ mid'.filter Obs.isExec = expectedCycle p m ∧
      ∀ (i : Nat) (ia : InAct V) (e : EventId) (d : LevelRef) (ty : EventType), (p.lvl l).inputAction[i]? = some (some ia) → Bad ia.test (env.read i) e →
        findTrans (p.lvl l).transitions e = some (d, ty) → (p.lvl d).id < (p.lvl l).id → (p.lvl m).id ≤ (p.lvl d).id := by
  obtain ⟨e0, he0, hv, hi⟩ := construct_inv h
  obtain ⟨s1, tr1, hx', hl, hi'⟩ := exec_sat ops hi
  rw [hx] at hx'
  simp only [Except.ok.injEq, Prod.mk.injEq] at hx'
  obtain ⟨rfl, rfl⟩ := hx'
  generalize (after e0 [] tr).2 = pend at hi'
  generalize (after e0 [] tr).1 = c at hi'
  obtain ⟨s', mid, l, m, -, hc', -, hr, hl, -, -, hex, -⟩ := run_shape env hi'
  obtain ⟨s2, mid2, hr2, hi2, -⟩ := run_exact env hi'
  rw [hr] at hr2
  simp only [Except.ok.injEq, Prod.mk.injEq] at hr2
  obtain ⟨rfl, -⟩ := hr2
  rw [← hl] at hi2
  have hm : m = (requests p env l).foldl (pick p l) l := by
    have := hc'.symm.trans hi2.1
    simpa using this
  rw [← hm] at hi2
  obtain ⟨s'', mid', l', m', -, -, -, hr', hl', -, -, hex', -⟩ := run_shape env' hi2
  simp only [List.foldl_nil] at hl'
  subst hl'
  refine ⟨s', s'', l, l', m', mid, mid', ?_, hc', hex, ?_, hex', ?_⟩
  · simp only [bind, Except.bind, exec, step, hr, Pure.pure, Except.pure, List.append_nil]
  · simp only [bind, Except.bind, exec, step, hr', Pure.pure, Except.pure, List.append_nil]
  · intro i ia e d ty hia hb hf hd
    rw [hm]
    refine foldl_pick_mem (t := ⟨e, true⟩) ⟨ty, hf, Or.inr rfl⟩ hd _ _ ?_
    unfold requests
    simp only [List.mem_append]
    exact Or.inl (Or.inl (mem_inReq env _ 0 i ia e hia (by rw [Nat.zero_add]; exact eval_bad hb)))

/-- Case: in level 2 of the demo system the input reads false instead of true, the private event 8 leads to level 0, although the level action asks for level 1. -/
example : ∃ s0 s' tr, construct demo' (fun _ => 0) = .ok s0 ∧ exec demo' s0 [.run (demoEnv false)] = .ok (s', tr) ∧ s'.cur = some 0 ∧
    (demo'.lvl 2).inputAction[0]? = some (some ⟨50, .check true 8⟩) ∧ Bad (.check true 8) ((demoEnv false).read 0) 8 ∧
    findTrans (demo'.lvl 2).transitions 8 = some (0, .priv) ∧ (demo'.lvl 0).id < (demo'.lvl 2).id :=
  ⟨_, _, _, rfl, rfl, rfl, rfl, Or.inl ⟨true, rfl, rfl⟩, rfl, by decide⟩

theorem inReq_nil [CppVal V] (env : Env V) (hb : ∀ i, env.beforeIn i = []) (l : List (Option (InAct V))) :
    ∀ k, (∀ i ia, l[i]? = some (some ia) → ∀ e, ¬ Bad ia.test (env.read (k + i)) e) → inReq env k l = [] := by
  induction l with
  | nil => intro k _; simp [inReq, hb, pubTrigs]
  | cons a l ih =>
    intro k h
    have hr := ih (k + 1) (fun i ia hi e => by rw [Nat.add_assoc, Nat.add_comm 1 i]; exact h (i + 1) ia (by simpa using hi) e)
    cases a with
    | none => simp [inReq, hb, pubTrigs, hr]
    | some ia =>
      have h0 : ia.test.eval (env.read k) = none := by
        have hn := h 0 ia rfl
        rw [Nat.add_zero] at hn
        cases ht : ia.test with
        | ignore => rfl
        | check x e =>
          cases hq : CppVal.eq (env.read k) x with
          | true => simp [InTest.eval, hq]
          | false => exact absurd (Or.inl ⟨x, ht, hq⟩) (hn e)
        | range a b e off =>
          cases off with
          | true =>
            cases h1 : CppVal.lt a (env.read k) with
            | false => simp [InTest.eval, h1]
            | true =>
              cases h2 : CppVal.lt (env.read k) b with
              | false => simp [InTest.eval, h2]
              | true => exact absurd (Or.inr (Or.inr ⟨a, b, ht, h1, h2⟩)) (hn e)
          | false =>
            cases h1 : CppVal.lt (env.read k) a with
            | true => exact absurd (Or.inr (Or.inl ⟨a, b, ht, Or.inl h1⟩)) (hn e)
            | false =>
              cases h2 : CppVal.lt b (env.read k) with
              | true => exact absurd (Or.inr (Or.inl ⟨a, b, ht, Or.inr h2⟩)) (hn e)
              | false => simp [InTest.eval, h1, h2]
      simp [inReq, hb, pubTrigs, hr, ownTrig, h0]

/-- C261, the converse.  After any history: a run in which no check of an input of the executed level `l` fails, whose level action triggers nothing and during which no other
thread triggers an event ends in `l`. -/
theorem good_inputs_stay [CppVal V] (p : Properties V) (acts : LevelRef → Nat) (s0 s : Sys) (h : construct p acts = .ok s0) (ops : List (Op V)) (tr : List Obs)
    (hx : exec p s0 ops = .ok (s, tr)) (env : Env V) (hin : ∀ i, env.beforeIn i = []) (hout : ∀ i, env.beforeOut i = []) (hact : env.act = []) :
    ∃ (s' : Sys) (l m : LevelRef) (mid : List Obs), exec p s [.run env] = .ok (s', .level l :: (mid ++ [.level m])) ∧ s'.cur = some m ∧
      ((∀ i ia, (p.lvl l).inputAction[i]? = some (some ia) → ∀ e, ¬ Bad ia.test (env.read i) e) → m = l) := by
  obtain ⟨e0, he0, hv, hi⟩ := construct_inv h
  obtain ⟨s1, tr1, hx', hl, hi'⟩ := exec_sat ops hi
  rw [hx] at hx'
  simp only [Except.ok.injEq, Prod.mk.injEq] at hx'
  obtain ⟨rfl, rfl⟩ := hx'
  generalize (after e0 [] tr).2 = pend at hi'
  generalize (after e0 [] tr).1 = c at hi'
  obtain ⟨s', mid, l, m, -, hc', -, hr, hl, -, -, hex, -⟩ := run_shape env hi'
  obtain ⟨s2, mid2, hr2, hi2, -⟩ := run_exact env hi'
  rw [hr] at hr2
  simp only [Except.ok.injEq, Prod.mk.injEq] at hr2
  obtain ⟨rfl, -⟩ := hr2
  rw [← hl] at hi2
  have hm : m = (requests p env l).foldl (pick p l) l := by
    have := hc'.symm.trans hi2.1
    simpa using this
  refine ⟨s', l, m, mid, ?_, hc', ?_⟩
  · simp only [bind, Except.bind, exec, step, hr, Pure.pure, Except.pure, List.append_nil]
  · intro hg
    have h1 : inReq env 0 (p.lvl l).inputAction = [] := inReq_nil env hin _ 0 (fun i ia hia e => by rw [Nat.zero_add]; exact hg i ia hia e)
    have h2 : ∀ (k : Nat) (o : List (Option OutputRef)), outReq env k o = [] := by
      intro k o
      induction o generalizing k with
      | nil => simp [outReq, hout, pubTrigs]
      | cons a o ih => simp [outReq, hout, pubTrigs, ih]
    rw [hm]
    simp [requests, h1, h2, hact]

/-- Case: all inputs of the demo system read the expected value. -/
example : ∃ s0 s' tr, construct demo' (fun _ => 0) = .ok s0 ∧ exec demo' s0 [.run { demoEnv true with act := [] }] = .ok (s', tr) ∧ s'.cur = some 2 ∧
    ∀ e, ¬ Bad (.check true 8) ((demoEnv true).read 0) e := by
  refine ⟨_, _, _, rfl, rfl, rfl, ?_⟩
  rintro e (⟨x, hx, hq⟩ | ⟨a, b, hx, -⟩ | ⟨a, b, hx, -⟩)
  · cases hx; cases hq
  · cases hx
  · cases hx

/-- A pending change is not overridden by an event leading to a level which is not lower; such an event changes nothing at all, in particular no activation counter (SafetySystem.cpp:57-64). -/
theorem higher_event_ignored (p : Properties V) (s : Sys) (c n d : LevelRef) (hc : s.cur = some c) (hn : s.next = some n) (hne : n ≠ c) (t : Trig) (hr : Registered p c t d)
    (hd : (p.lvl n).id ≤ (p.lvl d).id) : trigger p s t.event t.priv = .ok s := by
  obtain ⟨ty, hf, hp⟩ := hr
  have hdest : (p.lvl c).dest t.event t.priv = some d := by
    unfold Level.dest
    rw [hf]
    rcases hp with rfl | hp
    · rfl
    · cases ty <;> simp [hp]
  have h1 : ¬ (some n = some c) := by simpa using hne
  have h2 : ¬ (p.lvl d).id < (p.lvl n).id := by omega
  simp [trigger, hc, hdest, hn, hne, h2]

/-- Case: event 8 has asked for level 0, event 7 which leads to level 1 comes too late. -/
example : trigger demo' ⟨some 2, some 0, fun _ => 3⟩ 7 false = .ok ⟨some 2, some 0, fun _ => 3⟩ :=
  higher_event_ignored demo' _ 2 0 1 rfl rfl (by decide) ⟨7, false⟩ ⟨.pub, rfl, Or.inl rfl⟩ (by decide)

end Verif.Safety.InputReaction
