import Verif.Safety.Reaction
/-!
The safety system as the main task of a program like those in examples/system: other threads trigger events, the signal handler calls `SafetySystem::exitHandler`
(SafetySystem.cpp:125-128), the executor runs the safety system.  Used for the models of the examples.  Simplified as in `Verif.Safety.Model`: `triggerEvent` is one step; the signal
handler runs between two runs of the safety system.
-/
namespace Verif.Examples
open Verif.Safety
variable {V : Type}

/-- A program: its safety properties, the events triggered by its `exitFunction` and by its level actions, the latter for every number of activations of the level.  Both have the private
context. -/
structure App (V : Type) where
  props : Properties V
  exitT : List EventId
  act : LevelRef → Nat → List EventId

/-- What happens to the safety system. -/
inductive Ev (V : Type) where
  /-- `triggerEvent` by any thread -/
  | call (e : EventId)
  /-- the exit handler -/
  | exit
  /-- `run` by the executor; the level actions are those of the program -/
  | run (env : Env V)

def priv (es : List EventId) : List Trig := es.map (fun e => ⟨e, true⟩)

/-- The environment of a run in which the level action is that of the program. -/
def App.env (a : App V) (s : Sys) (env : Env V) : Env V := { env with act := priv (a.act (s.next.getD 0) (s.nofAct (s.next.getD 0) + 1)) }

def step [CppVal V] (a : App V) (s : Sys) : Ev V → Except Err (Sys × List Obs)
  | .call e => triggers a.props s [⟨e, false⟩]
  | .exit => triggers a.props s (priv a.exitT)
  | .run env => Safety.run a.props (a.env s env) s

def exec [CppVal V] (a : App V) : Sys → List (Ev V) → Except Err (Sys × List Obs)
  | s, [] => .ok (s, [])
  | s, e :: es => do
    let (s', o) ← step a s e
    let (s'', o') ← exec a s' es
    return (s'', o ++ o')

/-! ### The requests of a run -/

/-- The events triggered while the input actions are checked. -/
def inReq [CppVal V] (env : Env V) : Nat → List (Option (InAct V)) → List Trig
  | i, [] => pubTrigs (env.beforeIn i)
  | i, none :: r => pubTrigs (env.beforeIn i) ++ inReq env (i + 1) r
  | i, some ia :: r => pubTrigs (env.beforeIn i) ++ ownTrig (ia.test.eval (env.read i)) ++ inReq env (i + 1) r

def outReq (env : Env V) : Nat → List (Option OutputRef) → List Trig
  | i, [] => pubTrigs (env.beforeOut i)
  | i, _ :: r => pubTrigs (env.beforeOut i) ++ outReq env (i + 1) r

/-- All events triggered in a run of level `l`. -/
def requests [CppVal V] (p : Properties V) (env : Env V) (l : LevelRef) : List Trig :=
  inReq env 0 (p.lvl l).inputAction ++ (if (p.lvl l).hasAction then env.act else []) ++ outReq env 0 (p.lvl l).outputAction

theorem triggers_inv {p : Properties V} (ts : List Trig) {s : Sys} {c pend} (h : Inv p s c pend) :
    ∃ s', triggers p s ts = .ok (s', ts.map Obs.trig) ∧ Inv p s' c (pend ++ ts) := by
  induction ts generalizing s pend with
  | nil => exact ⟨s, rfl, by simpa using h⟩
  | cons t ts ih =>
    obtain ⟨s1, h1, hi⟩ := trigger_sat h t
    obtain ⟨s2, h2, hi2⟩ := ih hi
    exact ⟨s2, by simp [triggers, h1, h2, bind, Except.bind, Pure.pure, Except.pure], by simpa using hi2⟩

theorem runInputs_inv [CppVal V] {p : Properties V} (env : Env V) (level : LevelRef) (l : List (Option (InAct V))) (i : Nat) {s : Sys} {c pend} (h : Inv p s c pend) :
    ∃ s' o, runInputs p env level i l s = .ok (s', o) ∧ Inv p s' c (pend ++ inReq env i l) := by
  induction l generalizing i s pend with
  | nil =>
    obtain ⟨s', h1, h2⟩ := triggers_inv (pubTrigs (env.beforeIn i)) h
    exact ⟨s', _, h1, h2⟩
  | cons a l ih =>
    obtain ⟨s1, h1, hi1⟩ := triggers_inv (pubTrigs (env.beforeIn i)) h
    cases a with
    | none =>
      obtain ⟨s2, o2, h2, hi2⟩ := ih (i + 1) hi1
      exact ⟨s2, _, by simp [runInputs, h1, h2, bind, Except.bind, Pure.pure, Except.pure]; rfl, by simpa [inReq] using hi2⟩
    | some ia =>
      obtain ⟨s2, h2, hi2⟩ := triggers_inv (ownTrig (ia.test.eval (env.read i))) hi1
      obtain ⟨s3, o3, h3, hi3⟩ := ih (i + 1) hi2
      exact ⟨s3, _, by simp only [runInputs, h1, h2, h3, bind, Except.bind, Pure.pure, Except.pure]; rfl, by simpa [inReq] using hi3⟩

theorem runOutputs_inv {p : Properties V} (env : Env V) (level : LevelRef) (l : List (Option OutputRef)) (i : Nat) {s : Sys} {c pend} (h : Inv p s c pend) :
    ∃ s' o, runOutputs p env level i l s = .ok (s', o) ∧ Inv p s' c (pend ++ outReq env i l) := by
  induction l generalizing i s pend with
  | nil =>
    obtain ⟨s', h1, h2⟩ := triggers_inv (pubTrigs (env.beforeOut i)) h
    exact ⟨s', _, h1, h2⟩
  | cons a l ih =>
    obtain ⟨s1, h1, hi1⟩ := triggers_inv (pubTrigs (env.beforeOut i)) h
    obtain ⟨s2, o2, h2, hi2⟩ := ih (i + 1) hi1
    cases a with
    | none => exact ⟨s2, _, by simp [runOutputs, h1, h2, bind, Except.bind, Pure.pure, Except.pure]; rfl, by simpa [outReq] using hi2⟩
    | some o => exact ⟨s2, _, by simp [runOutputs, h1, h2, bind, Except.bind, Pure.pure, Except.pure]; rfl, by simpa [outReq] using hi2⟩

theorem runAction_inv {p : Properties V} (env : Env V) (level : LevelRef) {s : Sys} {c pend} (h : Inv p s c pend) :
    ∃ s' o, runAction p env level s = .ok (s', o) ∧ Inv p s' c (pend ++ if (p.lvl level).hasAction then env.act else []) := by
  unfold runAction
  split
  · obtain ⟨s1, h1, hi⟩ := triggers_inv env.act h
    exact ⟨s1, _, by simp [h1, bind, Except.bind, Pure.pure, Except.pure]; rfl, hi⟩
  · exact ⟨s, [], rfl, by simpa using h⟩

/-- A run makes the level `l` chosen by the pending events current and executes its actions, all of them and no others; then it makes the level current which the events of the run choose. -/
theorem run_exact [CppVal V] {p : Properties V} (env : Env V) {s : Sys} {c pend} (h : Inv p s c pend) :
    ∃ s' mid, run p env s = .ok (s', .level (pend.foldl (pick p c) c) :: mid) ∧
      Inv p s' ((requests p env (pend.foldl (pick p c) c)).foldl (pick p (pend.foldl (pick p c) c)) (pend.foldl (pick p c) c)) [] ∧
      mid.filter Obs.isExec = expectedCycle p (pend.foldl (pick p c) c) := by
  obtain ⟨s', mid, l, m, hn, hc', hn', hr, hl, -, -, hex, -⟩ := run_shape env h
  have hn0 := h.2
  rw [← hl] at hn0 ⊢
  have hi0 : Inv p (Sys.setAct { s with cur := some l } l (s.nofAct l + 1)) l [] := by simp [Safety.Inv, Sys.setAct, hn]
  obtain ⟨s1, o1, h1, hi1⟩ := runInputs_inv env l (p.lvl l).inputAction 0 hi0
  obtain ⟨s2, o2, h2, hi2⟩ := runAction_inv env l hi1
  obtain ⟨s3, o3, h3, hi3⟩ := runOutputs_inv env l (p.lvl l).outputAction 0 hi2
  have hi3' : s3.next = some ((requests p env l).foldl (pick p l) l) := by simpa [requests] using hi3.2
  have hrun : run p env s = .ok ({ s3 with cur := s3.next }, .level l :: o1 ++ o2 ++ o3 ++ [.level ((requests p env l).foldl (pick p l) l)]) := by
    unfold run
    simp only [hn] at h1
    simp only [takeNext, hn]
    rw [h1]; simp only [bind, Except.bind, Pure.pure, Except.pure]
    rw [h2]; simp only
    rw [h3]; simp only [hi3']
    simp
  rw [hr] at hrun
  have hs' : s' = { s3 with cur := s3.next } := by simp only [Except.ok.injEq, Prod.mk.injEq] at hrun; exact hrun.1
  refine ⟨s', mid ++ [.level m], by rw [hr], ?_, ?_⟩
  · rw [hs']; exact ⟨hi3', by simpa using hi3'⟩
  · simp [hex, Obs.isExec]

/-! ### Invariants of programs -/

/-- The invariant rule: `G c pend` holds for the current level `c` and the events triggered since it became current, and is kept by everything allowed. -/
structure Kept [CppVal V] (a : App V) (ok : Ev V → Prop) (G : LevelRef → List Trig → Prop) : Prop where
  call : ∀ c pend e, G c pend → ok (.call e) → G c (pend ++ [⟨e, false⟩])
  exit : ∀ c pend, G c pend → ok .exit → G c (pend ++ priv a.exitT)
  run : ∀ c pend env n, G c pend → ok (.run env) →
    G ((requests a.props { env with act := priv (a.act (pend.foldl (pick a.props c) c) n) } (pend.foldl (pick a.props c) c)).foldl (pick a.props (pend.foldl (pick a.props c) c))
      (pend.foldl (pick a.props c) c)) []

theorem step_inv [CppVal V] (a : App V) {ok : Ev V → Prop} {G : LevelRef → List Trig → Prop} (hk : Kept a ok G) {s : Sys} {c pend} (h : Inv a.props s c pend) (hg : G c pend) (e : Ev V)
    (he : ok e) : ∃ s' o c' pend', step a s e = .ok (s', o) ∧ Inv a.props s' c' pend' ∧ G c' pend' ∧
      (∀ x ∈ o, Obs.isExec x = true → x ∈ expectedCycle a.props (pend.foldl (pick a.props c) c)) := by
  cases e with
  | call e =>
    obtain ⟨s', h1, h2⟩ := triggers_inv [⟨e, false⟩] h
    exact ⟨s', _, _, _, h1, h2, hk.call _ _ _ hg he, by simp [Obs.isExec]⟩
  | exit =>
    obtain ⟨s', h1, h2⟩ := triggers_inv (priv a.exitT) h
    refine ⟨s', _, _, _, h1, h2, hk.exit _ _ hg he, ?_⟩
    intro x hx hex
    obtain ⟨t, -, rfl⟩ := List.mem_map.1 hx
    simp [Obs.isExec] at hex
  | run env =>
    obtain ⟨s', mid, h1, h2, h3⟩ := run_exact (a.env s env) h
    refine ⟨s', _, _, _, h1, h2, ?_, ?_⟩
    · have := hk.run c pend env (s.nofAct (s.next.getD 0) + 1) hg he
      simpa only [App.env, h.2, Option.getD_some] using this
    · intro x hx hex
      rcases List.mem_cons.1 hx with rfl | hx
      · simp [Obs.isExec] at hex
      · rw [← h3]; exact List.mem_filter.2 ⟨hx, hex⟩

/-- Every execution keeps the invariant and executes only actions of levels chosen in states which satisfy it. -/
theorem exec_inv [CppVal V] (a : App V) {ok : Ev V → Prop} {G : LevelRef → List Trig → Prop} (hk : Kept a ok G) (evs : List (Ev V)) (hev : ∀ e ∈ evs, ok e) {s : Sys} {c pend}
    (h : Inv a.props s c pend) (hg : G c pend) : ∃ s' tr c' pend', exec a s evs = .ok (s', tr) ∧ Inv a.props s' c' pend' ∧ G c' pend' ∧
      ∀ x ∈ tr, Obs.isExec x = true → ∃ c1 pend1, G c1 pend1 ∧ x ∈ expectedCycle a.props (pend1.foldl (pick a.props c1) c1) := by
  induction evs generalizing s c pend with
  | nil => exact ⟨s, [], c, pend, rfl, h, hg, by simp⟩
  | cons e es ih =>
    obtain ⟨s1, o1, c1, pend1, h1, hi1, hg1, hx1⟩ := step_inv a hk h hg e (hev e (by simp))
    obtain ⟨s2, o2, c2, pend2, h2, hi2, hg2, hx2⟩ := ih (fun x hx => hev x (by simp [hx])) hi1 hg1
    refine ⟨s2, o1 ++ o2, c2, pend2, by simp [exec, h1, h2, bind, Except.bind, Pure.pure, Except.pure], hi2, hg2, ?_⟩
    intro x hx hex
    rcases List.mem_append.1 hx with hx | hx
    · exact ⟨c, pend, hg, hx1 x hx hex⟩
    · exact hx2 x hx hex

theorem exec_append [CppVal V] (a : App V) (l m : List (Ev V)) (s s1 s2 : Sys) (o1 o2 : List Obs) (h1 : exec a s l = .ok (s1, o1)) (h2 : exec a s1 m = .ok (s2, o2)) :
    exec a s (l ++ m) = .ok (s2, o1 ++ o2) := by
  induction l generalizing s o1 with
  | nil =>
    simp only [exec, Except.ok.injEq, Prod.mk.injEq] at h1
    obtain ⟨rfl, rfl⟩ := h1
    simpa using h2
  | cons e l ih =>
    simp only [exec, bind, Except.bind, Pure.pure, Except.pure] at h1 ⊢
    cases hs : step a s e with
    | error x => simp [hs] at h1
    | ok x =>
      rw [hs] at h1
      simp only at h1
      cases hr : exec a x.1 l with
      | error y => simp [hr] at h1
      | ok y =>
        rw [hr] at h1
        simp only [Except.ok.injEq, Prod.mk.injEq] at h1
        obtain ⟨rfl, rfl⟩ := h1
        simp only [List.cons_append, exec, bind, Except.bind, Pure.pure, Except.pure, hs, ih _ _ hr]
        simp

/-- Every execution is without fault or undefined behaviour, and its level changes follow the rule of the safety system. -/
theorem exec_legal [CppVal V] (a : App V) (evs : List (Ev V)) {s : Sys} {c pend} (h : Inv a.props s c pend) : Sat a.props c pend (exec a s evs) := by
  induction evs generalizing s c pend with
  | nil => exact Sat.pure h
  | cons e es ih =>
    have h1 : Sat a.props c pend (step a s e) := by
      cases e with
      | call e => exact triggers_sat _ h
      | exit => exact triggers_sat _ h
      | run env => exact run_sat _ h
    obtain ⟨s1, o1, h1, hl1, hi1⟩ := h1
    obtain ⟨s2, o2, h2, hl2, hi2⟩ := ih hi1
    refine ⟨s2, o1 ++ o2, by simp [exec, h1, h2, bind, Except.bind, Pure.pure, Except.pure], ?_, ?_⟩
    · rw [legal_append]; exact ⟨hl1, hl2⟩
    · rw [after_append]; exact hi2

theorem exec_run [CppVal V] {a : App V} {s s' : Sys} {env : Env V} {o : List Obs} (h : run a.props (a.env s env) s = .ok (s', o)) : exec a s [.run env] = .ok (s', o) := by
  simp [exec, step, h, bind, Except.bind, Pure.pure, Except.pure]

theorem calls_inv [CppVal V] (a : App V) (es : List EventId) {s : Sys} {c pend} (h : Inv a.props s c pend) :
    ∃ s', exec a s (es.map Ev.call) = .ok (s', (pubTrigs es).map Obs.trig) ∧ Inv a.props s' c (pend ++ pubTrigs es) := by
  induction es generalizing s pend with
  | nil => exact ⟨s, rfl, by simpa [pubTrigs] using h⟩
  | cons e es ih =>
    obtain ⟨s1, h1, hi1⟩ := triggers_inv [⟨e, false⟩] h
    obtain ⟨s2, h2, hi2⟩ := ih hi1
    exact ⟨s2, by simp [exec, step, h1, h2, bind, Except.bind, Pure.pure, Except.pure]; rfl, by simpa [pubTrigs] using hi2⟩

end Verif.Examples
