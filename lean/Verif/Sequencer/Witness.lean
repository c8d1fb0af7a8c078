import Verif.Sequencer.Abort
/-!
Concrete programs: violations of C11 and C66 and non-trivial cases of the hypotheses of the theorems about the sequencer.
-/
namespace Verif.Sequencer

/-- All callers of the sequences called are active. -/
def nestedCalls (P : Prog) (s : M) (ev : List Ev) : Bool :=
  ev.all (fun e => match e with
    | .call j => (P.cstack j).all (fun c => decide (c = j) || decide (c ∈ s.frames.map Frame.id))
    | _ => true)

/-- `exec` under the discipline. -/
def execW (P : Prog) : M → List Inp → Option (M × List Ev)
  | s, [] => some (s, [])
  | s, x :: xs => match step P s x with
    | none => none
    | some (s', ev) => if nestedCalls P s ev then (execW P s' xs).map (fun r => (r.1, ev ++ r.2)) else none

theorem nested_of (P : Prog) (s : M) (ev : List Ev) (h : nestedCalls P s ev = true) :
    ∀ j, .call j ∈ ev → ∀ c ∈ P.cstack j, c ≠ j → c ∈ s.frames.map Frame.id := by
  intro j hj c hc hcj
  have h1 := List.all_eq_true.1 h _ hj
  have h2 := List.all_eq_true.1 h1 c hc
  simp only [Bool.or_eq_true, decide_eq_true_eq] at h2
  exact h2.resolve_left hcj

theorem runW_execW (P : Prog) : ∀ (xs : List Inp) (s0 s : M) (t : List Ev) (r : M × List Ev), RunW P s0 t s → execW P s xs = some r → RunW P s0 (t ++ r.2) r.1 := by
  intro xs
  induction xs with
  | nil => intro s0 s t r h1 h2; simp only [execW, Option.some.injEq] at h2; subst h2; simpa using h1
  | cons x xs ih =>
    intro s0 s t r h1 h2
    unfold execW at h2
    split at h2
    · cases h2
    · rename_i s' ev hs
      split at h2
      · rename_i hn
        cases he : execW P s' xs with
        | none => rw [he] at h2; cases h2
        | some r' =>
          rw [he] at h2
          simp only [Option.map_some, Option.some.injEq] at h2
          subst h2
          have := ih s0 s' (t ++ ev) r' (.step t s x s' ev h1 hs (nested_of P s ev hn)) he
          simpa using this
      · cases h2

theorem reachW_execW (P : Prog) (xs : List Inp) (r : M × List Ev) (h : execW P init xs = some r) : ReachW P r.2 r.1 := by
  have := ReachW.run ReachW.init (runW_execW P xs init init [] r .refl h)
  simpa using this

theorem reach_exec (P : Prog) : ∀ (xs : List Inp) (s : M) (t : List Ev) (r : M × List Ev), Reach P t s → exec P s xs = some r → Reach P (t ++ r.2) r.1 := by
  intro xs
  induction xs with
  | nil => intro s t r h1 h2; simp only [exec, Option.some.injEq] at h2; subst h2; simpa using h1
  | cons x xs ih =>
    intro s t r h1 h2
    unfold exec at h2
    split at h2
    · cases h2
    · rename_i s' ev hs
      cases he : exec P s' xs with
      | none => rw [he] at h2; cases h2
      | some r' =>
        rw [he] at h2
        simp only [Option.map_some, Option.some.injEq] at h2
        subst h2
        have := ih s' (t ++ ev) r' (.step t s x s' ev h1 hs) he
        simpa using this

/-- Histories of a run given by its inputs. -/
theorem reach_of (P : Prog) (xs : List Inp) (t : List Ev) (h : (exec P init xs).map (·.2) = some t) : ∃ s, Reach P t s := by
  cases he : exec P init xs with
  | none => rw [he] at h; cases h
  | some r =>
    rw [he] at h
    simp only [Option.map_some, Option.some.injEq] at h
    have := reach_exec P xs init [] r .init he
    rw [List.nil_append, h] at this
    exact ⟨r.1, this⟩

theorem runs_of (P : Prog) (xs ys : List Inp) (t1 t2 : List Ev) (h1 : (execW P init xs).map (·.2) = some t1)
    (h2 : ((execW P init xs).bind (fun r => execW P r.1 ys)).map (·.2) = some t2) : ∃ s1 s2, ReachW P t1 s1 ∧ RunW P s1 t2 s2 := by
  cases he : execW P init xs with
  | none => rw [he] at h1; cases h1
  | some r =>
    rw [he] at h1 h2
    simp only [Option.map_some, Option.some.injEq, Option.bind_some] at h1 h2
    cases he2 : execW P r.1 ys with
    | none => rw [he2] at h2; cases h2
    | some r2 =>
      rw [he2] at h2
      simp only [Option.map_some, Option.some.injEq] at h2
      refine ⟨r.1, r2.1, ?_, ?_⟩
      · rw [← h1]; exact reachW_execW P xs r he
      · rw [← h2]; simpa using runW_execW P ys r.1 r.1 [] r2 .refl he2

/-! ### A chain of sequences: each is called by the one before -/

def chain (mons : Nat → List Mon) : Prog :=
  { caller := fun i => if i = 0 then none else some (i - 1)
    older := by intro i c h; by_cases hi : i = 0 <;> simp [hi] at h; omega
    blocking := fun _ => true
    mons := mons }

def monA : Mon := ⟨0, .abort, none⟩
def monR : Mon := ⟨1, .resume, none⟩
def monS : Mon := ⟨2, .restart, none⟩

/-- Sequence 0 has an abort monitor. -/
def progA : Prog := chain (fun i => if i = 0 then [monA] else [])

/-- Up to the firing of the abort monitor while sequence 1 is being started. -/
def runA : List Inp := [.call 0, .tick, .tick, .cond false, .tick, .tick, .pre true, .call 1, .tick, .tick, .tick, .tick, .cond true]
def traceA : List Ev := [.call 0, .poll 0 monA false, .enter 0, .call 1, .poll 0 monA true, .fire 0 monA]

/-- The condition stays true: sequence 1 returns, and also when called again. -/
def moreA : List Inp := [.tick, .tick, .tick, .tick, .call 1, .tick, .tick, .tick, .tick, .cond true, .tick, .tick, .tick, .tick]

/-- The hypotheses of `abort_stops_callees_partial` are met by a run in which sequence 1 is called and refused twice. -/
example : ∃ s1 s2, ReachW progA (traceA ++ [.handled 0 monA]) s1 ∧ RunW progA s1 [.ret 1 (-1), .call 1, .poll 0 monA true, .ret 1 (-1)] s2 :=
  runs_of progA runA moreA _ _ (by decide +kernel) (by decide +kernel)
theorem progA_cstack (c : Nat) (mons : Nat → List Mon) : ∀ a ∈ (chain mons).cstack c, a ≤ c := by
  induction c using Nat.strongRecOn with
  | _ c ih =>
    intro a ha
    rw [cstack_eq] at ha
    rcases List.mem_cons.1 ha with rfl | ha
    · omega
    · cases c with
      | zero => simp [chain] at ha
      | succ n =>
        have := ih n (by omega) a (by simpa [chain] using ha)
        omega
example : (∀ c, c ≠ 0 → 0 ∈ progA.cstack c → ∀ m ∈ progA.mons c, m.beh ≠ .restart) ∧ (∀ a ∈ progA.cstack 0, ∀ m ∈ progA.mons a, m.beh ≠ .resume) := by
  constructor
  · intro c hc _ m hm; simp [progA, chain, hc] at hm
  · intro a ha m hm
    obtain rfl : a = 0 := by have := progA_cstack 0 _ a ha; omega
    simp [progA, chain] at hm; subst hm; decide

/-- C11 is violated: a condition which is true only for one check aborts only the sequence being checked, the caller goes on and the next callee runs. -/
theorem abort_transient : ¬ AbortStops progA 0 monA := by
  intro h
  obtain ⟨s1, s2, h1, h2⟩ := runs_of progA runA [.tick, .tick, .tick, .tick, .call 1, .tick, .tick, .tick, .tick, .cond false, .tick, .tick, .pre true]
    (traceA ++ [.handled 0 monA]) [.ret 1 (-1), .call 1, .poll 0 monA false, .enter 1] (by decide +kernel) (by decide +kernel)
  exact h traceA s1 _ s2 h1 h2 (by simp) (by simp) 1 (by decide) (by simp)

/-- Sequence 0 has a resume monitor, its callee 1 an abort monitor, 2 is called by 1. -/
def progB : Prog := chain (fun i => if i = 0 then [monR] else if i = 1 then [monA] else [])

/-- C11 is violated: a resume monitor of the caller firing in the same check makes the aborted sequence start its callee. -/
theorem abort_masked_by_resume : ¬ AbortStops progB 1 monA := by
  intro h
  obtain ⟨s1, s2, h1, h2⟩ := runs_of progB
    [.call 0, .tick, .tick, .cond false, .tick, .tick, .pre true, .call 1, .tick, .tick, .cond false, .tick, .tick, .cond false, .tick, .tick, .pre true,
     .call 2, .tick, .tick, .tick, .tick, .cond true] [.tick, .tick, .cond true, .tick, .tick, .pre true]
    ([.call 0, .poll 0 monR false, .enter 0, .call 1, .poll 1 monA false, .poll 0 monR false, .enter 1, .call 2, .poll 1 monA true, .fire 1 monA] ++ [.handled 1 monA])
    [.poll 0 monR true, .fire 0 monR, .handled 0 monR, .enter 2] (by decide +kernel) (by decide +kernel)
  exact h _ s1 _ s2 h1 h2 (by simp) (by simp) 2 (by decide) (by simp)

/-- Sequence 0 has an abort monitor, its callee 1 a restart monitor. -/
def progC : Prog := chain (fun i => if i = 0 then [monA] else if i = 1 then [monS] else [])

/-- C11 is violated: a callee whose restart monitor fired in the same check is restarted although its caller is aborting. -/
theorem abort_masked_by_restart : ¬ AbortStops progC 0 monA := by
  intro h
  obtain ⟨s1, s2, h1, h2⟩ := runs_of progC
    [.call 0, .tick, .tick, .cond false, .tick, .tick, .pre true, .call 1, .tick, .tick, .cond false, .tick, .tick, .cond false, .tick, .tick, .pre true,
     .ret 5, .tick, .tick, .cond true, .tick, .tick, .cond true] [.tick, .tick, .tick, .pre true]
    ([.call 0, .poll 0 monA false, .enter 0, .call 1, .poll 1 monS false, .poll 0 monA false, .enter 1, .leave 1 5, .poll 1 monS true, .fire 1 monS,
      .handled 1 monS, .poll 0 monA true, .fire 0 monA] ++ [.handled 0 monA])
    [.restart 1, .enter 1] (by decide +kernel) (by decide +kernel)
  exact h _ s1 _ s2 h1 h2 (by simp) (by simp) 1 (by decide) (by simp)

/-! ### C09, C10, C12: non-trivial histories -/

/-- One complete execution with a return value, then a refused one. -/
example : ∃ s, Reach progA ([] ++ .call 0 :: [.poll 0 monA false, .enter 0, .leave 0 7, .poll 0 monA false] ++ [.ret 0 7]) s :=
  reach_of progA [.call 0, .tick, .tick, .cond false, .tick, .tick, .pre true, .ret 7, .tick, .tick, .cond false, .tick, .tick, .exitc true, .tick] _ (by decide +kernel)
example : ∃ s, Reach progA ([.call 0, .poll 0 monA false] ++ .refuse 0 :: [.ret 0 (-1), .call 0, .poll 0 monA false] ++ [.enter 0]) s :=
  reach_of progA [.call 0, .tick, .tick, .cond false, .tick, .tick, .pre false, .tick, .call 0, .tick, .tick, .cond false, .tick, .tick, .pre true] _ (by decide +kernel)
/-- A monitor fires, is handled, the sequence is restarted and the monitor fires again. -/
example : ∃ s, Reach (chain (fun _ => [monS]))
    ([.call 0, .poll 0 monS true] ++ .fire 0 monS :: [.handled 0 monS, .restart 0, .enter 0, .leave 0 1, .poll 0 monS true] ++ .fire 0 monS :: [.handled 0 monS]) s :=
  reach_of _ [.call 0, .tick, .tick, .cond true, .tick, .tick, .tick, .pre true, .ret 1, .tick, .tick, .cond true] _ (by decide +kernel)

/-! ### C66: what goes wrong without the calling discipline -/

/-- Sequence 0 has an abort monitor with exception sequence 2; sequence 1 is called by 0. -/
def progN : Prog :=
  { caller := fun i => if i = 1 then some 0 else none
    older := by intro i c h; by_cases hi : i = 1 <;> simp [hi] at h; omega
    blocking := fun _ => true
    mons := fun i => if i = 0 then [⟨0, .abort, some 2⟩] else [] }

/-- A sequence called while its caller is not active can end in a null pointer dereference: the exception sequence calls the owner, which clears the active
monitor under the running check. -/
theorem null_dereference_possible : ∃ tr s, Reach progN tr s ∧ s.halt = some .nullDeref := by
  have h : ((exec progN init [.call 1, .tick, .tick, .tick, .tick, .cond true, .tick, .tick, .tick, .tick, .pre true,
      .call 0, .tick, .tick, .tick, .pre false, .tick, .ret 0, .tick, .tick, .tick, .tick, .exitc true, .tick, .tick, .tick, .tick]).map (fun r => r.1.halt)) =
      some (some .nullDeref) := by decide +kernel
  cases he : exec progN init [.call 1, .tick, .tick, .tick, .tick, .cond true, .tick, .tick, .tick, .tick, .pre true,
      .call 0, .tick, .tick, .tick, .pre false, .tick, .ret 0, .tick, .tick, .tick, .tick, .exitc true, .tick, .tick, .tick, .tick] with
  | none => rw [he] at h; cases h
  | some r =>
    rw [he] at h
    simp only [Option.map_some, Option.some.injEq] at h
    have := reach_exec progN _ init [] r .init he
    exact ⟨_, r.1, this, h⟩

/-- Without the discipline a sequence which is not active can be left in the state aborting; called later it returns -1 at once, without evaluating its
precondition or any monitor. -/
theorem stale_abort_possible : ∃ s, Reach (chain (fun i => if i = 0 then [monA] else []))
    [.call 2, .poll 0 monA true, .fire 0 monA, .handled 0 monA, .ret 2 (-1), .call 1, .ret 1 (-1)] s :=
  reach_of _ [.call 2, .tick, .tick, .tick, .tick, .tick, .tick, .cond true, .tick, .tick, .tick, .tick, .call 1, .tick, .tick] _ (by decide +kernel)

/-- A sequence calling itself (or any active one) locks its own mutex twice. -/
theorem deadlock_possible : ∃ tr s, ReachW progA tr s ∧ s.halt = some .deadlock := by
  have h : ((execW progA init [.call 0, .tick, .tick, .cond false, .tick, .tick, .pre true, .call 0]).map (fun r => r.1.halt)) = some (some .deadlock) := by
    decide +kernel
  cases he : execW progA init [.call 0, .tick, .tick, .cond false, .tick, .tick, .pre true, .call 0] with
  | none => rw [he] at h; cases h
  | some r =>
    rw [he] at h
    simp only [Option.map_some, Option.some.injEq] at h
    exact ⟨_, r.1, reachW_execW progA _ r he, h⟩

/-! ### The theorems about the sequencer on these histories -/

/-- One complete execution with value 7. -/
theorem run7 : ∃ s, Reach progA ([] ++ .call 0 :: [.poll 0 monA false, .enter 0, .leave 0 7, .poll 0 monA false] ++ [.ret 0 7]) s :=
  reach_of progA [.call 0, .tick, .tick, .cond false, .tick, .tick, .pre true, .ret 7, .tick, .tick, .cond false, .tick, .tick, .exitc true, .tick] _ (by decide +kernel)

/-- Case of `follows_protocol`: the phase is off again after the return. -/
example : ∃ s, Reach progA ([] ++ .call 0 :: [.poll 0 monA false, .enter 0, .leave 0 7, .poll 0 monA false] ++ [.ret 0 7]) s ∧
    phase 0 ([] ++ .call 0 :: [.poll 0 monA false, .enter 0, .leave 0 7, .poll 0 monA false] ++ [.ret 0 7]) = some .off ∧
    phase 0 [.call 0, .enter 0, .enter 0] = none := by
  obtain ⟨s, h⟩ := run7
  exact ⟨s, h, by decide, by decide⟩

/-- Case of `return_value`: the value returned is the one of the execution. -/
example : (7 : Int) = lastValue 0 (-1) [.poll 0 monA false, .enter 0, .leave 0 7, .poll 0 monA false] := by
  obtain ⟨s, h⟩ := run7
  exact return_value progA [] _ s 0 7 h (by simp)

/-- Case of `idle_after_return`: the last step of that history returns. -/
example : ∃ tr s s', Reach progA tr s ∧ step progA s .tick = some (s', [.ret 0 7]) ∧ s'.st 0 = .idle := by
  have he : ((exec progA init [.call 0, .tick, .tick, .cond false, .tick, .tick, .pre true, .ret 7, .tick, .tick, .cond false, .tick, .tick, .exitc true]).bind
      (fun r => step progA r.1 .tick)).map (·.2) = some [.ret 0 7] := by decide +kernel
  cases h : exec progA init [.call 0, .tick, .tick, .cond false, .tick, .tick, .pre true, .ret 7, .tick, .tick, .cond false, .tick, .tick, .exitc true] with
  | none => rw [h] at he; cases he
  | some r =>
    rw [h] at he
    cases h' : step progA r.1 .tick with
    | none => rw [Option.bind_some, h'] at he; cases he
    | some q =>
      rw [Option.bind_some, h'] at he
      simp only [Option.map_some, Option.some.injEq] at he
      have hr := reach_exec progA _ init [] r .init h
      have hq : step progA r.1 .tick = some (q.1, [.ret 0 7]) := by rw [h', ← he]
      exact ⟨_, r.1, q.1, hr, hq, (idle_after_return progA _ r.1 q.1 .tick 0 7 hr hq).1⟩

/-- Case of `refused_not_executed`: refused, returned, called again and executed. -/
example : ∃ v, Ev.ret 0 v ∈ [Ev.ret 0 (-1), .call 0, .poll 0 monA false] := by
  obtain ⟨s, h⟩ := reach_of progA [.call 0, .tick, .tick, .cond false, .tick, .tick, .pre false, .tick, .call 0, .tick, .tick, .cond false, .tick, .tick, .pre true]
    ([.call 0, .poll 0 monA false] ++ .refuse 0 :: [.ret 0 (-1), .call 0, .poll 0 monA false] ++ [.enter 0]) (by decide +kernel)
  exact refused_not_executed progA _ _ s 0 h

/-- Case of `precondition_decides`: the same call with the precondition false and true. -/
example : ((exec progA init [.call 0, .tick, .tick, .cond false, .tick, .tick]).bind (fun r => step progA r.1 (.pre false))).map (·.2) = some [.refuse 0] ∧
    ((exec progA init [.call 0, .tick, .tick, .cond false, .tick, .tick]).bind (fun r => step progA r.1 (.pre true))).map (·.2) = some [.enter 0] := by
  decide +kernel

/-- A monitor with behavior restart fires twice. -/
theorem runSS : ∃ s, Reach (chain (fun _ => [monS]))
    ([.call 0, .poll 0 monS true] ++ .fire 0 monS :: [.handled 0 monS, .restart 0, .enter 0, .leave 0 1, .poll 0 monS true] ++ .fire 0 monS :: [.handled 0 monS, .restart 0, .enter 0]) s :=
  reach_of _ [.call 0, .tick, .tick, .cond true, .tick, .tick, .tick, .pre true, .ret 1, .tick, .tick, .cond true, .tick, .tick, .tick, .pre true] _ (by decide +kernel)

/-- Case of `executions_bounded`: one call, two restarts, two executions (the first start was itself interrupted by a restart). -/
example : enters 0 ([.call 0, .poll 0 monS true] ++ .fire 0 monS :: [.handled 0 monS, .restart 0, .enter 0, .leave 0 1, .poll 0 monS true] ++
      .fire 0 monS :: [.handled 0 monS, .restart 0, .enter 0]) = 2 ∧
    enters 0 ([.call 0, .poll 0 monS true] ++ .fire 0 monS :: [.handled 0 monS, .restart 0, .enter 0, .leave 0 1, .poll 0 monS true] ++
      .fire 0 monS :: [.handled 0 monS, .restart 0, .enter 0]) ≤ 1 + 2 := by
  obtain ⟨s, h⟩ := runSS
  exact ⟨by decide, executions_bounded _ _ s h 0⟩

/-- Case of `executions_per_call`. -/
example : enters 0 ([.poll 0 monS true, .fire 0 monS, .handled 0 monS, .restart 0, .enter 0, .leave 0 1, .poll 0 monS true, .fire 0 monS, .handled 0 monS, .restart 0,
    .enter 0]) ≤ 1 + 0 + 2 := by
  obtain ⟨s, h⟩ := runSS
  exact executions_per_call _ [] [.poll 0 monS true, .fire 0 monS, .handled 0 monS, .restart 0, .enter 0, .leave 0 1, .poll 0 monS true, .fire 0 monS, .handled 0 monS,
    .restart 0, .enter 0] s 0 h

/-- Case of `exceptions_not_nested` and `exception_once`. -/
example : (∃ m'', Ev.handled 0 m'' ∈ [Ev.handled 0 monS, .restart 0, .enter 0, .leave 0 1, .poll 0 monS true]) ∧
    (Ev.call 0 ∈ [Ev.handled 0 monS, .restart 0, .enter 0, .leave 0 1, .poll 0 monS true] ∨
     Ev.restart 0 ∈ [Ev.handled 0 monS, .restart 0, .enter 0, .leave 0 1, .poll 0 monS true]) := by
  obtain ⟨s, h⟩ := runSS
  exact ⟨exceptions_not_nested _ _ _ _ s 0 monS monS h, exception_once _ _ _ _ s 0 monS monS (by decide) h⟩

/-- Case of `handled_after_fire`: before the second `handled` there are two firings and one `handled`. -/
example : ([.call 0, .poll 0 monS true, .fire 0 monS, .handled 0 monS, .restart 0, .enter 0, .leave 0 1, .poll 0 monS true, .fire 0 monS] : List Ev).countP
      (fun e => match e with | .fire o' _ => decide (o' = 0) | _ => false) =
    ([.call 0, .poll 0 monS true, .fire 0 monS, .handled 0 monS, .restart 0, .enter 0, .leave 0 1, .poll 0 monS true, .fire 0 monS] : List Ev).countP
      (fun e => match e with | .handled o' _ => decide (o' = 0) | _ => false) + 1 := by
  obtain ⟨s, h⟩ := runSS
  exact handled_after_fire _ _ [.restart 0, .enter 0] s 0 monS h

/-- Case of `abort_stops_callees_partial`: sequence 1 is called again while the monitor of sequence 0 stays true, and does not execute. -/
example : ∃ s1 s2, ReachW progA (traceA ++ [.handled 0 monA]) s1 ∧ RunW progA s1 [.ret 1 (-1), .call 1, .poll 0 monA true, .ret 1 (-1)] s2 ∧
    ∀ c, 0 ∈ progA.cstack c → Ev.enter c ∉ [Ev.ret 1 (-1), .call 1, .poll 0 monA true, .ret 1 (-1)] := by
  obtain ⟨s1, s2, h1, h2⟩ := runs_of progA runA moreA (traceA ++ [.handled 0 monA]) [.ret 1 (-1), .call 1, .poll 0 monA true, .ret 1 (-1)]
    (by decide +kernel) (by decide +kernel)
  refine ⟨s1, s2, h1, h2, abort_stops_callees_partial progA 0 monA (by decide) ?_ ?_ traceA _ s1 s2 h1 h2 (by simp) (by simp) (by simp)⟩
  · intro c hc _ m hm; simp [progA, chain, hc] at hm
  · intro a ha m hm
    obtain rfl : a = 0 := by have := progA_cstack 0 _ a ha; omega
    simp [progA, chain] at hm; subst hm; decide

/-- Case of `no_null_dereference` and `inactive_idle`: after that run sequence 0 is active in its action, sequence 1 is idle. -/
example : ∃ s, ReachW progA (traceA ++ [.handled 0 monA] ++ [.ret 1 (-1), .call 1, .poll 0 monA true, .ret 1 (-1)]) s ∧
    s.halt ≠ some .nullDeref ∧ ∀ c, c ∉ s.frames.map Frame.id → s.st c = .idle := by
  obtain ⟨s1, s2, h1, h2⟩ := runs_of progA runA moreA (traceA ++ [.handled 0 monA]) [.ret 1 (-1), .call 1, .poll 0 monA true, .ret 1 (-1)]
    (by decide +kernel) (by decide +kernel)
  have h := h1.run h2
  exact ⟨s2, h, no_null_dereference progA _ s2 h, inactive_idle progA _ s2 h⟩

/-- Case of `aborting_returns`: sequence 1, called by sequence 0, is aborting; it leaves its loop and returns. -/
example : ∃ s1 s2, step progA { init with st := fun j => if j = 1 then .aborting else .running, frames := [.loop 1 (-1), .loop 0 (-1)] } .tick = some (s1, []) ∧
    step progA s1 .tick = some (s2, [.ret 1 (-1)]) ∧ s2.frames = [.loop 0 (-1)] ∧ s2.st 1 = .idle :=
  aborting_returns progA _ 1 (-1) [.loop 0 (-1)] rfl rfl rfl

end Verif.Sequencer
