import Verif.Safety.Props
/-!
C61: the activation counter of a level over whole histories (SafetySystem.cpp:49-71, 81-123): it is zero whenever the level is entered and from then on counts the runs, whatever events are
triggered meanwhile which the level does not know.
-/
namespace Verif.Safety.ActivationCount
open Verif.Safety
variable {V : Type}

/-! ### Specification -/

/-- The number of runs in a history. -/
def runs : List (Op V) → Nat
  | [] => 0
  | .trigger _ :: ops => runs ops
  | .run _ :: ops => runs ops + 1

/-- No event was triggered, by anybody, for which `l` has a transition. -/
def Quiet (p : Properties V) (l : LevelRef) (tr : List Obs) : Prop := ∀ t, Obs.trig t ∈ tr → ∀ d, ¬ Registered p l t d

/-! ### Proofs -/

theorem quiet_append {p : Properties V} {l : LevelRef} {a b : List Obs} (h : Quiet p l (a ++ b)) : Quiet p l a ∧ Quiet p l b :=
  ⟨fun t ht => h t (List.mem_append_left _ ht), fun t ht => h t (List.mem_append_right _ ht)⟩

theorem quiet_cons {p : Properties V} {l : LevelRef} {x : Obs} {b : List Obs} (h : Quiet p l (x :: b)) : Quiet p l b :=
  fun t ht => h t (List.mem_cons_of_mem _ ht)

theorem trigger_quiet {p : Properties V} {s : Sys} {c : LevelRef} (hc : s.cur = some c) (t : Trig) (h : ∀ d, ¬ Registered p c t d) :
    trigger p s t.event t.priv = .ok s := by
  unfold trigger
  simp only [hc]
  cases hd : (p.lvl c).dest t.event t.priv with
  | none => rfl
  | some n =>
    exfalso
    apply h n
    unfold Level.dest at hd
    unfold Registered
    cases hf : findTrans (p.lvl c).transitions t.event with
    | none => simp [hf] at hd
    | some v =>
      obtain ⟨m, ty⟩ := v
      cases ty <;> cases hp : t.priv <;> simp_all

theorem triggers_quiet {p : Properties V} {c : LevelRef} (ts : List Trig) : ∀ {s s' : Sys} {o : List Obs}, s.cur = some c →
    triggers p s ts = .ok (s', o) → Quiet p c o → s' = s := by
  induction ts with
  | nil => intro s s' o hc h _; simp only [triggers, Except.ok.injEq, Prod.mk.injEq] at h; exact h.1.symm
  | cons t ts ih =>
    intro s s' o hc h hq
    simp only [triggers, bind, Except.bind, Pure.pure, Except.pure] at h
    cases h1 : trigger p s t.event t.priv with
    | error e => rw [h1] at h; simp at h
    | ok s1 =>
      rw [h1] at h
      simp only at h
      cases h2 : triggers p s1 ts with
      | error e => rw [h2] at h; simp at h
      | ok r =>
        obtain ⟨s2, o2⟩ := r
        rw [h2] at h
        simp only [Except.ok.injEq, Prod.mk.injEq] at h
        obtain ⟨rfl, rfl⟩ := h
        rw [trigger_quiet hc t (hq t (by simp))] at h1
        simp only [Except.ok.injEq] at h1
        subst h1
        exact ih hc h2 (quiet_cons hq)

/-- Splits a `do` block over `Except`. -/
theorem bind_ok {α β : Type} {m : Except Err α} {f : α → Except Err β} {b : β} (h : (m >>= f) = .ok b) : ∃ a, m = .ok a ∧ f a = .ok b := by
  cases m with
  | error e => simp [bind, Except.bind] at h
  | ok a => exact ⟨a, rfl, h⟩

theorem runInputs_quiet [CppVal V] {p : Properties V} {env : Env V} {level c : LevelRef} (l : List (Option (InAct V))) : ∀ {i : Nat} {s s' : Sys} {o : List Obs}, s.cur = some c →
    runInputs p env level i l s = .ok (s', o) → Quiet p c o → s' = s := by
  induction l with
  | nil => intro i s s' o hc h hq; exact triggers_quiet _ hc h hq
  | cons a l ih =>
    intro i s s' o hc h hq
    cases a with
    | none =>
      simp only [runInputs] at h
      obtain ⟨⟨s1, o1⟩, h1, h⟩ := bind_ok h
      obtain ⟨⟨s2, o2⟩, h2, h⟩ := bind_ok h
      simp only [Pure.pure, Except.pure, Except.ok.injEq, Prod.mk.injEq] at h
      obtain ⟨rfl, rfl⟩ := h
      obtain rfl := triggers_quiet _ hc h1 (quiet_append hq).1
      exact ih hc h2 (quiet_append hq).2
    | some ia =>
      simp only [runInputs] at h
      obtain ⟨⟨s1, o1⟩, h1, h⟩ := bind_ok h
      obtain ⟨⟨s2, o2⟩, h2, h⟩ := bind_ok h
      obtain ⟨⟨s3, o3⟩, h3, h⟩ := bind_ok h
      simp only [Pure.pure, Except.pure, Except.ok.injEq, Prod.mk.injEq] at h
      obtain ⟨rfl, rfl⟩ := h
      obtain ⟨hq', hq3⟩ := quiet_append hq
      obtain ⟨hq1, hq2⟩ := quiet_append hq'
      obtain rfl := triggers_quiet _ hc h1 hq1
      obtain rfl := triggers_quiet _ hc h2 (quiet_cons hq2)
      exact ih hc h3 hq3

theorem runOutputs_quiet {p : Properties V} {env : Env V} {level c : LevelRef} (l : List (Option OutputRef)) : ∀ {i : Nat} {s s' : Sys} {o : List Obs}, s.cur = some c →
    runOutputs p env level i l s = .ok (s', o) → Quiet p c o → s' = s := by
  induction l with
  | nil => intro i s s' o hc h hq; exact triggers_quiet _ hc h hq
  | cons a l ih =>
    intro i s s' o hc h hq
    cases a with
    | none =>
      simp only [runOutputs] at h
      obtain ⟨⟨s1, o1⟩, h1, h⟩ := bind_ok h
      obtain ⟨⟨s2, o2⟩, h2, h⟩ := bind_ok h
      simp only [Pure.pure, Except.pure, Except.ok.injEq, Prod.mk.injEq] at h
      obtain ⟨rfl, rfl⟩ := h
      obtain rfl := triggers_quiet _ hc h1 (quiet_append hq).1
      exact ih hc h2 (quiet_append hq).2
    | some x =>
      simp only [runOutputs] at h
      obtain ⟨⟨s1, o1⟩, h1, h⟩ := bind_ok h
      obtain ⟨⟨s2, o2⟩, h2, h⟩ := bind_ok h
      simp only [Pure.pure, Except.pure, Except.ok.injEq, Prod.mk.injEq] at h
      obtain ⟨rfl, rfl⟩ := h
      obtain rfl := triggers_quiet _ hc h1 (quiet_append hq).1
      exact ih hc h2 (quiet_cons (quiet_append hq).2)

theorem runAction_quiet {p : Properties V} {env : Env V} {level c : LevelRef} {s s' : Sys} {o : List Obs} (hc : s.cur = some c)
    (h : runAction p env level s = .ok (s', o)) (hq : Quiet p c o) : s' = s := by
  unfold runAction at h
  split at h
  · obtain ⟨⟨s1, o1⟩, h1, h⟩ := bind_ok h
    simp only [Pure.pure, Except.pure, Except.ok.injEq, Prod.mk.injEq] at h
    obtain ⟨rfl, rfl⟩ := h
    exact triggers_quiet _ hc h1 (quiet_cons hq)
  · simp only [Pure.pure, Except.pure, Except.ok.injEq, Prod.mk.injEq] at h
    exact h.1.symm

theorem run_quiet [CppVal V] {p : Properties V} {env : Env V} {l : LevelRef} {s s' : Sys} {o : List Obs} (hn : s.next = some l)
    (h : run p env s = .ok (s', o)) (hq : Quiet p l o) : s'.cur = some l ∧ s'.next = some l ∧ s'.nofAct l = s.nofAct l + 1 := by
  unfold run at h
  simp only [takeNext, hn] at h
  obtain ⟨⟨s1, o1⟩, h1, h⟩ := bind_ok h
  obtain ⟨⟨s2, o2⟩, h2, h⟩ := bind_ok h
  obtain ⟨⟨s3, o3⟩, h3, h⟩ := bind_ok h
  simp only [Pure.pure, Except.pure, Except.ok.injEq, Prod.mk.injEq] at h
  obtain ⟨rfl, rfl⟩ := h
  obtain ⟨hq, -⟩ := quiet_append hq
  obtain ⟨hq, hq3⟩ := quiet_append hq
  obtain ⟨hq, hq2⟩ := quiet_append hq
  obtain ⟨-, hq1⟩ := quiet_append hq
  obtain rfl := runInputs_quiet _ (c := l) rfl h1 hq1
  obtain rfl := runAction_quiet (c := l) rfl h2 hq2
  obtain rfl := runOutputs_quiet _ (c := l) rfl h3 hq3
  simp [Sys.setAct, hn]

/-- In a quiet history with the level `n` to be entered or entered already. -/
theorem exec_quiet [CppVal V] {p : Properties V} {c n : LevelRef} (ops : List (Op V)) : ∀ {s s' : Sys} {tr : List Obs}, s.cur = some c → s.next = some n →
    exec p s ops = .ok (s', tr) → Quiet p c tr → Quiet p n tr →
    s'.cur = some (if runs ops = 0 then c else n) ∧ s'.next = some n ∧ s'.nofAct n = s.nofAct n + runs ops := by
  induction ops generalizing c with
  | nil =>
    intro s s' tr hc hn h _ _
    simp only [exec, Except.ok.injEq, Prod.mk.injEq] at h
    obtain ⟨rfl, rfl⟩ := h
    exact ⟨hc, hn, rfl⟩
  | cons op ops ih =>
    intro s s' tr hc hn h hqc hqn
    simp only [exec] at h
    obtain ⟨⟨s1, o1⟩, h1, h⟩ := bind_ok h
    obtain ⟨⟨s2, o2⟩, h2, h⟩ := bind_ok h
    simp only [Pure.pure, Except.pure, Except.ok.injEq, Prod.mk.injEq] at h
    obtain ⟨rfl, rfl⟩ := h
    obtain ⟨a1, a2⟩ := quiet_append hqc
    obtain ⟨b1, b2⟩ := quiet_append hqn
    cases op with
    | trigger e =>
      obtain rfl := triggers_quiet _ hc h1 a1
      exact ih hc hn h2 a2 b2
    | run env =>
      obtain ⟨k1, k2, k3⟩ := run_quiet hn h1 b1
      obtain ⟨j1, j2, j3⟩ := ih k1 k2 h2 b2 b2
      refine ⟨?_, j2, ?_⟩
      · rw [j1]; simp [runs]
      · rw [j3, k3]; simp only [runs]; omega

/-- The level to be entered next has the counter zero. -/
def Fresh (s : Sys) : Prop := ∃ c n, s.cur = some c ∧ s.next = some n ∧ (n = c ∨ s.nofAct n = 0)

/-- The same while the level `l` is executed. -/
def FreshIn (l : LevelRef) (s : Sys) : Prop := s.cur = some l ∧ ∃ n, s.next = some n ∧ (n = l ∨ s.nofAct n = 0)

theorem trigger_fresh {p : Properties V} {l : LevelRef} {s s' : Sys} {e : EventId} {b : Bool} (h : trigger p s e b = .ok s') (hf : FreshIn l s) : FreshIn l s' := by
  obtain ⟨hc, n, hn, h0⟩ := hf
  unfold trigger at h
  simp only [hc] at h
  cases hd : (p.lvl l).dest e b with
  | none => rw [hd] at h; simp only [Except.ok.injEq] at h; subst h; exact ⟨hc, n, hn, h0⟩
  | some d =>
    rw [hd] at h
    simp only [hn] at h
    split at h
    · simp only [Except.ok.injEq] at h; subst h; exact ⟨rfl, d, rfl, Or.inr (by simp [Sys.setAct])⟩
    · split at h
      · simp only [Except.ok.injEq] at h; subst h; exact ⟨rfl, d, rfl, Or.inr (by simp [Sys.setAct])⟩
      · simp only [Except.ok.injEq] at h; subst h; exact ⟨hc, n, hn, h0⟩

theorem triggers_fresh {p : Properties V} {l : LevelRef} (ts : List Trig) : ∀ {s s' : Sys} {o : List Obs}, triggers p s ts = .ok (s', o) → FreshIn l s → FreshIn l s' := by
  induction ts with
  | nil => intro s s' o h hf; simp only [triggers, Except.ok.injEq, Prod.mk.injEq] at h; exact h.1 ▸ hf
  | cons t ts ih =>
    intro s s' o h hf
    simp only [triggers] at h
    obtain ⟨s1, h1, h⟩ := bind_ok h
    obtain ⟨⟨s2, o2⟩, h2, h⟩ := bind_ok h
    simp only [Pure.pure, Except.pure, Except.ok.injEq, Prod.mk.injEq] at h
    obtain ⟨rfl, rfl⟩ := h
    exact ih h2 (trigger_fresh h1 hf)

theorem runInputs_fresh [CppVal V] {p : Properties V} {env : Env V} {level l : LevelRef} (xs : List (Option (InAct V))) : ∀ {i : Nat} {s s' : Sys} {o : List Obs},
    runInputs p env level i xs s = .ok (s', o) → FreshIn l s → FreshIn l s' := by
  induction xs with
  | nil => intro i s s' o h hf; exact triggers_fresh _ h hf
  | cons a xs ih =>
    intro i s s' o h hf
    cases a with
    | none =>
      simp only [runInputs] at h
      obtain ⟨⟨s1, o1⟩, h1, h⟩ := bind_ok h
      obtain ⟨⟨s2, o2⟩, h2, h⟩ := bind_ok h
      simp only [Pure.pure, Except.pure, Except.ok.injEq, Prod.mk.injEq] at h
      obtain ⟨rfl, rfl⟩ := h
      exact ih h2 (triggers_fresh _ h1 hf)
    | some ia =>
      simp only [runInputs] at h
      obtain ⟨⟨s1, o1⟩, h1, h⟩ := bind_ok h
      obtain ⟨⟨s2, o2⟩, h2, h⟩ := bind_ok h
      obtain ⟨⟨s3, o3⟩, h3, h⟩ := bind_ok h
      simp only [Pure.pure, Except.pure, Except.ok.injEq, Prod.mk.injEq] at h
      obtain ⟨rfl, rfl⟩ := h
      exact ih h3 (triggers_fresh _ h2 (triggers_fresh _ h1 hf))

theorem runOutputs_fresh {p : Properties V} {env : Env V} {level l : LevelRef} (xs : List (Option OutputRef)) : ∀ {i : Nat} {s s' : Sys} {o : List Obs},
    runOutputs p env level i xs s = .ok (s', o) → FreshIn l s → FreshIn l s' := by
  induction xs with
  | nil => intro i s s' o h hf; exact triggers_fresh _ h hf
  | cons a xs ih =>
    intro i s s' o h hf
    cases a <;>
    · simp only [runOutputs] at h
      obtain ⟨⟨s1, o1⟩, h1, h⟩ := bind_ok h
      obtain ⟨⟨s2, o2⟩, h2, h⟩ := bind_ok h
      simp only [Pure.pure, Except.pure, Except.ok.injEq, Prod.mk.injEq] at h
      obtain ⟨rfl, rfl⟩ := h
      exact ih h2 (triggers_fresh _ h1 hf)

theorem runAction_fresh {p : Properties V} {env : Env V} {level l : LevelRef} {s s' : Sys} {o : List Obs} (h : runAction p env level s = .ok (s', o)) (hf : FreshIn l s) : FreshIn l s' := by
  unfold runAction at h
  split at h
  · obtain ⟨⟨s1, o1⟩, h1, h⟩ := bind_ok h
    simp only [Pure.pure, Except.pure, Except.ok.injEq, Prod.mk.injEq] at h
    obtain ⟨rfl, rfl⟩ := h
    exact triggers_fresh _ h1 hf
  · simp only [Pure.pure, Except.pure, Except.ok.injEq, Prod.mk.injEq] at h
    exact h.1 ▸ hf

/-- A run: the level it ends with is the executed one or has the counter zero. -/
theorem run_fresh [CppVal V] {p : Properties V} {env : Env V} {l : LevelRef} {s s' : Sys} {o : List Obs} (hn : s.next = some l)
    (h : run p env s = .ok (s', o)) : ∃ m, s'.cur = some m ∧ s'.next = some m ∧ (m = l ∨ s'.nofAct m = 0) := by
  unfold run at h
  simp only [takeNext, hn] at h
  obtain ⟨⟨s1, o1⟩, h1, h⟩ := bind_ok h
  obtain ⟨⟨s2, o2⟩, h2, h⟩ := bind_ok h
  obtain ⟨⟨s3, o3⟩, h3, h⟩ := bind_ok h
  simp only [Pure.pure, Except.pure, Except.ok.injEq, Prod.mk.injEq] at h
  obtain ⟨rfl, rfl⟩ := h
  have hf : FreshIn l (Sys.setAct { s with cur := some l } l (s.nofAct l + 1)) := ⟨rfl, l, hn, Or.inl rfl⟩
  rw [← hn] at hf
  obtain ⟨-, m, hm, h0⟩ := runOutputs_fresh _ h3 (runAction_fresh h2 (runInputs_fresh _ h1 (by simpa [hn] using hf)))
  simp only [hm]
  exact ⟨m, rfl, rfl, h0⟩

theorem exec_fresh [CppVal V] {p : Properties V} (ops : List (Op V)) : ∀ {s s' : Sys} {tr : List Obs}, exec p s ops = .ok (s', tr) → Fresh s → Fresh s' := by
  induction ops with
  | nil => intro s s' tr h hf; simp only [exec, Except.ok.injEq, Prod.mk.injEq] at h; exact h.1 ▸ hf
  | cons op ops ih =>
    intro s s' tr h hf
    simp only [exec] at h
    obtain ⟨⟨s1, o1⟩, h1, h⟩ := bind_ok h
    obtain ⟨⟨s2, o2⟩, h2, h⟩ := bind_ok h
    simp only [Pure.pure, Except.pure, Except.ok.injEq, Prod.mk.injEq] at h
    obtain ⟨rfl, rfl⟩ := h
    obtain ⟨c, n, hc, hn, h0⟩ := hf
    refine ih h2 ?_
    cases op with
    | trigger e =>
      obtain ⟨hc', n', hn', h0'⟩ := triggers_fresh _ h1 (⟨hc, n, hn, h0⟩ : FreshIn c s)
      exact ⟨c, n', hc', hn', h0'⟩
    | run env =>
      obtain ⟨m, hm, hm', -⟩ := run_fresh hn h1
      exact ⟨m, m, hm, hm', Or.inl rfl⟩

theorem construct_fresh {p : Properties V} {acts : LevelRef → Nat} {s : Sys} (h : construct p acts = .ok s) : ∃ e, s.cur = some e ∧ s.next = some e ∧ s.nofAct e = 0 := by
  unfold construct at h
  obtain ⟨b, -, h⟩ := bind_ok h
  split at h
  · split at h
    · rename_i e he
      simp only [Pure.pure, Except.pure, Except.ok.injEq] at h
      subst h
      exact ⟨e, rfl, rfl, by simp [Sys.setAct]⟩
    · simp [throw, throwThe, MonadExceptOf.throw] at h
  · simp [throw, throwThe, MonadExceptOf.throw] at h

/-! ### The property theorems -/

/-- C61.  From the construction on: while nobody triggers an event which the entry level knows, its counter is the number of runs. -/
theorem count_from_start [CppVal V] (p : Properties V) (acts : LevelRef → Nat) (s0 s : Sys) (h : construct p acts = .ok s0) (ops : List (Op V)) (tr : List Obs)
    (hx : exec p s0 ops = .ok (s, tr)) (e : LevelRef) (he : s0.cur = some e) (hq : Quiet p e tr) : s.cur = some e ∧ s.nofAct e = runs ops := by
  obtain ⟨e', h1, h2, h3⟩ := construct_fresh h
  obtain rfl : e' = e := by rw [h1] at he; simpa using he
  obtain ⟨k1, -, k3⟩ := exec_quiet ops h1 h2 hx hq hq
  exact ⟨by rw [k1]; split <;> rfl, by rw [k3, h3, Nat.zero_add]⟩

/-- C61.  After any history `ops`, a level `n` other than the current level `c` being requested: if then no event is triggered which `c` or `n` knows, the next run enters `n`, and its counter is
always the number of the runs since. -/
theorem count_from_request [CppVal V] (p : Properties V) (acts : LevelRef → Nat) (s0 s1 s : Sys) (h : construct p acts = .ok s0) (ops ops2 : List (Op V)) (tr1 tr2 : List Obs)
    (hx1 : exec p s0 ops = .ok (s1, tr1)) (c n : LevelRef) (hc : s1.cur = some c) (hn : s1.next = some n) (hne : n ≠ c)
    (hx2 : exec p s1 ops2 = .ok (s, tr2)) (hqc : Quiet p c tr2) (hqn : Quiet p n tr2) :
    s.cur = some (if runs ops2 = 0 then c else n) ∧ s.nofAct n = runs ops2 := by
  obtain ⟨e, h1, h2, -⟩ := construct_fresh h
  obtain ⟨c', n', hc', hn', h0⟩ := exec_fresh ops hx1 ⟨e, e, h1, h2, Or.inl rfl⟩
  obtain rfl : c' = c := by rw [hc'] at hc; simpa using hc
  obtain rfl : n' = n := by rw [hn'] at hn; simpa using hn
  obtain ⟨k1, -, k3⟩ := exec_quiet ops2 hc' hn' hx2 hqc hqn
  exact ⟨k1, by rw [k3, h0.resolve_left hne, Nat.zero_add]⟩

/-- C61.  In any state: if a run which executes the level `l` ends with another level `m`, because of its input actions, its level action or other threads, and then no event is triggered which
`m` knows, the counter of `m` is always the number of the runs since. -/
theorem count_from_entry [CppVal V] (p : Properties V) (s1 s2 s : Sys) (ops2 : List (Op V)) (env : Env V) (o tr2 : List Obs) (l m : LevelRef) (hl : s1.next = some l) (hr : exec p s1 [.run env] = .ok (s2, o)) (hm : s2.cur = some m) (hne : m ≠ l)
    (hx2 : exec p s2 ops2 = .ok (s, tr2)) (hq : Quiet p m tr2) : s.cur = some m ∧ s.nofAct m = runs ops2 := by
  simp only [exec] at hr
  obtain ⟨⟨s3, o3⟩, h3, hr⟩ := bind_ok hr
  simp only [bind, Except.bind, Pure.pure, Except.pure, Except.ok.injEq, Prod.mk.injEq] at hr
  obtain ⟨rfl, -⟩ := hr
  obtain ⟨m', k1, k2, k3⟩ := run_fresh hl h3
  obtain rfl : m' = m := by rw [k1] at hm; simpa using hm
  obtain ⟨j1, -, j3⟩ := exec_quiet ops2 k1 k2 hx2 hq hq
  exact ⟨by rw [j1]; split <;> rfl, by rw [j3, k3.resolve_left hne, Nat.zero_add]⟩

/-! ### Cases -/

/-- A cycle in which the level action triggers nothing and another thread triggers event 3, which no level knows. -/
def idleEnv : Env Bool := { read := fun _ => true, act := [], beforeIn := fun i => if i = 0 then [3] else [], beforeOut := fun _ => [] }

theorem quiet_of (p : Properties V) (l : LevelRef) (tr : List Obs) (h : ∀ x ∈ tr, ∀ t, x = Obs.trig t → findTrans (p.lvl l).transitions t.event = none) : Quiet p l tr := by
  rintro t ht d ⟨ty, hf, -⟩
  rw [h _ ht t rfl] at hf
  simp at hf

theorem quiet_dec (p : Properties V) (l : LevelRef) (tr : List Obs)
    (h : tr.all (fun x => match x with | .trig t => (findTrans (p.lvl l).transitions t.event).isNone | _ => true) = true) : Quiet p l tr := by
  refine quiet_of p l tr fun x hx t hxt => ?_
  subst hxt
  simpa using List.all_eq_true.1 h _ hx

/-- Case of `count_from_start`: two runs and foreign events in the entry level 2. -/
example : ∃ s0 s tr, construct demo' (fun _ => 9) = .ok s0 ∧ s0.cur = some 2 ∧ exec demo' s0 [.run idleEnv, .trigger 3, .run idleEnv] = .ok (s, tr) ∧ Quiet demo' 2 tr ∧ s.nofAct 2 = 2 :=
  ⟨_, _, _, rfl, rfl, rfl, quiet_dec _ _ _ (by decide), by decide⟩

/-- Case of `count_from_request`: event 7 requests level 1, which is then run three times. -/
example : ∃ s0 s1 s tr1 tr2, construct demo' (fun _ => 9) = .ok s0 ∧ exec demo' s0 [.run idleEnv, .trigger 7] = .ok (s1, tr1) ∧ s1.cur = some 2 ∧ s1.next = some 1 ∧
    exec demo' s1 [.run idleEnv, .run idleEnv, .trigger 3, .run idleEnv] = .ok (s, tr2) ∧ Quiet demo' 2 tr2 ∧ Quiet demo' 1 tr2 ∧ s.nofAct 1 = 3 :=
  ⟨_, _, _, _, _, rfl, rfl, rfl, rfl, rfl, quiet_dec _ _ _ (by decide), quiet_dec _ _ _ (by decide), by decide⟩

/-- Case of `count_from_entry`: the failed check of level 2 leads to level 0, which is then run twice. -/
example : ∃ s0 s2 s o tr2, construct demo' (fun _ => 9) = .ok s0 ∧ s0.next = some 2 ∧ exec demo' s0 [.run (demoEnv false)] = .ok (s2, o) ∧ s2.cur = some 0 ∧
    exec demo' s2 [.run idleEnv, .trigger 7, .run idleEnv] = .ok (s, tr2) ∧ Quiet demo' 0 tr2 ∧ s.nofAct 0 = 2 :=
  ⟨_, _, _, _, _, rfl, rfl, rfl, rfl, rfl, quiet_dec _ _ _ (by decide), by decide⟩

end Verif.Safety.ActivationCount
