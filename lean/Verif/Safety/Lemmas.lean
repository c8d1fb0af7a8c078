import Verif.Safety.Spec
import Mathlib.Data.List.Induction
namespace Verif.Safety
variable {V : Type}

theorem after_append (c : LevelRef) (pend : List Trig) (o1 o2 : List Obs) :
    after c pend (o1 ++ o2) = after (after c pend o1).1 (after c pend o1).2 o2 := by
  induction o1 generalizing c pend with
  | nil => rfl
  | cons a o ih => cases a <;> simp [after, ih]

theorem legal_append (R : LevelRule) (c : LevelRef) (pend : List Trig) (o1 o2 : List Obs) :
    Legal R c pend (o1 ++ o2) ↔
      Legal R c pend o1 ∧ Legal R (after c pend o1).1 (after c pend o1).2 o2 := by
  induction o1 generalizing c pend with
  | nil => simp [Legal, after]
  | cons a o ih => cases a <;> simp [after, Legal, ih, and_assoc]

theorem legal_mono {R R' : LevelRule} (h : ∀ c pend m, R c pend m → R' c pend m)
    (c : LevelRef) (pend : List Trig) (o : List Obs) : Legal R c pend o → Legal R' c pend o := by
  induction o generalizing c pend with
  | nil => simp [Legal]
  | cons a o ih =>
    cases a <;> simp only [Legal]
    · exact ih _ _
    · exact fun ⟨a, b⟩ => ⟨h _ _ _ a, ih _ _ b⟩
    all_goals exact ih _ _

theorem dest_eq_some {p : Properties V} {c d : LevelRef} {t : Trig} :
    (p.lvl c).dest t.event t.priv = some d ↔ Registered p c t d := by
  unfold Level.dest Registered
  cases h : findTrans (p.lvl c).transitions t.event with
  | none => simp
  | some x =>
    obtain ⟨d', ty⟩ := x
    cases ty <;> cases hp : t.priv <;> simp

/-- The choice `triggerEvent` makes among the current next level and a new destination. -/
def pick (p : Properties V) (c n : LevelRef) (t : Trig) : LevelRef :=
  match (p.lvl c).dest t.event t.priv with
  | none => n
  | some d => if n = c then d else if (p.lvl d).id < (p.lvl n).id then d else n

/-- Exact rule. -/
def exactRule (p : Properties V) : LevelRule := fun c pend m => m = pend.foldl (pick p c) c

/-- The system is alive, with current level `c` and the pending events `pend`. -/
def Inv (p : Properties V) (s : Sys) (c : LevelRef) (pend : List Trig) : Prop :=
  s.cur = some c ∧ s.next = some (pend.foldl (pick p c) c)

/-- `r` succeeds, produces a legal trace, and keeps the invariant. -/
def Sat (p : Properties V) (c : LevelRef) (pend : List Trig) (r : Except Err (Sys × List Obs)) : Prop :=
  ∃ s o, r = .ok (s, o) ∧ Legal (exactRule p) c pend o ∧ Inv p s (after c pend o).1 (after c pend o).2

theorem trigger_sat {p : Properties V} {s : Sys} {c : LevelRef} {pend : List Trig}
    (h : Inv p s c pend) (t : Trig) :
    ∃ s', trigger p s t.event t.priv = .ok s' ∧ Inv p s' c (pend ++ [t]) := by
  obtain ⟨hc, hn⟩ := h
  unfold trigger
  simp only [hc]
  cases hd : (p.lvl c).dest t.event t.priv with
  | none => exact ⟨s, rfl, hc, by simp [hn, pick, hd]⟩
  | some d =>
    simp only [hn, Option.some.injEq]
    split
    · rename_i he
      exact ⟨_, rfl, by simp [Sys.setAct, hc], by simp [Sys.setAct, pick, hd, he]⟩
    · rename_i he
      split
      · rename_i hlt
        exact ⟨_, rfl, by simp [Sys.setAct, hc], by simp [Sys.setAct, pick, hd, he, hlt]⟩
      · rename_i hlt
        exact ⟨_, rfl, hc, by simp [pick, hd, he, hlt, hn]⟩

theorem Sat.pure {p : Properties V} {s c pend} (h : Inv p s c pend) :
    Sat p c pend (.ok (s, [])) := ⟨s, [], rfl, trivial, h⟩

theorem Sat.bind {p : Properties V} {c pend r} {f : Sys × List Obs → Except Err (Sys × List Obs)}
    {k : List Obs → List Obs → List Obs}
    (hr : Sat p c pend r)
    (hf : ∀ s o, Legal (exactRule p) c pend o → Inv p s (after c pend o).1 (after c pend o).2 →
      Sat p c pend (f (s, o))) :
    Sat p c pend (r >>= f) := by
  obtain ⟨s, o, rfl, hl, hi⟩ := hr
  exact hf s o hl hi

theorem triggers_sat {p : Properties V} (ts : List Trig) {s : Sys} {c pend}
    (h : Inv p s c pend) : Sat p c pend (triggers p s ts) := by
  induction ts generalizing s pend with
  | nil => exact Sat.pure h
  | cons t ts ih =>
    obtain ⟨s1, h1, hi⟩ := trigger_sat h t
    obtain ⟨s2, o, h2, hl, hi2⟩ := ih hi
    refine ⟨s2, .trig t :: o, ?_, ?_, ?_⟩
    · simp [triggers, h1, h2, bind, Except.bind, Pure.pure, Except.pure]
    · simpa [Legal] using hl
    · simpa [after] using hi2

/-- Traces that contain neither level assignments nor actions only add pending events. -/
theorem triggers_obs {p : Properties V} (ts : List Trig) {s s' : Sys} {o : List Obs}
    (h : triggers p s ts = .ok (s', o)) : o = ts.map Obs.trig := by
  induction ts generalizing s s' o with
  | nil => simp [triggers] at h; simp [h.2]
  | cons t ts ih =>
    simp only [triggers] at h
    cases h1 : trigger p s t.event t.priv with
    | error e => simp [h1, bind, Except.bind] at h
    | ok s1 =>
      cases h2 : triggers p s1 ts with
      | error e => simp [h1, h2, bind, Except.bind] at h
      | ok r =>
        obtain ⟨s2, o2⟩ := r
        simp [h1, h2, bind, Except.bind, Pure.pure, Except.pure] at h
        have := ih h2
        simp [← h.2, this]

theorem filter_trig (ts : List Trig) : (ts.map Obs.trig).filter Obs.isExec = [] := by
  induction ts with
  | nil => rfl
  | cons a t ih => simpa [Obs.isExec] using ih

theorem nolevel_trig (ts : List Trig) : ∀ x ∈ ts.map Obs.trig, Obs.isLevel x = false := by
  intro x hx
  obtain ⟨t, _, rfl⟩ := List.mem_map.1 hx
  rfl

theorem after_nolevel {o : List Obs} (h : ∀ x ∈ o, Obs.isLevel x = false) (c : LevelRef)
    (pend : List Trig) : (after c pend o).1 = c := by
  induction o generalizing pend with
  | nil => rfl
  | cons a o ih =>
    have h' : ∀ x ∈ o, Obs.isLevel x = false := fun x hx => h x (by simp [hx])
    cases a with
    | level l => have := h (.level l) (by simp); simp [Obs.isLevel] at this
    | _ => exact ih h' _

/-- Full description of a part of the cycle in which the level does not change. -/
def Part (p : Properties V) (c : LevelRef) (pend : List Trig) (ex : List Obs)
    (r : Except Err (Sys × List Obs)) : Prop :=
  ∃ s o, r = .ok (s, o) ∧ Legal (exactRule p) c pend o ∧
    Inv p s c (after c pend o).2 ∧ o.filter Obs.isExec = ex ∧ ∀ x ∈ o, Obs.isLevel x = false

theorem triggers_part {p : Properties V} (ts : List Trig) {s : Sys} {c pend}
    (h : Inv p s c pend) : Part p c pend [] (triggers p s ts) := by
  obtain ⟨s', o, h1, hl, hi⟩ := triggers_sat ts h
  have ho := triggers_obs ts h1
  refine ⟨s', o, h1, hl, ?_, by rw [ho]; exact filter_trig ts, by rw [ho]; exact nolevel_trig ts⟩
  have := after_nolevel (o := o) (by rw [ho]; exact nolevel_trig ts) c pend
  rwa [this] at hi

theorem runInputs_part [CppVal V] {p : Properties V} (env : Env V) (level : LevelRef)
    (l : List (Option (InAct V))) (i : Nat) {s : Sys} {c pend} (h : Inv p s c pend) :
    Part p c pend ((indexed i l).map fun x => Obs.checked level x.1 x.2.input)
      (runInputs p env level i l s) := by
  induction l generalizing i s pend with
  | nil => simpa [runInputs, indexed] using triggers_part _ h
  | cons a l ih =>
    obtain ⟨s1, o1, h1, hl1, hi1, he1, hn1⟩ := triggers_part (pubTrigs (env.beforeIn i)) h
    cases a with
    | none =>
      obtain ⟨s2, o2, h2, hl2, hi2, he2, hn2⟩ := ih (i+1) hi1
      have ha := after_nolevel hn1 c pend
      refine ⟨s2, o1 ++ o2, ?_, ?_, ?_, ?_, ?_⟩
      · simp [runInputs, h1, h2, bind, Except.bind, Pure.pure, Except.pure]
      · rw [legal_append, ha]; exact ⟨hl1, hl2⟩
      · rw [after_append, ha]; exact hi2
      · simp [indexed, he1, he2]
      · intro x hx; rcases List.mem_append.1 hx with hx | hx
        · exact hn1 x hx
        · exact hn2 x hx
    | some ia =>
      obtain ⟨s2, o2, h2, hl2, hi2, he2, hn2⟩ := triggers_part
        (ownTrig (ia.test.eval (env.read i))) hi1
      obtain ⟨s3, o3, h3, hl3, hi3, he3, hn3⟩ := ih (i+1) hi2
      have ha := after_nolevel hn1 c pend
      have ha2 := after_nolevel hn2 c (after c pend o1).2
      refine ⟨s3, o1 ++ (.checked level i ia.input :: o2) ++ o3, ?_, ?_, ?_, ?_, ?_⟩
      · simp only [runInputs, h1, bind, Except.bind, Pure.pure, Except.pure]
        rw [h2]; simp only [h3]
      · simp only [List.append_assoc, List.cons_append]
        rw [legal_append, ha]
        refine ⟨hl1, ?_⟩
        simp only [Legal]
        rw [legal_append, ha2]; exact ⟨hl2, hl3⟩
      · simp only [List.append_assoc, List.cons_append]
        rw [after_append, ha]
        simp only [after]
        rw [after_append, ha2]; exact hi3
      · simp [indexed, he1, he2, he3, Obs.isExec, List.filter_cons]
      · intro x hx
        simp only [List.append_assoc, List.cons_append, List.mem_append, List.mem_cons] at hx
        rcases hx with hx | rfl | hx | hx
        · exact hn1 x hx
        · rfl
        · exact hn2 x hx
        · exact hn3 x hx

theorem runOutputs_part {p : Properties V} (env : Env V) (level : LevelRef)
    (l : List (Option OutputRef)) (i : Nat) {s : Sys} {c pend} (h : Inv p s c pend) :
    Part p c pend ((indexed i l).map fun x => Obs.set level x.1 x.2)
      (runOutputs p env level i l s) := by
  induction l generalizing i s pend with
  | nil => simpa [runOutputs, indexed] using triggers_part _ h
  | cons a l ih =>
    obtain ⟨s1, o1, h1, hl1, hi1, he1, hn1⟩ := triggers_part (pubTrigs (env.beforeOut i)) h
    obtain ⟨s2, o2, h2, hl2, hi2, he2, hn2⟩ := ih (i+1) hi1
    have ha := after_nolevel hn1 c pend
    cases a with
    | none =>
      refine ⟨s2, o1 ++ o2, ?_, ?_, ?_, ?_, ?_⟩
      · simp [runOutputs, h1, h2, bind, Except.bind, Pure.pure, Except.pure]
      · rw [legal_append, ha]; exact ⟨hl1, hl2⟩
      · rw [after_append, ha]; exact hi2
      · simp [indexed, he1, he2]
      · intro x hx; rcases List.mem_append.1 hx with hx | hx
        · exact hn1 x hx
        · exact hn2 x hx
    | some out =>
      refine ⟨s2, o1 ++ (.set level i out :: o2), ?_, ?_, ?_, ?_, ?_⟩
      · simp [runOutputs, h1, h2, bind, Except.bind, Pure.pure, Except.pure]
      · rw [legal_append, ha]; exact ⟨hl1, by simpa [Legal] using hl2⟩
      · rw [after_append, ha]; simpa [after] using hi2
      · simp [indexed, he1, he2, Obs.isExec, List.filter_cons]
      · intro x hx
        simp only [List.mem_append, List.mem_cons] at hx
        rcases hx with hx | rfl | hx
        · exact hn1 x hx
        · rfl
        · exact hn2 x hx

theorem runAction_part {p : Properties V} (env : Env V) (level : LevelRef)
    {s : Sys} {c pend} (h : Inv p s c pend) :
    Part p c pend (if (p.lvl level).hasAction then [Obs.action level] else [])
      (runAction p env level s) := by
  unfold runAction
  split
  · obtain ⟨s1, o1, h1, hl1, hi1, he1, hn1⟩ := triggers_part env.act h
    refine ⟨s1, .action level :: o1, ?_, ?_, ?_, ?_, ?_⟩
    · simp [h1, bind, Except.bind, Pure.pure, Except.pure]
    · simpa [Legal] using hl1
    · simpa [after] using hi1
    · simp [he1, Obs.isExec, List.filter_cons]
    · intro x hx
      rcases List.mem_cons.1 hx with rfl | hx
      · rfl
      · exact hn1 x hx
  · exact ⟨s, [], rfl, trivial, h, rfl, by simp⟩

/-- The trace of a whole cycle. -/
theorem run_shape [CppVal V] {p : Properties V} (env : Env V) {s : Sys} {c pend}
    (h : Inv p s c pend) :
    ∃ s' mid l m, s.next = some l ∧ s'.cur = some m ∧ s'.next = some m ∧
      run p env s = .ok (s', .level l :: (mid ++ [.level m])) ∧
      l = pend.foldl (pick p c) c ∧
      Legal (exactRule p) l [] mid ∧
      m = (after l [] mid).2.foldl (pick p l) l ∧
      mid.filter Obs.isExec = expectedCycle p l ∧
      ∀ x ∈ mid, Obs.isLevel x = false := by
  obtain ⟨hc, hn⟩ := h
  generalize hl : pend.foldl (pick p c) c = l at hn
  have hi0 : Inv p (Sys.setAct { s with cur := some l } l (s.nofAct l + 1)) l [] := by
    simp [Inv, Sys.setAct, hn]
  obtain ⟨s1, o1, h1, hl1, hi1, he1, hn1⟩ :=
    runInputs_part env l (p.lvl l).inputAction 0 hi0
  obtain ⟨s2, o2, h2, hl2, hi2, he2, hn2⟩ := runAction_part env l hi1
  obtain ⟨s3, o3, h3, hl3, hi3, he3, hn3⟩ := runOutputs_part env l (p.lvl l).outputAction 0 hi2
  have a1 := after_nolevel hn1 l []
  have a2 := after_nolevel hn2 l (after l [] o1).2
  refine ⟨{ s3 with cur := s3.next }, o1 ++ o2 ++ o3, l, _, hn, hi3.2, hi3.2, ?_, rfl, ?_, ?_, ?_, ?_⟩
  · unfold run
    simp only [hn] at h1
    simp only [takeNext, hn]
    rw [h1]; simp only [bind, Except.bind, Pure.pure, Except.pure]
    rw [h2]; simp only
    rw [h3]; simp only [hi3.2]
    simp
  · rw [legal_append, legal_append, after_append, a1, a2]
    exact ⟨⟨hl1, hl2⟩, hl3⟩
  · rw [after_append, after_append, a1, a2]
  · simp [he1, he2, he3, expectedCycle]
  · intro x hx
    simp only [List.mem_append] at hx
    rcases hx with (hx | hx) | hx
    · exact hn1 x hx
    · exact hn2 x hx
    · exact hn3 x hx

theorem run_sat [CppVal V] {p : Properties V} (env : Env V) {s : Sys} {c pend}
    (h : Inv p s c pend) : Sat p c pend (run p env s) := by
  obtain ⟨s', mid, l, m, hn, hc', hn', hr, hl, hleg, hm, -, hlev⟩ := run_shape env h
  have a := after_nolevel hlev l []
  refine ⟨s', _, hr, ?_, ?_⟩
  · simp only [Legal]
    refine ⟨hl, ?_⟩
    rw [legal_append, a]
    refine ⟨hleg, ?_⟩
    simp only [Legal]
    exact ⟨hm, trivial⟩
  · simp only [after]
    rw [after_append]
    simp only [after]
    exact ⟨hc', by simpa using hn'⟩

theorem step_sat [CppVal V] {p : Properties V} (op : Op V) {s : Sys} {c pend}
    (h : Inv p s c pend) : Sat p c pend (step p s op) := by
  cases op with
  | trigger e => exact triggers_sat _ h
  | run env => exact run_sat env h

theorem exec_sat [CppVal V] {p : Properties V} (ops : List (Op V)) {s : Sys} {c pend}
    (h : Inv p s c pend) : Sat p c pend (exec p s ops) := by
  induction ops generalizing s c pend with
  | nil => exact Sat.pure h
  | cons op ops ih =>
    obtain ⟨s1, o1, h1, hl1, hi1⟩ := step_sat op h
    obtain ⟨s2, o2, h2, hl2, hi2⟩ := ih hi1
    refine ⟨s2, o1 ++ o2, ?_, ?_, ?_⟩
    · simp [exec, h1, h2, bind, Except.bind, Pure.pure, Except.pure]
    · rw [legal_append]; exact ⟨hl1, hl2⟩
    · rw [after_append]; exact hi2

theorem construct_inv {p : Properties V} {acts s} (h : construct p acts = .ok s) :
    ∃ e, p.entryLevel = some e ∧ verifyLevels p p.levels = .ok () ∧ Inv p s e [] := by
  unfold construct verify at h
  cases hv : verifyLevels p p.levels with
  | error e => simp [hv, bind, Except.bind] at h
  | ok u =>
    cases he : p.entryLevel with
    | none => simp [hv, he, bind, Except.bind, Pure.pure, Except.pure, throw, throwThe, MonadExceptOf.throw] at h
    | some e =>
      simp [hv, he, bind, Except.bind, Pure.pure, Except.pure] at h
      subst h
      exact ⟨e, rfl, rfl, by simp [Inv, Sys.setAct]⟩

/-! ### The exact rule implies the user-level rules -/

theorem foldl_pick_registered (p : Properties V) (c : LevelRef) (pend : List Trig) (n0 : LevelRef) :
    pend.foldl (pick p c) n0 = n0 ∨ ∃ t ∈ pend, Registered p c t (pend.foldl (pick p c) n0) := by
  induction pend generalizing n0 with
  | nil => simp
  | cons t ts ih =>
    simp only [List.foldl_cons]
    rcases ih (pick p c n0 t) with h | ⟨t', ht', h⟩
    · rw [h]
      unfold pick
      cases hd : (p.lvl c).dest t.event t.priv with
      | none => simp
      | some d =>
        have hd' := dest_eq_some.1 hd
        simp only
        split
        · exact Or.inr ⟨t, by simp, hd'⟩
        · split
          · exact Or.inr ⟨t, by simp, hd'⟩
          · simp
    · exact Or.inr ⟨t', by simp [ht'], h⟩

theorem foldl_pick_lowest (p : Properties V) (c : LevelRef) (pend : List Trig) :
    lowestRule p c pend (pend.foldl (pick p c) c) := by
  induction pend using List.reverseRecOn with
  | nil => intro _; simp
  | append_singleton ts t ih =>
    intro hself
    have ih' := ih (fun t ht => hself t (by simp [ht]))
    have ht : ¬ Registered p c t c := hself t (by simp)
    simp only [List.foldl_append, List.foldl_cons, List.foldl_nil]
    generalize ts.foldl (pick p c) c = n at ih'
    unfold pick
    cases hd : (p.lvl c).dest t.event t.priv with
    | none =>
      have hno : ∀ d, ¬ Registered p c t d := by
        intro d hd'; rw [← dest_eq_some] at hd'; simp [hd] at hd'
      simp only
      rcases ih' with ⟨h1, rfl⟩ | ⟨⟨t1, ht1, hr1⟩, h2⟩
      · left
        refine ⟨?_, rfl⟩
        intro t' ht' d
        rcases List.mem_append.1 ht' with h | h
        · exact h1 t' h d
        · simp at h; subst h; exact hno d
      · right
        refine ⟨⟨t1, by simp [ht1], hr1⟩, ?_⟩
        intro t' ht' d hd'
        rcases List.mem_append.1 ht' with h | h
        · exact h2 t' h d hd'
        · simp at h; subst h; exact absurd hd' (hno d)
    | some d =>
      have hd' := dest_eq_some.1 hd
      have huniq : ∀ d', Registered p c t d' → d' = d := by
        intro d' h; rw [← dest_eq_some, hd] at h; simpa using h.symm
      right
      simp only
      rcases ih' with ⟨h1, rfl⟩ | ⟨⟨t1, ht1, hr1⟩, h2⟩
      · simp only [if_true]
        refine ⟨⟨t, by simp, hd'⟩, ?_⟩
        intro t' ht' d2 hd2
        rcases List.mem_append.1 ht' with h | h
        · exact absurd hd2 (h1 t' h d2)
        · simp at h; subst h; rw [huniq _ hd2]; omega
      · have hnc : n ≠ c := by
          rintro rfl; exact hself t1 (by simp [ht1]) hr1
        simp only [hnc, if_false]
        split
        · rename_i hlt
          refine ⟨⟨t, by simp, hd'⟩, ?_⟩
          intro t' ht' d2 hd2
          rcases List.mem_append.1 ht' with h | h
          · have := h2 t' h d2 hd2; omega
          · simp at h; subst h; rw [huniq _ hd2]; omega
        · rename_i hlt
          refine ⟨⟨t1, by simp [ht1], hr1⟩, ?_⟩
          intro t' ht' d2 hd2
          rcases List.mem_append.1 ht' with h | h
          · exact h2 t' h d2 hd2
          · simp at h; subst h; rw [huniq _ hd2]; omega

theorem exact_registered (p : Properties V) (c pend m) (h : exactRule p c pend m) :
    registeredRule p c pend m := by
  unfold exactRule at h; subst h
  exact foldl_pick_registered p c pend c

theorem exact_lowest (p : Properties V) (c pend m) (h : exactRule p c pend m) :
    lowestRule p c pend m := by
  unfold exactRule at h; subst h
  exact foldl_pick_lowest p c pend

/-! ### verify -/

theorem eraseHandled_spec (crit : List Nat) (acts : List (Option Nat)) :
    eraseHandled crit acts = .ok [] → ∀ x ∈ crit, ∃ i, (i, x) ∈ indexed 0 acts := by
  suffices H : ∀ k, eraseHandled crit acts = .ok [] → ∀ x ∈ crit, ∃ i, (i, x) ∈ indexed k acts from H 0
  induction acts generalizing crit with
  | nil =>
    intro k h x hx
    simp [eraseHandled] at h; subst h; simp at hx
  | cons a acts ih =>
    intro k h x hx
    cases a with
    | none => simp [eraseHandled] at h
    | some y =>
      simp only [eraseHandled] at h
      by_cases hxy : x = y
      · subst hxy; exact ⟨k, by simp [indexed]⟩
      · obtain ⟨i, hi⟩ := ih _ (k+1) h x (by simp [hx, hxy])
        exact ⟨i, by simp [indexed, hi]⟩

theorem verifyLevels_spec {p : Properties V} {ls : List LevelRef} (h : verifyLevels p ls = .ok ()) :
    ∀ l ∈ ls, eraseHandled p.criticalOutputs (p.lvl l).outputAction = .ok [] ∧
      eraseHandled p.criticalInputs ((p.lvl l).inputAction.map (Option.map InAct.input)) = .ok [] := by
  induction ls with
  | nil => simp
  | cons r rest ih =>
    simp only [verifyLevels, bind, Except.bind] at h
    cases h1 : eraseHandled p.criticalOutputs (p.lvl r).outputAction with
    | error e => simp [h1] at h
    | ok c1 =>
      simp only [h1] at h
      by_cases hc1 : c1 = []
      · subst hc1
        simp at h
        cases h2 : eraseHandled p.criticalInputs ((p.lvl r).inputAction.map (Option.map InAct.input)) with
        | error e => simp [h2] at h
        | ok c2 =>
          simp only [h2] at h
          by_cases hc2 : c2 = []
          · subst hc2
            simp at h
            intro l hl
            rcases List.mem_cons.1 hl with rfl | hl
            · exact ⟨h1, h2⟩
            · exact ih h l hl
          · simp [hc2, throw, throwThe, MonadExceptOf.throw] at h
      · simp [hc1, throw, throwThe, MonadExceptOf.throw] at h

theorem indexed_map {α β : Type} (f : α → β) (i : Nat) (l : List (Option α)) :
    indexed i (l.map (Option.map f)) = (indexed i l).map (fun x => (x.1, f x.2)) := by
  induction l generalizing i with
  | nil => rfl
  | cons a l ih => cases a <;> simp [indexed, ih]

theorem after_mem_levels {p : Properties V} (hcl : Closed p) {c pend o}
    (hc : c ∈ p.levels) (hl : Legal (exactRule p) c pend o) :
    (after c pend o).1 ∈ p.levels := by
  induction o generalizing c pend with
  | nil => exact hc
  | cons a o ih =>
    cases a with
    | level m =>
      simp only [Legal, after] at hl ⊢
      refine ih ?_ hl.2
      rcases exact_registered p _ _ _ hl.1 with rfl | ⟨t, _, ty, hf, _⟩
      · exact hc
      · exact hcl.2 c hc _ _ _ hf
    | _ => simp only [Legal, after] at hl ⊢; exact ih hc hl

end Verif.Safety
