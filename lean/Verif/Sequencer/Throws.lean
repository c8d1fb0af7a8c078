import Verif.Sequencer.Witness
/-!
Exceptions thrown by user code in the sequencer (C228).

The custom `action` (BaseSequence.cpp:44), preconditions (41), exit conditions (53) and monitor conditions (122) are code of the user and may throw.  There is
no `try` in src/sequencer, so the exception unwinds `BaseSequence::action`, `checkMonitors` and `checkMonitor` up to a custom action of a caller which
catches it, or out of the thread (`std::async` stores it in the future, Sequence.cpp:53).  The lock guard (31) releases the mutex of every sequence which is
unwound; `state` (75) and `inExcProcessing` (133) are set by plain statements and keep their values.

Simplified: as in `Machine.lean`; which activation catches the exception is chosen freely.
-/
namespace Verif.Sequencer.Throws

/-- The thread runs code of the user: the custom action, a precondition (41), an exit condition (53) or the condition of a monitor (122). -/
def InUser (s : M) : Frame → Prop
  | .body _ => True
  | .loop i _ => s.st i = .starting
  | .exit _ _ => True
  | .check k => ∃ o os m ms, k.os = o :: os ∧ k.ms = some (m :: ms)
  | .exc _ _ _ => False

/-- Code of the user throws.  All activations above the custom action which catches the exception are left; `[]`: nobody catches it. -/
inductive Throw (s : M) : M → Prop where
  | mk (f : Frame) (fs l : List Frame) : s.halt = none → s.frames = f :: fs → InUser s f → l <:+ fs → (l = [] ∨ ∃ i gs, l = .body i :: gs) →
      Throw s { s with frames := l }

/-- Runs from a state with exceptions; every sequence called has all its callers active. -/
inductive RunT (P : Prog) (s0 : M) : List Ev → M → Prop where
  | refl : RunT P s0 [] s0
  | step (tr s x s' ev) : RunT P s0 tr s → step P s x = some (s', ev) →
      (∀ j, .call j ∈ ev → ∀ c ∈ P.cstack j, c ≠ j → c ∈ s.frames.map Frame.id) → RunT P s0 (tr ++ ev) s'
  | throw (tr s s') : RunT P s0 tr s → Throw s s' → RunT P s0 tr s'

/-! ### Invariant -/

/-- Effects on the top frame only. -/
theorem weak_top {P : Prog} {s s' : M} (h : Weak P s) {f0 f1 : Frame} {fs : List Frame} (hf : s.frames = f0 :: fs) (hf' : s'.frames = f1 :: fs)
    (hid : f1.id = f0.id) (hin : s'.inExc = s.inExc) (hfi : ∀ o, s'.fired o = true → s'.active o ≠ none) (hsh : Shape P f1)
    (hex : ∀ k o m, f1 ≠ .exc k o m)
    (htop : ∀ k o os l, f1 = .check k → k.os = o :: os → k.ms = some l → s.inExc o = false) : Weak P s' := by
  have hn := h.nodup
  rw [hf] at hn
  refine ⟨by rw [hf']; simpa [hid] using hn, by have := h.tail; rw [hf] at this; rw [hf']; exact this, ?_, ?_, ?_, hfi⟩
  · intro f hfm
    rw [hf'] at hfm
    rcases List.mem_cons.1 hfm with rfl | hfm
    · exact hsh
    · exact h.shape f (by rw [hf]; simp [hfm])
  · intro o
    have hc := h.count o
    rw [hin, hf']
    rw [hf] at hc
    refine Nat.le_trans ?_ hc
    unfold excOf
    rw [List.countP_cons, List.countP_cons]
    cases f1 with
    | exc k o m => exact absurd rfl (hex k o m)
    | _ => simp
  · intro k gs o os l h1 h2 h3
    rw [hf'] at h1
    simp only [List.cons.injEq] at h1
    rw [hin]
    exact htop k o os l h1.1 h2 h3

theorem weak_init (P : Prog) : Weak P init :=
  ⟨by simp [init], by simp [init], by simp [init], by simp [init, excOf], by simp [init], by simp [init]⟩

theorem weak_micro (P : Prog) (s s' : M) (ev : List Ev) (h : Weak P s) (hm : Micro P s s' ev) : Weak P s' := by
  have hclear : ∀ i o, upd s.fired i false o = true → upd s.active i none o ≠ none := by
    intro i o ho
    by_cases hoi : o = i
    · subst hoi; simp [upd] at ho
    · rw [upd_other _ _ _ _ hoi] at ho ⊢; exact h.fired o ho
  cases hm with
  | call j hc hj =>
    refine ⟨by simpa using ⟨by simpa [Frame.id] using hj, h.nodup⟩, ?_, ?_, ?_, by intro k fs o os l h1; simp at h1, h.fired⟩
    · intro f hf
      simp only [List.tail_cons] at hf
      cases hfr : s.frames with
      | nil => rw [hfr] at hf; cases hf
      | cons g gs =>
        rw [hfr] at hf hc
        rcases List.mem_cons.1 hf with rfl | hf
        · cases f <;> first | trivial | exact hc.elim
        · exact h.tail f (by rw [hfr]; exact hf)
    · intro f hf
      rcases List.mem_cons.1 hf with rfl | hf
      · trivial
      · exact h.shape f hf
    · intro o; have := h.count o; simpa [excOf] using this
  | dead => exact ⟨h.nodup, h.tail, h.shape, h.count, h.top, h.fired⟩
  | spawn j => exact h
  | leave i fs v hf => exact weak_top h hf rfl rfl rfl h.fired trivial (by simp) (by simp)
  | idle i r fs hf hs =>
    exact weak_top h hf rfl rfl rfl (hclear i) ⟨List.suffix_refl _, by simp [newCheck]⟩ (by simp) (by rintro k o os l h1 - h3; cases h1; cases h3)
  | enter i r fs hf hs => exact weak_top h hf rfl rfl rfl h.fired trivial (by simp) (by simp)
  | refuse i r fs hf hs => exact weak_top h hf hf rfl rfl h.fired trivial (by simp) (by simp)
  | run i r fs hf hs =>
    exact weak_top h hf rfl rfl rfl h.fired ⟨List.suffix_refl _, by simp [newCheck]⟩ (by simp) (by rintro k o os l h1 - h3; cases h1; cases h3)
  | abort i r fs hf hs => exact weak_top h hf hf rfl rfl h.fired trivial (by simp) (by simp)
  | restart i r fs hf hs => exact weak_top h hf hf rfl rfl (hclear i) trivial (by simp) (by simp)
  | ret i r fs hf hs =>
    have hn := h.nodup
    have ht := h.tail
    rw [hf] at hn ht
    refine ⟨(List.nodup_cons.1 hn).2, fun f hfm => ht f (List.mem_of_mem_tail hfm), fun f hfm => h.shape f (by rw [hf]; simp [hfm]), ?_, ?_, h.fired⟩
    · intro o; have := h.count o; rw [hf] at this; simpa [excOf] using this
    · intro k gs o os l h1 h2 h3
      simp only at h1
      exact (ht (.check k) (by rw [h1]; simp)).elim
  | exitTrue i r fs hf => exact weak_top h hf rfl rfl rfl h.fired trivial (by simp) (by simp)
  | exitFalse i r fs hf => exact weak_top h hf rfl rfl rfl h.fired trivial (by simp) (by simp)
  | after k o m fs hf =>
    obtain ⟨hsk1, ⟨os, l, hos, hms, hl⟩, hact, hmm⟩ := h.shape (.exc k o m) (by rw [hf]; simp)
    have hn := h.nodup
    have ht := h.tail
    rw [hf] at hn ht
    have hfr : (afterExc s k o m fs).1.frames = .check k :: fs := by cases hb : m.beh <;> simp [afterExc, hb]
    have hin : (afterExc s k o m fs).1.inExc = upd s.inExc o false := by cases hb : m.beh <;> simp [afterExc, hb]
    have hac : (afterExc s k o m fs).1.active = s.active := by cases hb : m.beh <;> simp [afterExc, hb]
    refine ⟨by rw [hfr]; simpa [Frame.id] using hn, by rw [hfr]; exact ht, ?_, ?_, ?_, ?_⟩
    · rw [hfr]
      intro f hfm
      rcases List.mem_cons.1 hfm with rfl | hfm
      · refine ⟨hsk1, ?_⟩
        intro l' hl'
        rw [hms] at hl'
        simp only [Option.some.injEq] at hl'
        exact ⟨o, os, hos, hl' ▸ hl⟩
      · exact h.shape f (by rw [hf]; simp [hfm])
    · intro o'
      have hc := h.count o'
      rw [hf] at hc
      rw [hfr, hin]
      unfold excOf at hc ⊢
      rw [List.countP_cons] at hc ⊢
      by_cases hoo : o = o'
      · subst hoo
        rw [upd_same]
        simp only [decide_true, if_true] at hc
        have : (s.inExc o).toNat ≤ 1 := Bool.toNat_le _
        simp only [Bool.false_eq_true, if_false, Bool.toNat_false]
        omega
      · rw [upd_other _ _ _ _ (Ne.symm hoo)]
        simpa [hoo] using hc
    · intro k' gs o' os' l' h1 h2 h3
      rw [hfr] at h1
      simp only [List.cons.injEq, Frame.check.injEq] at h1
      rw [← h1.1, hos] at h2
      simp only [List.cons.injEq] at h2
      rw [hin, ← h2.1, upd_same]
    · intro o' ho'
      rw [hac]
      apply h.fired
      cases hb : m.beh <;> simp only [afterExc, hb] at ho'
      · by_cases hoo : o' = o
        · subst hoo; simp [upd] at ho'
        · rwa [upd_other _ _ _ _ hoo] at ho'
      · exact ho'
      · exact ho'
  | finish k fs hf hos =>
    rcases finish_cases P s k fs with he | ⟨f, hff, h1, h2, h3, h4, -⟩
    · rw [he]; exact ⟨h.nodup, h.tail, h.shape, h.count, h.top, h.fired⟩
    · refine weak_top h hf h1 (by rcases hff with rfl | rfl <;> rfl) h4 (by rw [h2, h3]; exact h.fired) (by rcases hff with rfl | rfl <;> trivial)
        (by rcases hff with rfl | rfl <;> simp) (by rcases hff with rfl | rfl <;> simp)
  | skip k fs o os hf ho hms hi =>
    have hsh := h.shape (.check k) (by rw [hf]; simp)
    rw [Shape, ho] at hsh
    exact weak_top h hf rfl rfl rfl h.fired ⟨(List.suffix_cons o os).trans hsh.1, by simp [hms]⟩ (by simp)
      (by rintro k' o' os' l h1 - h3; cases h1; simp only [hms] at h3; cases h3)
  | opn k fs o os hf ho hms hi =>
    have hsh := h.shape (.check k) (by rw [hf]; simp)
    refine weak_top h hf rfl rfl rfl h.fired ⟨hsh.1, ?_⟩ (by simp) ?_
    · intro l hl
      simp only [Option.some.injEq] at hl
      exact ⟨o, os, ho, by rw [← hl]; exact fun _ hm => hm⟩
    · rintro k' o' os' l h1 h2 -
      cases h1
      simp only [ho, List.cons.injEq] at h2
      rw [← h2.1]; exact hi
  | next k fs o os hf ho hms =>
    have hsh := h.shape (.check k) (by rw [hf]; simp)
    rw [Shape, ho] at hsh
    exact weak_top h hf rfl rfl rfl h.fired ⟨(List.suffix_cons o os).trans hsh.1, by simp⟩ (by simp)
      (by rintro k' o' os' l h1 - h3; cases h1; cases h3)
  | pollFalse k fs o os m ms hf ho hms =>
    have hsh := h.shape (.check k) (by rw [hf]; simp)
    have htop := h.top k fs o os _ hf ho hms
    refine weak_top h hf rfl rfl rfl h.fired ⟨hsh.1, ?_⟩ (by simp) ?_
    · intro l hl
      obtain ⟨o', os', h1, h2⟩ := hsh.2 _ hms
      simp only [Option.some.injEq] at hl
      exact ⟨o', os', h1, fun m' hm' => h2 m' (by rw [← hl] at hm'; simp [hm'])⟩
    · rintro k' o' os' l h1 h2 -
      cases h1
      simp only [ho, List.cons.injEq] at h2
      rw [← h2.1]; exact htop
  | pollFired k fs o os m ms hf ho hms hfd =>
    have hsh := h.shape (.check k) (by rw [hf]; simp)
    have htop := h.top k fs o os _ hf ho hms
    refine weak_top h hf rfl rfl rfl h.fired ⟨hsh.1, ?_⟩ (by simp) ?_
    · intro l hl
      obtain ⟨o', os', h1, h2⟩ := hsh.2 _ hms
      simp only [Option.some.injEq] at hl
      exact ⟨o', os', h1, fun m' hm' => h2 m' (by rw [← hl] at hm'; simp [hm'])⟩
    · rintro k' o' os' l h1 h2 -
      cases h1
      simp only [ho, List.cons.injEq] at h2
      rw [← h2.1]; exact htop
  | fire k fs o os m ms hf ho hms hfd =>
    have hsh := h.shape (.check k) (by rw [hf]; simp)
    have htop := h.top k fs o os _ hf ho hms
    have hn := h.nodup
    have ht := h.tail
    rw [hf] at hn ht
    refine ⟨by simpa [Frame.id] using hn, ht, ?_, ?_, by intro k' gs o' os' l' h1; simp at h1, ?_⟩
    · intro f hfm
      rcases List.mem_cons.1 hfm with rfl | hfm
      · obtain ⟨o', os', h1, h2⟩ := hsh.2 _ hms
        rw [ho] at h1
        simp only [List.cons.injEq] at h1
        obtain ⟨rfl, rfl⟩ := h1
        exact ⟨hsh.1, ⟨os, ms, ho, rfl, fun m' hm' => h2 m' (by simp [hm'])⟩, rfl, h2 m (by simp)⟩
      · exact h.shape f (by rw [hf]; simp [hfm])
    · intro o'
      have hc := h.count o'
      rw [hf] at hc
      unfold excOf at hc ⊢
      rw [List.countP_cons] at hc ⊢
      change _ ≤ (upd s.inExc o true o').toNat
      by_cases hoo : o = o'
      · subst hoo
        rw [upd_same]
        rw [htop] at hc
        simp only [decide_true, if_true, Bool.toNat_false, Bool.toNat_true, Bool.false_eq_true, if_false] at hc ⊢
        omega
      · rw [upd_other _ _ _ _ (Ne.symm hoo)]
        simpa [hoo] using hc
    · intro o' ho'
      by_cases hoo : o' = o
      · subst hoo; simp [upd]
      · simp only [upd_other _ _ _ _ hoo] at ho' ⊢; exact h.fired o' ho'

/-- The invariant, with and without exceptions. -/
structure TInv (P : Prog) (s : M) : Prop where
  w : Weak P s
  n : NInv P s

theorem nest_suffix {P : Prog} {l fs : List Frame} (h : Nest P fs) (hl : l <:+ fs) : Nest P l := by
  obtain ⟨p, rfl⟩ := hl
  induction p with
  | nil => exact h
  | cons f p ih => exact ih h.2

theorem tinv_throw {P : Prog} {s s' : M} (h : TInv P s) (ht : Throw s s') : TInv P s' := by
  obtain ⟨f, fs, l, hh, hf, hu, hl, hb⟩ := ht
  have hsub : l <:+ s.frames := by rw [hf]; exact hl.trans (List.suffix_cons f fs)
  refine ⟨⟨?_, ?_, fun g hg => h.w.shape g (hsub.subset hg), ?_, ?_, h.w.fired⟩, ⟨nest_suffix h.n.nest hsub, ?_, h.n.halt⟩⟩
  · exact h.w.nodup.sublist (hsub.sublist.map _)
  · intro g hg
    have ht := h.w.tail
    rw [hf] at ht
    exact ht g (hl.subset (List.mem_of_mem_tail hg))
  · intro o
    exact Nat.le_trans (hsub.sublist.countP_le) (h.w.count o)
  · intro k gs o os l' h1
    simp only at h1
    rcases hb with rfl | ⟨i, hs, rfl⟩ <;> simp at h1
  · intro g hg
    exact okf_congr rfl rfl (h.n.ok g (hsub.subset hg))

theorem tinv_step {P : Prog} {s s' : M} {x : Inp} {ev : List Ev} (h : TInv P s) (hs : step P s x = some (s', ev))
    (hw : ∀ j, .call j ∈ ev → ∀ c ∈ P.cstack j, c ≠ j → c ∈ s.frames.map Frame.id) : TInv P s' := by
  rcases stepW P s s' x ev hs hw with ⟨h1, h2⟩ | ⟨s1, ev1, ev2, h1, h2, h3, h4, rfl⟩
  · exact ⟨weak_micro P s s' ev h.w h1, ninv_micro P s s' ev h.w h.n h1 h2⟩
  · have w1 := weak_micro P s s1 ev1 h.w h1
    exact ⟨weak_micro P s1 s' ev2 w1 h3, ninv_micro P s1 s' ev2 w1 (ninv_micro P s s1 ev1 h.w h.n h1 h2) h3 h4⟩

theorem run_tinv {P : Prog} {s0 s : M} {tr : List Ev} (h0 : TInv P s0) (h : RunT P s0 tr s) : TInv P s := by
  induction h with
  | refl => exact h0
  | step tr s x s' ev _ hs hw ih => exact tinv_step ih hs hw
  | throw tr s s' _ ht ih => exact tinv_throw ih ht

theorem tinv_init (P : Prog) : TInv P init := ⟨weak_init P, ninv_init P⟩

/-! ### What still holds -/

/-- Also with exceptions of user code the active monitor is never dereferenced while null. -/
theorem no_null_partial (P : Prog) (tr : List Ev) (s : M) (h : RunT P init tr s) : s.halt ≠ some .nullDeref := (run_tinv (tinv_init P) h).n.halt

/-- Also with exceptions of user code no two exception processings of the same owner are on the stack. -/
theorem not_nested_partial (P : Prog) (tr : List Ev) (s : M) (h : RunT P init tr s) (o : Nat) : excOf o s.frames ≤ 1 :=
  Nat.le_trans ((run_tinv (tinv_init P) h).w.count o) (Bool.toNat_le _)

/-- A sequence which was left by an exception can be called again: its mutex is free. -/
theorem callable_partial (P : Prog) (tr : List Ev) (s s' : M) (h : RunT P init tr s) (f : Frame) (fs : List Frame) (hf : s.frames = f :: fs)
    (ht : Throw s s') (hb : P.blocking f.id = true) : step P s' (.call f.id) = some ({ s' with frames := .loop f.id (-1) :: s'.frames }, [.call f.id]) := by
  obtain ⟨g, gs, l, hh, hg, hu, hl, hbd⟩ := ht
  rw [hf] at hg
  simp only [List.cons.injEq] at hg
  obtain ⟨rfl, rfl⟩ := hg
  have hn := (run_tinv (tinv_init P) h).w.nodup
  rw [hf, List.map_cons, List.nodup_cons] at hn
  have hni : f.id ∉ l.map Frame.id := fun hm => hn.1 ((hl.sublist.map _).subset hm)
  rcases hbd with rfl | ⟨i, hs, rfl⟩
  · simp [step, hh, startSeq, hb]
  · simp only [step, hh, startSeq, hb, hni]
    simp

/-! ### An exception in an exception sequence -/

/-- `inExcProcessing` of `o` is set though no exception processing of `o` is going on. -/
def Deaf (o : Nat) (s : M) : Prop := s.inExc o = true ∧ excOf o s.frames = 0

theorem deaf_micro {P : Prog} {s s' : M} {ev : List Ev} (h : Weak P s) {o : Nat} (hd : Deaf o s) (hm : Micro P s s' ev) :
    Deaf o s' ∧ ∀ m b, .poll o m b ∉ ev := by
  obtain ⟨h1, h2⟩ := hd
  have hne : ∀ {k : Chk} {fs : List Frame} {o' : Nat} {os : List Nat} {l : List Mon}, s.frames = .check k :: fs → k.os = o' :: os → k.ms = some l → o ≠ o' := by
    rintro k fs o' os l hf ho hms rfl
    rw [h.top k fs o os l hf ho hms] at h1; cases h1
  cases hm with
  | call j hc hj => exact ⟨⟨h1, by simpa [excOf] using h2⟩, by simp⟩
  | dead => exact ⟨⟨h1, h2⟩, by simp⟩
  | spawn j => exact ⟨⟨h1, h2⟩, by simp⟩
  | leave i fs v hf => rw [hf] at h2; exact ⟨⟨h1, by simpa [excOf] using h2⟩, by simp⟩
  | idle i r fs hf hs => rw [hf] at h2; exact ⟨⟨h1, by simpa [excOf] using h2⟩, by simp⟩
  | enter i r fs hf hs => rw [hf] at h2; exact ⟨⟨h1, by simpa [excOf] using h2⟩, by simp⟩
  | refuse i r fs hf hs => exact ⟨⟨h1, h2⟩, by simp⟩
  | run i r fs hf hs => rw [hf] at h2; exact ⟨⟨h1, by simpa [excOf] using h2⟩, by simp⟩
  | abort i r fs hf hs => exact ⟨⟨h1, h2⟩, by simp⟩
  | restart i r fs hf hs => exact ⟨⟨h1, h2⟩, by simp⟩
  | ret i r fs hf hs => rw [hf] at h2; exact ⟨⟨h1, by simpa [excOf] using h2⟩, by simp⟩
  | exitTrue i r fs hf => rw [hf] at h2; exact ⟨⟨h1, by simpa [excOf] using h2⟩, by simp⟩
  | exitFalse i r fs hf => rw [hf] at h2; exact ⟨⟨h1, by simpa [excOf] using h2⟩, by simp⟩
  | after k o' m fs hf =>
    rw [hf] at h2
    have hoo : o' ≠ o := by
      rintro rfl
      simp [excOf] at h2
    have hfr : (afterExc s k o' m fs).1.frames = .check k :: fs := by cases hb : m.beh <;> simp [afterExc, hb]
    have hin : (afterExc s k o' m fs).1.inExc = upd s.inExc o' false := by cases hb : m.beh <;> simp [afterExc, hb]
    refine ⟨⟨by rw [hin, upd_other _ _ _ _ (Ne.symm hoo)]; exact h1, ?_⟩, by simp⟩
    rw [hfr]
    simpa [excOf, hoo] using h2
  | finish k fs hf hos =>
    refine ⟨?_, by simp⟩
    rcases finish_cases P s k fs with he | ⟨f, hff, e1, -, -, e4, -⟩
    · rw [he]; exact ⟨h1, h2⟩
    · rw [hf] at h2
      refine ⟨by rw [e4]; exact h1, ?_⟩
      rw [e1]
      rcases hff with rfl | rfl <;> simpa [excOf] using h2
  | skip k fs o' os hf ho hms hi => rw [hf] at h2; exact ⟨⟨h1, by simpa [excOf] using h2⟩, by simp⟩
  | opn k fs o' os hf ho hms hi => rw [hf] at h2; exact ⟨⟨h1, by simpa [excOf] using h2⟩, by simp⟩
  | next k fs o' os hf ho hms => rw [hf] at h2; exact ⟨⟨h1, by simpa [excOf] using h2⟩, by simp⟩
  | pollFalse k fs o' os m ms hf ho hms =>
    have := hne hf ho hms
    rw [hf] at h2; exact ⟨⟨h1, by simpa [excOf] using h2⟩, by simp [this]⟩
  | pollFired k fs o' os m ms hf ho hms hfd =>
    have := hne hf ho hms
    rw [hf] at h2; exact ⟨⟨h1, by simpa [excOf] using h2⟩, by simp [this]⟩
  | fire k fs o' os m ms hf ho hms hfd =>
    have := hne hf ho hms
    rw [hf] at h2
    exact ⟨⟨by simpa [upd, this] using h1, by simpa [excOf, Ne.symm this] using h2⟩, by simp [this]⟩

theorem deaf_run {P : Prog} {s0 s : M} {tr : List Ev} (h0 : TInv P s0) {o : Nat} (hd : Deaf o s0) (h : RunT P s0 tr s) :
    Deaf o s ∧ ∀ m b, .poll o m b ∉ tr := by
  induction h with
  | refl => exact ⟨hd, by simp⟩
  | step tr s x s' ev hr hs hw ih =>
    have hi := run_tinv h0 hr
    rcases stepW P s s' x ev hs hw with ⟨h1, h2⟩ | ⟨s1, ev1, ev2, h1, h2, h3, h4, rfl⟩
    · obtain ⟨d, e⟩ := deaf_micro hi.w ih.1 h1
      exact ⟨d, fun m b hm => by rcases List.mem_append.1 hm with hm | hm; exacts [ih.2 m b hm, e m b hm]⟩
    · obtain ⟨d, e⟩ := deaf_micro hi.w ih.1 h1
      obtain ⟨d', e'⟩ := deaf_micro (weak_micro P s s1 ev1 hi.w h1) d h3
      refine ⟨d', fun m b hm => ?_⟩
      rcases List.mem_append.1 hm with hm | hm
      · exact ih.2 m b hm
      · rcases List.mem_append.1 hm with hm | hm
        exacts [e m b hm, e' m b hm]
  | throw tr s s' hr ht ih =>
    obtain ⟨f, fs, l, hh, hf, hu, hl, hb⟩ := ht
    refine ⟨⟨ih.1.1, ?_⟩, ih.2⟩
    have hsub : l <:+ s.frames := by rw [hf]; exact hl.trans (List.suffix_cons f fs)
    exact Nat.le_zero.1 (Nat.le_trans hsub.sublist.countP_le (Nat.le_of_eq ih.1.2))

/-- An exception which leaves the processing of a monitor of `o` (the exception sequence, or a sequence called by it, throws) switches off all monitors of `o`
for good: whatever happens later - further calls of `o`, aborts, other exceptions - no condition of a monitor of `o` is evaluated again, not even the one of
its timeout or of its abort monitor. -/
theorem monitors_off_violated (P : Prog) (tr : List Ev) (s s' : M) (h : RunT P init tr s) (ht : Throw s s') (k : Chk) (o : Nat) (m : Mon)
    (hin : .exc k o m ∈ s.frames) (hout : .exc k o m ∉ s'.frames) (tr2 : List Ev) (s2 : M) (h2 : RunT P s' tr2 s2) :
    ∀ m b, .poll o m b ∉ tr2 := by
  have hi := run_tinv (tinv_init P) h
  refine (deaf_run (tinv_throw hi ht) ?_ h2).2
  obtain ⟨f, fs, l, hh, hf, hu, hl, hb⟩ := ht
  simp only at hout
  have hsub : l <:+ s.frames := by rw [hf]; exact hl.trans (List.suffix_cons f fs)
  have hc := hi.w.count o
  obtain ⟨p, hp⟩ := hsub
  rw [← hp] at hin
  have hinp : .exc k o m ∈ p := by
    rcases List.mem_append.1 hin with h3 | h3
    · exact h3
    · exact absurd h3 hout
  have h1 : 0 < excOf o p := by
    unfold excOf
    rw [List.countP_pos_iff]
    exact ⟨_, hinp, by simp⟩
  have h2 : excOf o s.frames = excOf o p + excOf o l := by rw [← hp]; simp [excOf]
  have h3 : (s.inExc o).toNat ≤ 1 := Bool.toNat_le _
  refine ⟨?_, ?_⟩
  · cases hx : s.inExc o with
    | true => rfl
    | false => rw [hx] at hc; simp at hc; omega
  · simp only; omega

/-! ### An exception in a custom action -/

/-- `i` is active with a state which does not lead to its action. -/
def Skip (i : Nat) (fs : List Frame) (s : M) : Prop :=
  (s.frames = .loop i (-1) :: fs ∧ (s.st i = .running ∨ s.st i = .aborting ∨ s.st i = .terminated)) ∨
  (∃ k, s.frames = .check k :: fs ∧ k.i = i ∧ k.ret = -1 ∧ k.cont = .run ∧ k.act = none ∧ s.st i = .running) ∨
  (s.frames = .exit i (-1) :: fs ∧ s.st i = .running)

theorem skip_step {P : Prog} {i : Nat} {fs : List Frame} {s s' : M} {x : Inp} {ev : List Ev} (h : Skip i fs s) (hs : step P s x = some (s', ev))
    (hc : ∀ o m, .poll o m true ∉ ev) : (Skip i fs s' ∧ ∀ e ∈ ev, ∃ o m, e = .poll o m false) ∨ (ev = [.ret i (-1)] ∧ s'.frames = fs ∧ s'.st i = .idle) := by
  unfold step at hs
  split at hs
  · cases hs
  rcases h with ⟨hf, hst⟩ | ⟨k, hf, rfl, hr, hco, hact, hst⟩ | ⟨hf, hst⟩
  · rw [hf] at hs
    simp only at hs
    rcases hst with hst | hst | hst <;> rw [hst] at hs <;> cases x <;> simp only at hs <;> first | (cases hs; done) | skip
    · simp only [Option.some.injEq, Prod.mk.injEq] at hs
      obtain ⟨rfl, rfl⟩ := hs
      exact Or.inl ⟨Or.inr (Or.inl ⟨_, rfl, rfl, rfl, rfl, rfl, hst⟩), by simp⟩
    · simp only [Option.some.injEq, Prod.mk.injEq] at hs
      obtain ⟨rfl, rfl⟩ := hs
      exact Or.inl ⟨Or.inl ⟨rfl, by simp [upd]⟩, by simp⟩
    · simp only [Option.some.injEq, Prod.mk.injEq] at hs
      obtain ⟨rfl, rfl⟩ := hs
      exact Or.inr ⟨rfl, rfl, by simp [upd]⟩
  · rw [hf] at hs
    simp only at hs
    split at hs
    · simp only [Option.some.injEq, Prod.mk.injEq] at hs
      obtain ⟨rfl, rfl⟩ := hs
      refine Or.inl ⟨Or.inr (Or.inr ⟨?_, ?_⟩), by simp⟩ <;> simp [finish, hact, hco, hst, hr]
    · split at hs <;>
      · simp only [Option.some.injEq, Prod.mk.injEq] at hs
        obtain ⟨rfl, rfl⟩ := hs
        exact Or.inl ⟨Or.inr (Or.inl ⟨_, rfl, rfl, hr, hco, hact, hst⟩), by simp⟩
    · simp only [Option.some.injEq, Prod.mk.injEq] at hs
      obtain ⟨rfl, rfl⟩ := hs
      exact Or.inl ⟨Or.inr (Or.inl ⟨_, rfl, rfl, hr, hco, hact, hst⟩), by simp⟩
    · rename_i o os m ms b ho hms
      injection hs with hs
      unfold checkMonitor at hs
      cases b with
      | false =>
        simp only [Bool.false_eq_true, if_false, Prod.mk.injEq] at hs
        obtain ⟨rfl, rfl⟩ := hs
        exact Or.inl ⟨Or.inr (Or.inl ⟨_, rfl, rfl, hr, hco, hact, hst⟩), by simp⟩
      | true =>
        exfalso
        simp only [if_true] at hs
        apply hc o m
        split at hs
        · rw [← (Prod.mk.inj hs).2]; simp
        · split at hs
          · rw [← (Prod.mk.inj hs).2]; simp
          · rw [← (Prod.mk.inj hs).2]; simp
    · cases hs
  · rw [hf] at hs
    cases x <;> simp only at hs <;> first | (cases hs; done) | skip
    rename_i b
    simp only [Option.some.injEq, Prod.mk.injEq] at hs
    obtain ⟨rfl, rfl⟩ := hs
    refine Or.inl ⟨Or.inl ⟨rfl, ?_⟩, by simp⟩
    cases b <;> simp [upd, hst]

theorem skip_exec {P : Prog} {i : Nat} {fs : List Frame} (xs : List Inp) : ∀ {s s' : M} {ev : List Ev}, Skip i fs s → exec P s xs = some (s', ev) →
    (∀ o m, .poll o m true ∉ ev) →
    (∀ e ∈ ev, ∃ o m, e = .poll o m false) ∨ ∃ pre post, ev = pre ++ .ret i (-1) :: post ∧ ∀ e ∈ pre, ∃ o m, e = .poll o m false := by
  induction xs with
  | nil =>
    intro s s' ev _ h _
    simp only [exec, Option.some.injEq, Prod.mk.injEq] at h
    exact Or.inl (by rw [← h.2]; simp)
  | cons x xs ih =>
    intro s s' ev h he hc
    unfold exec at he
    split at he
    · cases he
    · rename_i s1 ev1 hs
      simp only [Option.map_eq_some_iff] at he
      obtain ⟨⟨s2, ev2⟩, h2, h3⟩ := he
      simp only [Prod.mk.injEq] at h3
      obtain ⟨rfl, rfl⟩ := h3
      rcases skip_step h hs (fun o m hm => hc o m (by simp [hm])) with ⟨hsk, hev⟩ | ⟨rfl, -, -⟩
      · rcases ih hsk h2 (fun o m hm => hc o m (by simp [hm])) with h4 | ⟨pre, post, rfl, h4⟩
        · exact Or.inl (fun e hm => by rcases List.mem_append.1 hm with hm | hm; exacts [hev e hm, h4 e hm])
        · exact Or.inr ⟨ev1 ++ pre, post, by simp, fun e hm => by rcases List.mem_append.1 hm with hm | hm; exacts [hev e hm, h4 e hm]⟩
      · exact Or.inr ⟨[], ev2, by simp, by simp⟩

/-- After an exception of its custom action a sequence does nothing when it is called the next time: unless a condition of a monitor holds, the call evaluates
the conditions of monitors and the exit condition and returns -1.  Neither the precondition nor the action is run. -/
theorem action_skipped_violated (P : Prog) (tr : List Ev) (s s' : M) (h : RunT P init tr s) (ht : Throw s s') (i : Nat) (fs : List Frame)
    (hf : s.frames = .body i :: fs) (hb : P.blocking i = true) (hst : s.st i = .running ∨ s.st i = .aborting) (xs : List Inp) (s2 : M) (ev : List Ev)
    (h2 : exec P s' (.call i :: xs) = some (s2, ev)) (hc : ∀ o m, .poll o m true ∉ ev) :
    ∃ ev', ev = .call i :: ev' ∧
      ((∀ e ∈ ev', ∃ o m, e = .poll o m false) ∨ ∃ pre post, ev' = pre ++ .ret i (-1) :: post ∧ ∀ e ∈ pre, ∃ o m, e = .poll o m false) := by
  have hcall := callable_partial P tr s s' h (.body i) fs hf ht hb
  simp only [Frame.id] at hcall
  obtain ⟨g, gs, l, hh, hg, hu, hl, hbd⟩ := ht
  unfold exec at h2
  rw [hcall] at h2
  simp only [Option.map_eq_some_iff] at h2
  obtain ⟨⟨s3, ev3⟩, h3, h4⟩ := h2
  simp only [Prod.mk.injEq] at h4
  obtain ⟨rfl, rfl⟩ := h4
  refine ⟨ev3, rfl, skip_exec xs (fs := l) (Or.inl ⟨rfl, ?_⟩) h3 (fun o m hm => hc o m (by simp [hm]))⟩
  simp only
  rcases hst with h | h <;> simp [h]

/-! ### Concrete case -/

/-- Sequence 0 calls 1; 1 has a monitor with exception sequence 2. -/
def demo : Prog :=
  { caller := fun i => if i = 1 then some 0 else if i = 2 then some 1 else none
    older := by intro i c h; split at h; · cases h; omega
                · split at h
                  · cases h; omega
                  · cases h
    blocking := fun _ => true
    mons := fun i => if i = 1 then [⟨7, .resume, some 2⟩] else [] }

/-- 0 and 1 are called, the action of 1 runs. -/
def toAct : List Inp :=
  [.call 0, .tick, .tick, .tick, .tick, .pre true, .call 1, .tick, .tick, .cond false, .tick, .tick, .tick, .tick, .pre true]

/-- It returns, its monitor fires, the action of 2 runs. -/
def toExc : List Inp := toAct ++ [.ret 5, .tick, .tick, .cond true, .tick, .tick, .tick, .tick, .tick, .tick, .tick, .pre true]

theorem runT_of {P : Prog} {s0 s : M} {tr : List Ev} (h : RunW P s0 tr s) : RunT P s0 tr s := by
  induction h with
  | refl => exact .refl
  | step tr s x s' ev _ hs hw ih => exact .step tr s x s' ev ih hs hw

theorem runT_exec (P : Prog) (xs : List Inp) (r : M × List Ev) (h : execW P init xs = some r) : RunT P init r.2 r.1 :=
  runT_of (by simpa using runW_execW P xs init init [] r .refl h)

def reached (xs : List Inp) : M × List Ev := (execW demo init xs).getD (init, [])

theorem reached_run (xs : List Inp) (h : (execW demo init xs).isSome = true) : RunT demo init (reached xs).2 (reached xs).1 := by
  apply runT_exec demo xs
  cases he : execW demo init xs with
  | none => rw [he] at h; cases h
  | some r => simp [reached, he]

/-- The action of 1 throws, the action of 0 catches it. -/
theorem demo_throw : Throw (reached toAct).1 { (reached toAct).1 with frames := [.body 0] } :=
  .mk (.body 1) [.body 0] [.body 0] (by decide +kernel) (by decide +kernel) trivial (List.suffix_refl _) (Or.inr ⟨0, [], rfl⟩)

/-- The action of the exception sequence 2 throws, the action of 0 catches it. -/
theorem demo_throw_exc : Throw (reached toExc).1 { (reached toExc).1 with frames := [.body 0] } :=
  .mk (.body 2) [.exc { i := 1, ret := 5, cont := .run, os := [1, 0], ms := some [], act := some 1 } 1 ⟨7, .resume, some 2⟩, .body 0] [.body 0]
    (by decide +kernel) (by decide +kernel) trivial ⟨[_], rfl⟩ (Or.inr ⟨0, [], rfl⟩)

/-- The next call of 1 returns -1 at once. -/
example : ((exec demo { (reached toAct).1 with frames := [.body 0] } [.call 1, .tick, .tick, .cond false, .tick, .tick, .tick, .tick, .exitc true, .tick]).map (·.2)) =
    some [.call 1, .poll 1 ⟨7, .resume, some 2⟩ false, .ret 1 (-1)] := by decide +kernel
example (xs : List Inp) (s2 : M) (ev : List Ev) (h2 : exec demo { (reached toAct).1 with frames := [.body 0] } (.call 1 :: xs) = some (s2, ev))
    (hc : ∀ o m, .poll o m true ∉ ev) :
    ∃ ev', ev = .call 1 :: ev' ∧
      ((∀ e ∈ ev', ∃ o m, e = .poll o m false) ∨ ∃ pre post, ev' = pre ++ .ret 1 (-1) :: post ∧ ∀ e ∈ pre, ∃ o m, e = .poll o m false) :=
  action_skipped_violated demo _ _ _ (reached_run toAct (by decide +kernel)) demo_throw 1 [.body 0] (by decide +kernel) rfl
    (Or.inl (by decide +kernel)) xs s2 ev h2 hc

/-- Without the exception the second call runs the action. -/
example : ((exec demo (reached (toAct ++ [.ret 5, .tick, .tick, .cond false, .tick, .tick, .tick, .tick, .exitc true, .tick])).1
    [.call 1, .tick, .tick, .cond false, .tick, .tick, .tick, .tick, .pre true]).map (·.2)) =
    some [.call 1, .poll 1 ⟨7, .resume, some 2⟩ false, .enter 1] := by decide +kernel

/-- After the exception of the exception sequence the monitor of 1 is not checked any more: 1 is called twice and its action runs without a check. -/
example : ((exec demo { (reached toExc).1 with frames := [.body 0] }
    [.call 1, .tick, .tick, .tick, .tick, .tick, .exitc true, .tick, .call 1, .tick, .tick, .tick, .tick, .tick, .pre true, .ret 3]).map (·.2)) =
    some [.call 1, .ret 1 (-1), .call 1, .enter 1, .leave 1 3] := by decide +kernel
example (tr2 : List Ev) (s2 : M) (h2 : RunT demo { (reached toExc).1 with frames := [.body 0] } tr2 s2) : ∀ m b, .poll 1 m b ∉ tr2 :=
  monitors_off_violated demo _ _ _ (reached_run toExc (by decide +kernel)) demo_throw_exc
    { i := 1, ret := 5, cont := .run, os := [1, 0], ms := some [], act := some 1 } 1 ⟨7, .resume, some 2⟩ (by decide +kernel) (by decide +kernel) tr2 s2 h2

/-- A run with an exception. -/
example : (step demo { (reached toAct).1 with frames := [.body 0] } (.call 1)).map (·.2) = some [.call 1] :=
  congrArg (Option.map (·.2)) (callable_partial demo _ _ _ (reached_run toAct (by decide +kernel)) (.body 1) [.body 0] (by decide +kernel) demo_throw rfl)
example : ∃ tr s, RunT demo init tr s ∧ s.inExc 1 = true ∧ excOf 1 s.frames = 0 ∧ s.halt ≠ some .nullDeref ∧ excOf 1 s.frames ≤ 1 :=
  have h := RunT.throw _ _ _ (reached_run toExc (by decide +kernel)) demo_throw_exc
  ⟨_, _, h, by decide +kernel, by decide +kernel, no_null_partial _ _ _ h, not_nested_partial _ _ _ h 1⟩

end Verif.Sequencer.Throws
