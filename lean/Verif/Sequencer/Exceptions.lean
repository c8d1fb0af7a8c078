import Verif.Sequencer.Protocol
import Mathlib.Tactic.ByContra
/-!
C12: exception sequences start at most once per activation and never nested for the same owner.
-/
namespace Verif.Sequencer

/-! ### Specification -/

/-- Exception processing of `o` is going on (between `fire` and `handled`); `none` if a history starts it twice. -/
def busyStep (o : Nat) (b : Bool) : Ev → Option Bool
  | .fire o' _ => if o' = o then (if b then none else some true) else some b
  | .handled o' _ => if o' = o then (if b then some false else none) else some b
  | _ => some b

def busy (o : Nat) (tr : List Ev) : Option Bool := tr.foldlM (busyStep o) false

/-- A monitor of `o` with behavior abort or restart has fired since `o` was last called or restarted; `none` if a history fires again in this state. -/
def latchStep (o : Nat) (b : Bool) : Ev → Option Bool
  | .fire o' m => if o' = o then (if b then none else some (decide (m.beh ≠ .resume))) else some b
  | .call o' => if o' = o then some false else some b
  | .restart o' => if o' = o then some false else some b
  | _ => some b

def latch (o : Nat) (tr : List Ev) : Option Bool := tr.foldlM (latchStep o) false

theorem busy_append (o : Nat) (tr ev : List Ev) : busy o (tr ++ ev) = (busy o tr).bind (fun b => ev.foldlM (busyStep o) b) := by
  simp only [busy, List.foldlM_append]; rfl
theorem latch_append (o : Nat) (tr ev : List Ev) : latch o (tr ++ ev) = (latch o tr).bind (fun b => ev.foldlM (latchStep o) b) := by
  simp only [latch, List.foldlM_append]; rfl

/-! ### Invariants -/

/-- Number of exception processings of `o` on the stack. -/
def excOf (o : Nat) (fs : List Frame) : Nat := fs.countP (fun f => match f with | .exc _ o' _ => decide (o' = o) | _ => false)

/-- Shape of the frames in `checkMonitors`. -/
def Shape (P : Prog) : Frame → Prop
  | .check k => k.os <:+ P.cstack k.i ∧ ∀ l, k.ms = some l → ∃ o os, k.os = o :: os ∧ ∀ m ∈ l, m ∈ P.mons o
  | .exc k o m => k.os <:+ P.cstack k.i ∧ (∃ os l, k.os = o :: os ∧ k.ms = some l ∧ ∀ m ∈ l, m ∈ P.mons o) ∧ k.act = some o ∧ m ∈ P.mons o
  | _ => True

structure EInv (P : Prog) (tr : List Ev) (s : M) : Prop where
  shape : ∀ f ∈ s.frames, Shape P f
  busy : ∀ o, busy o tr = some (s.inExc o)
  count : ∀ o, excOf o s.frames = (s.inExc o).toNat
  top : ∀ k fs o os l, s.frames = .check k :: fs → k.os = o :: os → k.ms = some l → s.inExc o = false
  latch : ∀ o, ∃ b, latch o tr = some b ∧ (b = true → s.fired o = true)
  active : ∀ o m, s.active o = some m → m ∈ P.mons o
  fired : ∀ o, s.fired o = true → s.active o ≠ none
  idl : ∀ i r fs, s.frames = .loop i r :: fs → s.st i = .idle → Verif.Sequencer.latch i tr = some false
  resm : ∀ k o m, .exc k o m ∈ s.frames → m.beh = .resume → Verif.Sequencer.latch o tr = some false

theorem einv_init (P : Prog) : EInv P [] init :=
  ⟨by simp [init], fun _ => rfl, by simp [init, excOf], by simp [init], fun _ => ⟨false, rfl, by simp⟩, by simp [init], by simp [init], by simp [init], by simp [init]⟩

/-- Effects that only touch the frames (no exception frame involved) and states. -/
theorem einv_frames {P : Prog} {tr ev : List Ev} {s s' : M} (h : EInv P tr s) (hfi : s'.fired = s.fired) (hac : s'.active = s.active)
    (hin : s'.inExc = s.inExc) (hsh : ∀ f ∈ s'.frames, Shape P f) (hex : ∀ o, excOf o s'.frames = excOf o s.frames)
    (htop : ∀ k fs o os l, s'.frames = .check k :: fs → k.os = o :: os → k.ms = some l → s.inExc o = false)
    (hid : ∀ i r fs, s'.frames = .loop i r :: fs → s'.st i = .idle → Verif.Sequencer.latch i (tr ++ ev) = some false)
    (hb : ∀ o b, ev.foldlM (busyStep o) b = some b) (hl : ∀ o b, ∃ b', ev.foldlM (latchStep o) b = some b' ∧ (b' = true → b = true))
    (hse : ∀ k o m, .exc k o m ∈ s'.frames → .exc k o m ∈ s.frames) : EInv P (tr ++ ev) s' := by
  refine ⟨hsh, ?_, ?_, ?_, ?_, by rw [hac]; exact h.active, by rw [hfi, hac]; exact h.fired, hid, ?_⟩
  · intro o; rw [busy_append, h.busy o, hin]; exact hb o _
  · intro o; rw [hex o, hin]; exact h.count o
  · intro k fs o os l h1 h2 h3; rw [hin]; exact htop k fs o os l h1 h2 h3
  · intro o
    obtain ⟨b, h1, h2⟩ := h.latch o
    obtain ⟨b', h3, h4⟩ := hl o b
    exact ⟨b', by rw [latch_append, h1]; exact h3, by rw [hfi]; exact fun hb' => h2 (h4 hb')⟩
  · intro k o m hm hr
    have h1 := h.resm k o m (hse k o m hm) hr
    obtain ⟨b', h3, h4⟩ := hl o false
    rw [latch_append, h1]
    cases b' with
    | false => exact h3
    | true => exact absurd (h4 rfl) (by simp)

theorem finish_cases (P : Prog) (s : M) (k : Chk) (fs : List Frame) :
    finish P s k fs = { s with halt := some .nullDeref } ∨
    ∃ f, (f = .loop k.i k.ret ∨ f = .exit k.i k.ret) ∧ (finish P s k fs).frames = f :: fs ∧ (finish P s k fs).fired = s.fired ∧
      (finish P s k fs).active = s.active ∧ (finish P s k fs).inExc = s.inExc ∧ (finish P s k fs).halt = s.halt := by
  unfold finish
  cases ha : k.act with
  | none =>
    right
    cases hc : k.cont with
    | idle => exact ⟨.loop k.i k.ret, Or.inl rfl, rfl, rfl, rfl, rfl, rfl⟩
    | run =>
      refine ⟨_, ?_, rfl, rfl, rfl, rfl, rfl⟩
      split <;> simp
  | some a =>
    cases hb : s.active a with
    | none => left; simp [hb]
    | some m =>
      right
      simp only [hb]
      cases hc : k.cont with
      | idle => exact ⟨.loop k.i k.ret, Or.inl rfl, rfl, rfl, rfl, rfl, rfl⟩
      | run =>
        refine ⟨_, ?_, rfl, rfl, rfl, rfl, rfl⟩
        split <;> simp

theorem pinv_top {tr : List Ev} {s : M} (h : PInv tr s) {f0 : Frame} {fs : List Frame} (hf : s.frames = f0 :: fs) :
    ∃ ph, phase f0.id tr = some ph ∧ Fits f0 ph (s.st f0.id) := by
  obtain ⟨ph, h1, -, h3⟩ := h.phase f0.id
  exact ⟨ph, h1, h3 f0 (by rw [hf]; simp) rfl⟩

theorem not_idle_of (st : Nat → SState) (i : Nat) :
    (if st i = .aborting ∨ st i = .restarting then st else upd st i .starting) i ≠ .idle := by
  by_cases h : st i = .aborting ∨ st i = .restarting
  · rw [if_pos h]; rcases h with h | h <;> rw [h] <;> decide
  · rw [if_neg h, upd_same]; decide

/-- In the run phase the state never goes back to idle or starting; in the idle phase `finish` never leaves idle behind. -/
theorem finish_not_idle {P : Prog} {tr : List Ev} {s : M} (h : PInv tr s) {k : Chk} {fs : List Frame} (hf : s.frames = .check k :: fs)
    (hh : finish P s k fs ≠ { s with halt := some .nullDeref }) : (finish P s k fs).st k.i ≠ .idle := by
  obtain ⟨ph, -, hfit⟩ := pinv_top h hf
  simp only [Frame.id, Fits] at hfit
  have key : ∀ st : Nat → SState, (st k.i = s.st k.i ∨ st k.i = .aborting) → (k.cont = .run → st k.i ≠ .idle) := by
    intro st hst hc
    rcases hfit with ⟨h1, -⟩ | ⟨-, -, h2⟩
    · rw [hc] at h1; cases h1
    · rcases hst with h3 | h3
      · rw [h3]; exact h2.1
      · rw [h3]; decide
  unfold finish at hh ⊢
  cases ha : k.act with
  | none =>
    cases hc : k.cont with
    | idle => simp only; exact not_idle_of _ _
    | run => exact key s.st (Or.inl rfl) hc
  | some a =>
    simp only [ha] at hh
    cases hb : s.active a with
    | none => exfalso; apply hh; simp only [hb]
    | some m =>
      simp only [hb]
      cases hc : k.cont with
      | idle => simp only; exact not_idle_of _ _
      | run => exact key _ (mark_cases _ _ _ _ _) hc

theorem einv_micro (P : Prog) (tr : List Ev) (s s' : M) (ev : List Ev) (hp : PInv tr s) (h : EInv P tr s) (hm : Micro P s s' ev) :
    EInv P (tr ++ ev) s' := by
  have hbn : ∀ (o : Nat) (b : Bool), ([] : List Ev).foldlM (busyStep o) b = some b := fun _ _ => rfl
  have hln : ∀ (o : Nat) (b : Bool), ∃ b', ([] : List Ev).foldlM (latchStep o) b = some b' ∧ (b' = true → b = true) := fun _ b => ⟨b, rfl, id⟩
  have hsub : ∀ {f0 : Frame} {fs : List Frame}, s.frames = f0 :: fs → ∀ f ∈ fs, Shape P f := by
    intro f0 fs hf f hff; exact h.shape f (by rw [hf]; simp [hff])
  have hsh : ∀ {f0 f1 : Frame} {fs : List Frame}, s.frames = f0 :: fs → Shape P f1 → ∀ f ∈ f1 :: fs, Shape P f := by
    intro f0 f1 fs hf h1 f hff
    rcases List.mem_cons.1 hff with rfl | hff
    · exact h1
    · exact hsub hf f hff
  cases hm with
  | call j hc hj =>
    refine einv_frames h rfl rfl rfl ?_ ?_ ?_ ?_ ?_ ?_ (by intro k o m hm; simpa using hm)
    · intro f hf
      rcases List.mem_cons.1 hf with rfl | hf
      · trivial
      · exact h.shape f hf
    · intro o; simp [excOf]
    · intro k fs o os l h1; simp at h1
    · intro i r fs h1 h2
      simp only [List.cons.injEq, Frame.loop.injEq] at h1
      obtain ⟨b, h3, -⟩ := h.latch i
      rw [latch_append, h3]; simp [latchStep, h1.1.1]
    · intro o b; simp [busyStep]
    · intro o b
      by_cases hjo : j = o
      · exact ⟨false, by simp [latchStep, hjo], by simp⟩
      · exact ⟨b, by simp [latchStep, hjo], id⟩
  | dead => exact einv_frames h rfl rfl rfl h.shape (fun _ => rfl) h.top (by simpa using h.idl) hbn hln (fun _ _ _ h => h)
  | spawn j => exact einv_frames h rfl rfl rfl h.shape (fun _ => rfl) h.top (by intro i r fs h1 h2; rw [latch_append, h.idl i r fs h1 h2]; simp [latchStep]) (by simp [busyStep]) (fun _ b => ⟨b, by simp [latchStep], id⟩) (fun _ _ _ h => h)
  | leave i fs v hf =>
    exact einv_frames h rfl rfl rfl (hsh hf trivial) (by intro o; rw [hf]; simp [excOf]) (by intro k fs o os l h1; simp at h1)
      (by
        intro i' r' fs' h1 h2
        simp only [List.cons.injEq, Frame.loop.injEq] at h1
        obtain ⟨ph, -, hfit⟩ := pinv_top hp hf
        rw [← h1.1.1] at h2
        exact absurd h2 hfit.2.1)
      (by simp [busyStep]) (fun _ b => ⟨b, by simp [latchStep], id⟩) (by intro k' o' m' hm'; rw [hf]; simpa using hm')
  | idle i r fs hf hs =>
    refine ⟨hsh hf ⟨List.suffix_refl _, by intro l hl; simp [newCheck] at hl⟩, by simpa using h.busy, ?_, ?_, ?_, ?_, ?_, ?_, ?_⟩
    · intro o; have := h.count o; rw [hf] at this; simpa [excOf] using this
    · intro k fs' o os l h1 h2 h3
      simp only [List.cons.injEq, Frame.check.injEq] at h1
      rw [← h1.1] at h3; simp [newCheck] at h3
    · intro o
      obtain ⟨b, h1, h2⟩ := h.latch o
      by_cases ho : o = i
      · subst ho
        exact ⟨false, by simpa using h.idl o r fs hf hs, by simp⟩
      · exact ⟨b, by simpa using h1, by simp only [upd_other _ _ _ _ ho]; exact h2⟩
    · intro o m hm
      by_cases ho : o = i
      · subst ho; simp only [upd_same] at hm; cases hm
      · simp only [upd_other _ _ _ _ ho] at hm; exact h.active o m hm
    · intro o hfo
      by_cases ho : o = i
      · subst ho; simp only [upd_same] at hfo; cases hfo
      · simp only [upd_other _ _ _ _ ho] at hfo ⊢; exact h.fired o hfo
    · intro i' r' fs' h1; simp at h1
    · intro k' o' m' hm' hr'
      have := h.resm k' o' m' (by rw [hf]; simpa using hm') hr'
      simpa using this
  | enter i r fs hf hs =>
    exact einv_frames h rfl rfl rfl (hsh hf trivial) (by intro o; rw [hf]; simp [excOf]) (by intro k fs o os l h1; simp at h1)
      (by intro i' r' fs' h1; simp at h1)
      (by simp [busyStep]) (fun _ b => ⟨b, by simp [latchStep], id⟩) (by intro k' o' m' hm'; rw [hf]; simpa using hm')
  | refuse i r fs hf hs =>
    exact einv_frames h rfl rfl rfl h.shape (fun _ => rfl) h.top (by
        intro i' r' fs' h1 h2
        rw [hf] at h1
        simp only [List.cons.injEq, Frame.loop.injEq] at h1
        rw [← h1.1.1] at h2; simp only [upd_same] at h2; cases h2) (by simp [busyStep]) (fun _ b => ⟨b, by simp [latchStep], id⟩) (fun _ _ _ h => h)
  | run i r fs hf hs =>
    exact einv_frames h rfl rfl rfl (hsh hf ⟨List.suffix_refl _, by intro l hl; simp [newCheck] at hl⟩) (by intro o; rw [hf]; simp [excOf])
      (by
        intro k fs' o os l h1 h2 h3
        simp only [List.cons.injEq, Frame.check.injEq] at h1
        rw [← h1.1] at h3; simp [newCheck] at h3) (by intro i' r' fs' h1; simp at h1) hbn hln (by intro k' o' m' hm'; rw [hf]; simpa using hm')
  | abort i r fs hf hs =>
    exact einv_frames h rfl rfl rfl h.shape (fun _ => rfl) h.top (by
        intro i' r' fs' h1 h2
        rw [hf] at h1
        simp only [List.cons.injEq, Frame.loop.injEq] at h1
        rw [← h1.1.1] at h2; simp only [upd_same] at h2; cases h2) hbn hln (fun _ _ _ h => h)
  | restart i r fs hf hs =>
    refine ⟨h.shape, ?_, h.count, h.top, ?_, ?_, ?_, ?_, ?_⟩
    · intro o; rw [busy_append, h.busy o]; simp [busyStep]
    · intro o
      obtain ⟨b, h1, h2⟩ := h.latch o
      by_cases ho : i = o
      · exact ⟨false, by rw [latch_append, h1]; simp [latchStep, ho], by simp⟩
      · exact ⟨b, by rw [latch_append, h1]; simp [latchStep, ho], by
          simp only [upd_other _ _ _ _ (Ne.symm ho)]; exact h2⟩
    · intro o m hm
      by_cases ho : o = i
      · subst ho; simp only [upd_same] at hm; cases hm
      · simp only [upd_other _ _ _ _ ho] at hm; exact h.active o m hm
    · intro o hfo
      by_cases ho : o = i
      · subst ho; simp only [upd_same] at hfo; cases hfo
      · simp only [upd_other _ _ _ _ ho] at hfo ⊢; exact h.fired o hfo
    · intro i' r' fs' h1 h2
      rw [hf] at h1
      simp only [List.cons.injEq, Frame.loop.injEq] at h1
      rw [← h1.1.1] at h2; simp only [upd_same] at h2; cases h2
    · intro k' o' m' hm' hr'
      have h1 := h.resm k' o' m' hm' hr'
      rw [latch_append, h1]
      by_cases ho : i = o' <;> simp [latchStep, ho]
  | ret i r fs hf hs =>
    refine einv_frames h rfl rfl rfl (hsub hf) (by intro o; rw [hf]; simp [excOf]) ?_ ?_ (by simp [busyStep]) (fun _ b => ⟨b, by simp [latchStep], id⟩) (by intro k' o' m' hm'; rw [hf]; simp only at hm'; simp [hm'])
    · intro k fs' o os l h1
      have := hp.tail (.check k) (by rw [hf]; simp only [List.tail_cons]; simp only at h1; rw [h1]; simp)
      exact absurd this id
    · intro i' r' fs' h1
      have := hp.tail (.loop i' r') (by rw [hf]; simp only [List.tail_cons]; simp only at h1; rw [h1]; simp)
      exact absurd this id
  | exitTrue i r fs hf =>
    exact einv_frames h rfl rfl rfl (hsh hf trivial) (by intro o; rw [hf]; simp [excOf]) (by intro k fs o os l h1; simp at h1)
      (by
        intro i' r' fs' h1 h2
        simp only [List.cons.injEq, Frame.loop.injEq] at h1
        rw [← h1.1.1] at h2; simp only [upd_same] at h2; cases h2) hbn hln (by intro k' o' m' hm'; rw [hf]; simpa using hm')
  | exitFalse i r fs hf =>
    exact einv_frames h rfl rfl rfl (hsh hf trivial) (by intro o; rw [hf]; simp [excOf]) (by intro k fs o os l h1; simp at h1)
      (by
        intro i' r' fs' h1 h2
        simp only [List.cons.injEq, Frame.loop.injEq] at h1
        obtain ⟨ph, -, hfit⟩ := pinv_top hp hf
        rw [← h1.1.1] at h2
        exact absurd h2 hfit.2.1) hbn hln (by intro k' o' m' hm'; rw [hf]; simpa using hm')
  | after k o m fs hf =>
    obtain ⟨hsk1, ⟨os, l, hos, hms, hl⟩, hact, hmm⟩ := h.shape (.exc k o m) (by rw [hf]; simp)
    have hcount := h.count o
    rw [hf] at hcount
    have hino : s.inExc o = true := by
      cases hi : s.inExc o with
      | true => rfl
      | false => rw [hi] at hcount; simp [excOf] at hcount
    have hfired : ∀ o', (afterExc s k o m fs).1.fired o' = s.fired o' ∨ (o' = o ∧ m.beh = .resume ∧ (afterExc s k o m fs).1.fired o' = false) := by
      intro o'
      cases hb : m.beh <;> simp only [afterExc, hb]
      · by_cases ho : o' = o
        · right; exact ⟨ho, trivial, by simp [upd, ho]⟩
        · left; simp [upd, ho]
      · exact Or.inl trivial
      · exact Or.inl trivial
    have hframes : (afterExc s k o m fs).1.frames = .check k :: fs := by cases hb : m.beh <;> simp [afterExc, hb]
    have hinx : (afterExc s k o m fs).1.inExc = upd s.inExc o false := by cases hb : m.beh <;> simp [afterExc, hb]
    have hacx : (afterExc s k o m fs).1.active = s.active := by cases hb : m.beh <;> simp [afterExc, hb]
    have hlat : ∀ o', Verif.Sequencer.latch o' (tr ++ [.handled o m]) = Verif.Sequencer.latch o' tr := by
      intro o'
      obtain ⟨b, h1, -⟩ := h.latch o'
      rw [latch_append, h1]; simp [latchStep]
    refine ⟨?_, ?_, ?_, ?_, ?_, by rw [hacx]; exact h.active, ?_, ?_, ?_⟩
    · rw [hframes]
      exact hsh hf ⟨hsk1, fun l' hl' => ⟨o, os, hos, by rw [hms] at hl'; cases hl'; exact hl⟩⟩
    · intro o'
      rw [busy_append, h.busy o', hinx]
      by_cases hoo : o = o'
      · subst hoo; simp [busyStep, hino, upd]
      · simp [busyStep, hoo, upd, Ne.symm hoo]
    · intro o'
      have := h.count o'
      rw [hf] at this
      rw [hframes, hinx]
      by_cases hoo : o = o'
      · subst hoo; simp [excOf, hino, upd] at this ⊢; exact this
      · simp [excOf, hoo, upd, Ne.symm hoo] at this ⊢; exact this
    · intro k' fs' o' os' l' h1 h2 h3
      rw [hframes] at h1
      simp only [List.cons.injEq, Frame.check.injEq] at h1
      rw [← h1.1, hos] at h2
      rw [hinx, ← (List.cons.inj h2).1, upd_same]
    · intro o'
      obtain ⟨b, h1, h2⟩ := h.latch o'
      rcases hfired o' with h3 | ⟨h3, h4, h5⟩
      · exact ⟨b, by rw [hlat, h1], by rw [h3]; exact h2⟩
      · subst h3
        exact ⟨false, by rw [hlat]; exact h.resm k o' m (by rw [hf]; simp) h4, by simp⟩
    · intro o' hfo
      rw [hacx]
      rcases hfired o' with h1 | ⟨-, -, h1⟩
      · rw [h1] at hfo; exact h.fired o' hfo
      · rw [h1] at hfo; cases hfo
    · intro i' r' fs' h1; rw [hframes] at h1; cases h1
    · intro k' o' m' hm' hr'
      rw [hframes] at hm'
      rw [hlat]
      exact h.resm k' o' m' (by rw [hf]; simp only [List.mem_cons, reduceCtorEq, false_or] at hm'; simp [hm']) hr'
  | finish k fs hf hos =>
    rcases finish_cases P s k fs with he | ⟨f, hff, h1, h2, h3, h4, -⟩
    · rw [he]; exact einv_frames h rfl rfl rfl h.shape (fun _ => rfl) h.top (by simpa using h.idl) hbn hln (fun _ _ _ h => h)
    · refine einv_frames h h2 h3 h4 ?_ ?_ ?_ ?_ hbn hln (by
        intro k' o' m' hm'; rw [h1] at hm'; rw [hf]; rcases hff with rfl | rfl <;> simpa using hm')
      · rw [h1]; rcases hff with rfl | rfl <;> exact hsh hf trivial
      · intro o; rw [h1, hf]; rcases hff with rfl | rfl <;> simp [excOf]
      · rw [h1]; rcases hff with rfl | rfl <;> (intro k fs o os l h1; simp at h1)
      · intro i' r' fs' h5 h6
        rw [h1] at h5
        have hi : i' = k.i := by
          simp only [List.cons.injEq] at h5
          rcases hff with rfl | rfl
          · exact (Frame.loop.inj h5.1).1.symm
          · cases h5.1
        rw [hi] at h6
        exact absurd h6 (finish_not_idle hp hf (by
          intro he
          have := congrArg M.frames he
          rw [h1] at this
          simp only [hf, List.cons.injEq, and_true] at this
          rcases hff with rfl | rfl <;> cases this))
  | skip k fs o os hf ho hms hin =>
    refine einv_frames h rfl rfl rfl (hsh hf ?_) (by intro o; rw [hf]; simp [excOf]) ?_ (by intro i' r' fs' h1; simp at h1) hbn hln (by intro k' o' m' hm'; rw [hf]; simpa using hm')
    · have := h.shape (.check k) (by rw [hf]; simp)
      refine ⟨?_, by intro l hl; rw [hms] at hl; cases hl⟩
      have h1 := this.1
      rw [ho] at h1
      exact (List.suffix_cons o os).trans h1
    · intro k' fs' o' os' l h1 h2 h3
      simp only [List.cons.injEq, Frame.check.injEq] at h1
      rw [← h1.1] at h3; rw [hms] at h3; cases h3
  | opn k fs o os hf ho hms hin =>
    refine einv_frames h rfl rfl rfl (hsh hf ?_) (by intro o; rw [hf]; simp [excOf]) ?_ (by intro i' r' fs' h1; simp at h1) hbn hln (by intro k' o' m' hm'; rw [hf]; simpa using hm')
    · have := h.shape (.check k) (by rw [hf]; simp)
      exact ⟨this.1, by intro l hl; simp only [Option.some.injEq] at hl; exact ⟨o, os, ho, by rw [← hl]; exact fun m hm => hm⟩⟩
    · intro k' fs' o' os' l h1 h2 h3
      simp only [List.cons.injEq, Frame.check.injEq] at h1
      rw [← h1.1] at h2; simp only [ho, List.cons.injEq] at h2
      rw [← h2.1]; exact hin
  | next k fs o os hf ho hms =>
    refine einv_frames h rfl rfl rfl (hsh hf ?_) (by intro o; rw [hf]; simp [excOf]) ?_ (by intro i' r' fs' h1; simp at h1) hbn hln (by intro k' o' m' hm'; rw [hf]; simpa using hm')
    · have := h.shape (.check k) (by rw [hf]; simp)
      refine ⟨?_, by intro l hl; cases hl⟩
      have h1 := this.1
      rw [ho] at h1
      exact (List.suffix_cons o os).trans h1
    · intro k' fs' o' os' l h1 h2 h3
      simp only [List.cons.injEq, Frame.check.injEq] at h1
      rw [← h1.1] at h3; cases h3
  | pollFalse k fs o os m ms hf ho hms =>
    refine einv_frames h rfl rfl rfl (hsh hf ?_) (by intro o; rw [hf]; simp [excOf]) ?_ (by intro i' r' fs' h1; simp at h1) (by simp [busyStep]) (fun _ b => ⟨b, by simp [latchStep], id⟩) (by intro k' o' m' hm'; rw [hf]; simpa using hm')
    · have := h.shape (.check k) (by rw [hf]; simp)
      refine ⟨this.1, ?_⟩
      intro l hl; simp only [Option.some.injEq] at hl
      obtain ⟨o', os', h1, h2⟩ := this.2 _ hms
      exact ⟨o', os', h1, by rw [← hl]; exact fun m' hm' => h2 m' (by simp [hm'])⟩
    · intro k' fs' o' os' l h1 h2 h3
      simp only [List.cons.injEq, Frame.check.injEq] at h1
      rw [← h1.1] at h2
      exact h.top k fs o' os' _ hf h2 hms
  | pollFired k fs o os m ms hf ho hms hfd =>
    refine einv_frames h rfl rfl rfl (hsh hf ?_) (by intro o; rw [hf]; simp [excOf]) ?_ (by intro i' r' fs' h1; simp at h1) (by simp [busyStep]) (fun _ b => ⟨b, by simp [latchStep], id⟩) (by intro k' o' m' hm'; rw [hf]; simpa using hm')
    · have := h.shape (.check k) (by rw [hf]; simp)
      refine ⟨this.1, ?_⟩
      intro l hl; simp only [Option.some.injEq] at hl
      obtain ⟨o', os', h1, h2⟩ := this.2 _ hms
      exact ⟨o', os', h1, by rw [← hl]; exact fun m' hm' => h2 m' (by simp [hm'])⟩
    · intro k' fs' o' os' l h1 h2 h3
      simp only [List.cons.injEq, Frame.check.injEq] at h1
      rw [← h1.1] at h2
      exact h.top k fs o' os' _ hf h2 hms
  | fire k fs o os m ms hf ho hms hfd =>
    have hino : s.inExc o = false := h.top k fs o os _ hf ho hms
    have hshk := h.shape (.check k) (by rw [hf]; simp)
    obtain ⟨o1, os1, ho1, hm1⟩ := hshk.2 _ hms
    have : o1 = o := by rw [ho] at ho1; exact (List.cons.inj ho1).1.symm
    subst this
    refine ⟨hsh hf ⟨hshk.1, ⟨os, ms, ho, rfl, fun m' hm' => hm1 m' (by simp [hm'])⟩, rfl, hm1 m (by simp)⟩, ?_, ?_, ?_, ?_, ?_, ?_, by intro i' r' fs' h1; simp at h1, ?_⟩
    · intro o'
      rw [busy_append, h.busy o']
      by_cases hoo : o1 = o'
      · subst hoo; simp [busyStep, hino, upd]
      · simp [busyStep, hoo, upd, Ne.symm hoo]
    · intro o'
      have := h.count o'
      rw [hf] at this
      by_cases hoo : o1 = o'
      · subst hoo; simp [excOf, hino, upd] at this ⊢; omega
      · simp [excOf, hoo, upd, Ne.symm hoo] at this ⊢; exact this
    · intro k' fs' o' os' l h1; simp at h1
    · intro o'
      obtain ⟨b, h1, h2⟩ := h.latch o'
      by_cases hoo : o1 = o'
      · subst hoo
        have hb : b = false := by cases b with
          | false => rfl
          | true => rw [h2 rfl] at hfd; cases hfd
        subst hb
        exact ⟨decide (m.beh ≠ .resume), by rw [latch_append, h1]; simp [latchStep], fun _ => by simp [upd]⟩
      · exact ⟨b, by rw [latch_append, h1]; simp [latchStep, hoo], by simp only [upd_other _ _ _ _ (Ne.symm hoo)]; exact h2⟩
    · intro o' m' hm'
      by_cases hoo : o' = o1
      · subst hoo; simp only [upd_same, Option.some.injEq] at hm'; subst hm'; exact hm1 m (by simp)
      · simp only [upd_other _ _ _ _ hoo] at hm'; exact h.active o' m' hm'
    · intro o' hfo
      by_cases hoo : o' = o1
      · subst hoo; simp [upd]
      · simp only [upd_other _ _ _ _ hoo] at hfo ⊢; exact h.fired o' hfo
    · intro k' o' m' hm' hr'
      simp only [List.mem_cons, Frame.exc.injEq] at hm'
      by_cases hoo : o1 = o'
      · subst hoo
        rcases hm' with ⟨-, -, rfl⟩ | hm'
        · obtain ⟨b, h1, h2⟩ := h.latch o1
          have hb : b = false := by cases b with
            | false => rfl
            | true => rw [h2 rfl] at hfd; cases hfd
          subst hb
          rw [latch_append, h1]; simp [latchStep, hr']
        · exfalso
          have hc := h.count o1
          rw [hino] at hc
          simp only [Bool.toNat_false, excOf, List.countP_eq_zero] at hc
          have := hc (.exc k' o1 m') (by rw [hf]; simp [hm'])
          simp at this
      · rcases hm' with ⟨-, h1, -⟩ | hm'
        · exact absurd h1.symm hoo
        · rw [latch_append, h.resm k' o' m' (by rw [hf]; simp [hm']) hr']; simp [latchStep, hoo]

theorem reach_einv {P : Prog} {tr : List Ev} {s : M} (h : Reach P tr s) : EInv P tr s :=
  (reach_inv (Q := fun tr s => PInv tr s ∧ EInv P tr s) ⟨pinv_init, einv_init P⟩
    (fun tr s s' ev h hm => ⟨pinv_micro P tr s s' ev h.1 hm, einv_micro P tr s s' ev h.1 h.2 hm⟩) h).2

theorem busy_between (o : Nat) (t : List Ev) (h : ∀ m, .handled o m ∉ t) : t.foldlM (busyStep o) true = some true ∨ t.foldlM (busyStep o) true = none := by
  induction t with
  | nil => exact Or.inl rfl
  | cons e t ih =>
    have ih := ih (fun m hm => h m (List.mem_cons_of_mem _ hm))
    have key : busyStep o true e = some true ∨ busyStep o true e = none := by
      cases e with
      | fire o' m => by_cases ho : o' = o <;> simp [busyStep, ho]
      | handled o' m =>
        by_cases ho : o' = o
        · subst ho; exact absurd (by simp) (h m)
        · simp [busyStep, ho]
      | _ => exact Or.inl rfl
    rcases key with hk | hk
    · rw [List.foldlM_cons, hk]; exact ih
    · right; rw [List.foldlM_cons, hk]; rfl

theorem latch_between (o : Nat) (t : List Ev) (h : .call o ∉ t) (h' : .restart o ∉ t) :
    t.foldlM (latchStep o) true = some true ∨ t.foldlM (latchStep o) true = none := by
  induction t with
  | nil => exact Or.inl rfl
  | cons e t ih =>
    have ih := ih (fun hm => h (List.mem_cons_of_mem _ hm)) (fun hm => h' (List.mem_cons_of_mem _ hm))
    have key : latchStep o true e = some true ∨ latchStep o true e = none := by
      cases e with
      | fire o' m => by_cases ho : o' = o <;> simp [latchStep, ho]
      | call o' =>
        by_cases ho : o' = o
        · subst ho; exact absurd (by simp) h
        · simp [latchStep, ho]
      | restart o' =>
        by_cases ho : o' = o
        · subst ho; exact absurd (by simp) h'
        · simp [latchStep, ho]
      | _ => exact Or.inl rfl
    rcases key with hk | hk
    · rw [List.foldlM_cons, hk]; exact ih
    · right; rw [List.foldlM_cons, hk]; rfl

/-! ### The property theorems (C12) -/

theorem busy_not_nested (t1 t2 t3 : List Ev) (o : Nat) (m m' : Mon) (c : Bool)
    (hb : busy o (t1 ++ .fire o m :: t2 ++ .fire o m' :: t3) = some c) : ∃ m'', .handled o m'' ∈ t2 := by
  by_contra hn
  have hn : ∀ m'', Ev.handled o m'' ∉ t2 := fun m'' hm => hn ⟨m'', hm⟩
  simp only [List.append_assoc, List.cons_append, busy, List.foldlM_append, List.foldlM_cons] at hb
  cases h1 : t1.foldlM (busyStep o) false with
  | none => rw [h1] at hb; cases hb
  | some b =>
    simp only [h1, Option.bind_eq_bind, Option.bind_some] at hb
    cases b with
    | true => simp [busyStep] at hb
    | false =>
      simp only [busyStep, if_true, Bool.false_eq_true, if_false, Option.bind_some] at hb
      rcases busy_between o t2 hn with h2 | h2
      · simp [h2] at hb
      · simp [h2] at hb

/-- Between two firings of monitors of the same owner, the exception processing of the first one has ended: exception sequences of one owner never nest. -/
theorem exceptions_not_nested (P : Prog) (t1 t2 t3 : List Ev) (s : M) (o : Nat) (m m' : Mon)
    (h : Reach P (t1 ++ .fire o m :: t2 ++ .fire o m' :: t3) s) : ∃ m'', .handled o m'' ∈ t2 :=
  busy_not_nested t1 t2 t3 o m m' _ ((reach_einv h).busy o)

/-- A monitor with behavior abort or restart fires at most once per activation of its owner: between it and any later firing for the same owner the owner was
called again or restarted. -/
theorem exception_once (P : Prog) (t1 t2 t3 : List Ev) (s : M) (o : Nat) (m m' : Mon) (hm : m.beh ≠ .resume)
    (h : Reach P (t1 ++ .fire o m :: t2 ++ .fire o m' :: t3) s) : .call o ∈ t2 ∨ .restart o ∈ t2 := by
  by_contra hn
  rw [not_or] at hn
  obtain ⟨b0, hb, -⟩ := (reach_einv h).latch o
  simp only [List.append_assoc, List.cons_append, latch, List.foldlM_append, List.foldlM_cons] at hb
  cases h1 : t1.foldlM (latchStep o) false with
  | none => rw [h1] at hb; cases hb
  | some b =>
    simp only [h1, Option.bind_eq_bind, Option.bind_some] at hb
    cases b with
    | true => simp [latchStep] at hb
    | false =>
      simp only [latchStep, if_true, Bool.false_eq_true, if_false, Option.bind_some, hm, ne_eq, not_false_eq_true, decide_true] at hb
      rcases latch_between o t2 hn.1 hn.2 with h2 | h2
      · simp [h2] at hb
      · simp [h2] at hb

/-- Every exception processing that ends was begun by a firing of the same owner which has not been answered before. -/
theorem handled_after_fire (P : Prog) (t1 t2 : List Ev) (s : M) (o : Nat) (m : Mon) (h : Reach P (t1 ++ .handled o m :: t2) s) :
    t1.countP (fun e => match e with | .fire o' _ => decide (o' = o) | _ => false) =
    t1.countP (fun e => match e with | .handled o' _ => decide (o' = o) | _ => false) + 1 := by
  have key : ∀ t : List Ev, ∀ b c, t.foldlM (busyStep o) b = some c →
      t.countP (fun e => match e with | .fire o' _ => decide (o' = o) | _ => false) + b.toNat =
      t.countP (fun e => match e with | .handled o' _ => decide (o' = o) | _ => false) + c.toNat := by
    intro t
    induction t with
    | nil => intro b c hc; cases hc; simp
    | cons e t ih =>
      intro b c hc
      rw [List.foldlM_cons] at hc
      cases e with
      | fire o' m =>
        by_cases ho : o' = o
        · subst ho
          cases b with
          | true => simp [busyStep] at hc
          | false =>
            have := ih true c (by simpa [busyStep] using hc)
            simp at this ⊢; omega
        · have := ih b c (by simpa [busyStep, ho] using hc)
          simpa [ho] using this
      | handled o' m =>
        by_cases ho : o' = o
        · subst ho
          cases b with
          | false => simp [busyStep] at hc
          | true =>
            have := ih false c (by simpa [busyStep] using hc)
            simp at this ⊢; omega
        · have := ih b c (by simpa [busyStep, ho] using hc)
          simpa [ho] using this
      | _ =>
        have := ih b c (by simpa [busyStep] using hc)
        simpa using this
  have hb := (reach_einv h).busy o
  simp only [busy, List.foldlM_append, List.foldlM_cons] at hb
  cases h1 : t1.foldlM (busyStep o) false with
  | none => rw [h1] at hb; cases hb
  | some b =>
    simp only [h1, Option.bind_eq_bind, Option.bind_some] at hb
    cases b with
    | false => simp [busyStep] at hb
    | true => have := key t1 false true h1; simpa using this

end Verif.Sequencer
