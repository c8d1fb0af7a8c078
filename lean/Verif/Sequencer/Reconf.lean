import Verif.Sequencer.Nested
/-!
C222, C223: monitors which are reconfigured while sequences run: `Monitor::setBehavior`, `Monitor::setExceptionSequence` (src/sequencer/Monitor.cpp:13-15, 25-27),
`BaseSequence::setTimeoutBehavior`, `setTimeoutExceptionSequence` (src/sequencer/BaseSequence.cpp:181-187) and `BaseSequence::addMonitor` (147).  The examples
SequencerTest23 and SequencerTest26 do this in an exception sequence in order to limit the number of restarts.

Monitors are objects; `checkMonitor` reads the behavior after the exception sequence has run (line 134) and `checkMonitors` reads it again (line 102), the list
of monitors is copied by `getMonitors` (149) when a sequence of the caller stack is visited.  So a change has the effect of replacing the monitor at every place where the
machine (`Machine.lean`) holds it, while a monitor which is added is only seen by the checks which have not yet copied the list.
-/
namespace Verif.Sequencer.Reconf
open Verif.Sequencer

/-- A change of monitors: `g` gives for each monitor its new behavior and exception sequence, `add` the monitors which are added to a sequence. -/
structure Change where
  g : Mon → Mon
  add : Nat → List Mon

/-- The sequences after a change, BaseSequence.cpp:147, 181-187. -/
def prog (c : Change) (P : Prog) : Prog := { P with mons := fun o => (P.mons o).map c.g ++ c.add o }

/-- The position in `checkMonitors` refers to the changed monitors. -/
def chk (c : Change) (k : Chk) : Chk := { k with ms := k.ms.map (fun l => l.map c.g) }

def frame (c : Change) : Frame → Frame
  | .loop i r => .loop i r
  | .exit i r => .exit i r
  | .body i => .body i
  | .check k => .check (chk c k)
  | .exc k o m => .exc (chk c k) o (c.g m)

/-- The state after a change: nothing but the monitors themselves is touched. -/
def state (c : Change) (s : M) : M := { s with active := fun o => (s.active o).map c.g, frames := s.frames.map (frame c) }

/-- Histories in which monitors are changed at any time; sequences are called only while their callers are active (as in `ReachW`). -/
inductive ReachC : Prog → List Ev → M → Prop where
  | init (P) : ReachC P [] init
  | step (P tr s x s' ev) : ReachC P tr s → step P s x = some (s', ev) →
      (∀ j, .call j ∈ ev → ∀ c ∈ P.cstack j, c ≠ j → c ∈ s.frames.map Frame.id) → ReachC P (tr ++ ev) s'
  | change (P tr s) (c : Change) : ReachC P tr s → ReachC (prog c P) tr (state c s)

/-- Without changes these are the histories of `ReachW`. -/
theorem ReachC.of_reachW {P : Prog} {tr : List Ev} {s : M} (h : ReachW P tr s) : ReachC P tr s := by
  induction h with
  | init => exact .init P
  | step tr s x s' ev _ hs hw ih => exact .step P tr s x s' ev ih hs hw

/-! ### Changes do not touch the caller stacks, the positions and the states -/

theorem cstackAux_prog (c : Change) (P : Prog) : ∀ n i, (prog c P).cstackAux n i = P.cstackAux n i := by
  intro n
  induction n with
  | zero => intro i; rfl
  | succ n ih =>
    intro i
    unfold Prog.cstackAux
    have : (prog c P).caller = P.caller := rfl
    rw [this]
    cases P.caller i with
    | none => rfl
    | some a => simp only [ih]

theorem cstack_prog (c : Change) (P : Prog) (i : Nat) : (prog c P).cstack i = P.cstack i := cstackAux_prog c P i i

theorem frame_id (c : Change) (f : Frame) : (frame c f).id = f.id := by cases f <;> rfl

theorem ids (c : Change) (s : M) : (state c s).frames.map Frame.id = s.frames.map Frame.id := by
  simp only [state, List.map_map]
  congr 1
  funext f
  exact frame_id c f

theorem pinv_change {c : Change} {tr : List Ev} {s : M} (h : PInv tr s) : PInv tr (state c s) := by
  refine ⟨by rw [ids]; exact h.nodup, ?_, ?_⟩
  · intro f hf
    simp only [state, ← List.map_tail] at hf
    obtain ⟨f0, h0, rfl⟩ := List.mem_map.1 hf
    have := h.tail f0 h0
    cases f0 <;> exact this
  · intro i
    obtain ⟨ph, h1, h2, h3⟩ := h.phase i
    refine ⟨ph, h1, by rw [ids]; exact h2, ?_⟩
    intro f hf hi
    obtain ⟨f0, h0, rfl⟩ := List.mem_map.1 hf
    rw [frame_id] at hi
    have := h3 f0 h0 hi
    cases f0 <;> exact this

/-! ### Exception processing: the behavior at the time of firing is forgotten -/

def forget : Ev → Ev
  | .fire o m => .fire o { m with beh := .resume }
  | e => e

theorem busyStep_forget (o : Nat) (b : Bool) (e : Ev) : busyStep o b (forget e) = busyStep o b e := by cases e <;> rfl

theorem busy_forget (o : Nat) (tr : List Ev) : busy o (tr.map forget) = busy o tr := by
  unfold busy
  generalize false = b
  induction tr generalizing b with
  | nil => rfl
  | cons e tr ih =>
    simp only [List.map_cons, List.foldlM_cons, busyStep_forget]
    cases busyStep o b e with
    | none => rfl
    | some b' => exact ih b'

theorem latch_forget (o : Nat) (tr : List Ev) : latch o (tr.map forget) = some false := by
  unfold latch
  induction tr with
  | nil => rfl
  | cons e tr ih =>
    have : latchStep o false (forget e) = some false := by
      cases e <;> simp [forget, latchStep]
    simp only [List.map_cons, List.foldlM_cons, this]
    exact ih

theorem einv_forget {P : Prog} {tr : List Ev} {s : M} (h : EInv P tr s) : EInv P (tr.map forget) s :=
  ⟨h.shape, fun o => by rw [busy_forget]; exact h.busy o, h.count, h.top, fun o => ⟨false, latch_forget o tr, by simp⟩, h.active, h.fired,
    fun i _ _ _ _ => latch_forget i tr, fun _ o _ _ _ => latch_forget o tr⟩

theorem mem_prog {c : Change} {P : Prog} {o : Nat} {m : Mon} (h : m ∈ P.mons o) : c.g m ∈ (prog c P).mons o := by
  simp only [prog, List.mem_append, List.mem_map]
  exact Or.inl ⟨m, h, rfl⟩

theorem shape_change {c : Change} {P : Prog} {f : Frame} (h : Shape P f) : Shape (prog c P) (frame c f) := by
  cases f with
  | loop i r => trivial
  | exit i r => trivial
  | body i => trivial
  | check k =>
    refine ⟨by rw [cstack_prog]; exact h.1, ?_⟩
    intro l hl
    simp only [chk, Option.map_eq_some_iff] at hl
    obtain ⟨l0, h0, rfl⟩ := hl
    obtain ⟨o, os, h1, h2⟩ := h.2 l0 h0
    refine ⟨o, os, h1, ?_⟩
    intro m hm
    obtain ⟨m0, hm0, rfl⟩ := List.mem_map.1 hm
    exact mem_prog (h2 m0 hm0)
  | exc k o m =>
    obtain ⟨h1, ⟨os, l, h2, h3, h4⟩, h5, h6⟩ := h
    refine ⟨by rw [cstack_prog]; exact h1, ⟨os, l.map c.g, h2, by simp [chk, h3], ?_⟩, h5, mem_prog h6⟩
    intro m' hm
    obtain ⟨m0, hm0, rfl⟩ := List.mem_map.1 hm
    exact mem_prog (h4 m0 hm0)

theorem excOf_change (c : Change) (o : Nat) (fs : List Frame) : excOf o (fs.map (frame c)) = excOf o fs := by
  unfold excOf
  rw [List.countP_map]
  congr 1
  funext f
  cases f <;> rfl

theorem einv_change {c : Change} {P : Prog} {tr : List Ev} {s : M} (h : EInv P (tr.map forget) s) : EInv (prog c P) (tr.map forget) (state c s) := by
  refine ⟨?_, h.busy, ?_, ?_, h.latch, ?_, ?_, fun i _ _ _ _ => latch_forget i tr, fun _ o _ _ _ => latch_forget o tr⟩
  · intro f hf
    obtain ⟨f0, h0, rfl⟩ := List.mem_map.1 hf
    exact shape_change (h.shape f0 h0)
  · intro o
    exact (excOf_change c o s.frames).trans (h.count o)
  · intro k fs o os l hf ho hl
    cases hs : s.frames with
    | nil => simp [state, hs] at hf
    | cons f0 fs0 =>
      simp only [state, hs, List.map_cons, List.cons.injEq] at hf
      obtain ⟨hf0, -⟩ := hf
      cases f0 with
      | check k0 =>
        simp only [frame, Frame.check.injEq] at hf0
        subst hf0
        simp only [chk, Option.map_eq_some_iff] at hl ho
        obtain ⟨l0, h0, -⟩ := hl
        exact h.top k0 fs0 o os l0 hs ho h0
      | _ => simp [frame] at hf0
  · intro o m hm
    simp only [state, Option.map_eq_some_iff] at hm
    obtain ⟨m0, h0, rfl⟩ := hm
    exact mem_prog (h.active o m0 h0)
  · intro o ho
    have := h.fired o ho
    simp only [state, ne_eq, Option.map_eq_none_iff]
    exact this

/-! ### The calling discipline -/

theorem nest_change (c : Change) (P : Prog) (fs : List Frame) (h : Nest P fs) : Nest (prog c P) (fs.map (frame c)) := by
  induction fs with
  | nil => trivial
  | cons f fs ih =>
    refine ⟨?_, ih h.2⟩
    intro a ha
    rw [frame_id, cstack_prog] at ha
    have := h.1 a ha
    have e : ((f :: fs).map (frame c)).map Frame.id = (f :: fs).map Frame.id := by
      rw [List.map_map]; congr 1; funext f; exact frame_id c f
    rw [← e] at this
    exact this

theorem actOk_change {c : Change} {P : Prog} {s : M} {k : Chk} (h : ActOk P s k) : ActOk (prog c P) (state c s) (chk c k) := by
  intro a ha
  obtain ⟨h1, h2⟩ := h a ha
  refine ⟨by rw [cstack_prog]; exact h1, ?_⟩
  simp only [state, ne_eq, Option.map_eq_none_iff]
  exact h2

theorem ninv_change {c : Change} {P : Prog} {s : M} (h : NInv P s) : NInv (prog c P) (state c s) := by
  refine ⟨nest_change c P _ h.nest, ?_, h.halt⟩
  intro f hf
  obtain ⟨f0, h0, rfl⟩ := List.mem_map.1 hf
  have := h.ok f0 h0
  cases f0 with
  | check k => exact actOk_change this
  | exc k o m =>
    obtain ⟨h1, h2, h3, h4⟩ := this
    exact ⟨actOk_change h1, by rw [cstack_prog]; exact h2, h3, by simp [state, h4]⟩
  | _ => trivial

/-! ### Invariants of all histories -/

structure Inv (P : Prog) (tr : List Ev) (s : M) : Prop where
  p : PInv tr s
  e : EInv P (tr.map forget) s
  n : NInv P s
  i : IdleInv s

theorem proto_forget (i : Nat) (ph : Phase) (e : Ev) : proto i ph (forget e) = proto i ph e := by cases e <;> rfl

theorem phase_forget (i : Nat) (tr : List Ev) : phase i (tr.map forget) = phase i tr := by
  unfold phase
  generalize Phase.off = b
  induction tr generalizing b with
  | nil => rfl
  | cons e tr ih =>
    simp only [List.map_cons, List.foldlM_cons, proto_forget]
    cases proto i b e with
    | none => rfl
    | some b' => exact ih b'

theorem pinv_forget {tr : List Ev} {s : M} : PInv (tr.map forget) s ↔ PInv tr s := by
  constructor <;> intro h <;> refine ⟨h.nodup, h.tail, fun i => ?_⟩ <;> have := h.phase i <;> rw [phase_forget] at * <;> exact this

theorem inv_micro (P : Prog) (tr : List Ev) (s s' : M) (ev : List Ev) (h : Inv P tr s) (hm : Micro P s s' ev)
    (hw : ∀ j, ev = [.call j] → ∀ c ∈ P.cstack j, c ≠ j → c ∈ s.frames.map Frame.id) : Inv P (tr ++ ev) s' := by
  have ha : AInv P (tr.map forget) s := ⟨pinv_forget.2 h.p, h.e, h.n⟩
  have := ainv_micro P _ s s' ev ha hm hw
  refine ⟨pinv_micro P tr s s' ev h.p hm, ?_, this.n, idle_micro P _ s s' ev ha h.i hm⟩
  have he := einv_forget this.e
  simp only [List.map_append, List.map_map] at he ⊢
  have hff : forget ∘ forget = forget := by funext e; cases e <;> rfl
  rwa [hff] at he

theorem inv_reach {P : Prog} {tr : List Ev} {s : M} (h : ReachC P tr s) : Inv P tr s := by
  induction h with
  | init P => exact ⟨pinv_init, einv_init P, ninv_init P, fun c _ => rfl⟩
  | step P tr s x s' ev _ hs hw ih =>
    rcases stepW P s s' x ev hs hw with ⟨h1, h2⟩ | ⟨s1, ev1, ev2, h1, h2, h3, h4, rfl⟩
    · exact inv_micro P tr s s' ev ih h1 h2
    · rw [← List.append_assoc]
      exact inv_micro P _ _ _ _ (inv_micro P tr s s1 ev1 ih h1 h2) h3 h4
  | change P tr s c _ ih =>
    refine ⟨pinv_change ih.p, einv_change ih.e, ninv_change ih.n, ?_⟩
    intro a ha
    rw [ids] at ha
    exact ih.i a ha

/-! ### C223: what holds without reconfiguration still holds -/

/-- **C09 with reconfigured monitors.** Every sequence follows the protocol; a call returns the value of the last execution of its action in this call, or -1. -/
theorem return_value (P : Prog) (t1 t2 : List Ev) (s : M) (i : Nat) (v : Int) (h : ReachC P (t1 ++ .call i :: t2 ++ [.ret i v]) s)
    (h2 : ∀ w, .ret i w ∉ t2) : v = lastValue i (-1) t2 := by
  obtain ⟨ph, hp, -⟩ := (inv_reach h).p.phase i
  exact value_of_phase t1 t2 i v ph hp h2

/-- **C12 with reconfigured monitors.** Exception processing of one owner never nests. -/
theorem exceptions_not_nested (P : Prog) (t1 t2 t3 : List Ev) (s : M) (o : Nat) (m m' : Mon)
    (h : ReachC P (t1 ++ .fire o m :: t2 ++ .fire o m' :: t3) s) : ∃ m'', .handled o m'' ∈ t2 := by
  have hb := (inv_reach h).e.busy o
  rw [busy_forget] at hb
  exact busy_not_nested t1 t2 t3 o m m' _ hb

/-- **C66 with reconfigured monitors.** The active monitor is never dereferenced while null. -/
theorem no_null_dereference (P : Prog) (tr : List Ev) (s : M) (h : ReachC P tr s) : s.halt ≠ some .nullDeref := (inv_reach h).n.halt

/-- **C67 with reconfigured monitors.** Sequences which are not active are idle. -/
theorem inactive_idle (P : Prog) (tr : List Ev) (s : M) (h : ReachC P tr s) : ∀ c, c ∉ s.frames.map Frame.id → s.st c = .idle := (inv_reach h).i

/-! ### Exception processing per activation: the behavior at its end counts -/

/-- Exception processing of `o` has ended with behavior abort or restart since `o` was last called or restarted; `none` if a history fires in this state. -/
def heldStep (o : Nat) (b : Bool) : Ev → Option Bool
  | .fire o' _ => if o' = o then (if b then none else some b) else some b
  | .handled o' m => if o' = o then some (decide (m.beh ≠ .resume)) else some b
  | .call o' => if o' = o then some false else some b
  | .restart o' => if o' = o then some false else some b
  | _ => some b

def held (o : Nat) (tr : List Ev) : Option Bool := tr.foldlM (heldStep o) false

theorem held_append (o : Nat) (tr ev : List Ev) : held o (tr ++ ev) = (held o tr).bind (fun b => ev.foldlM (heldStep o) b) := by
  simp only [held, List.foldlM_append]; rfl

structure HInv (o : Nat) (tr : List Ev) (s : M) : Prop where
  held : ∃ b, held o tr = some b ∧ (b = true → s.fired o = true)
  idl : ∀ r fs, s.frames = .loop o r :: fs → s.st o = .idle → Verif.Sequencer.Reconf.held o tr = some false

theorem hinv_keep {o : Nat} {tr ev : List Ev} {s s' : M} (h : HInv o tr s) (hf : s'.fired o = s.fired o) (he : ∀ b, ev.foldlM (heldStep o) b = some b)
    (hi : ∀ r fs, s'.frames = .loop o r :: fs → s'.st o = .idle → ∃ r' fs', s.frames = .loop o r' :: fs' ∧ s.st o = .idle) : HInv o (tr ++ ev) s' := by
  refine ⟨?_, ?_⟩
  · obtain ⟨b, h1, h2⟩ := h.held
    exact ⟨b, by rw [held_append, h1]; exact he b, by rw [hf]; exact h2⟩
  · intro r fs h1 h2
    obtain ⟨r', fs', h3, h4⟩ := hi r fs h1 h2
    rw [held_append, h.idl r' fs' h3 h4]
    exact he false

theorem hinv_micro (P : Prog) (o : Nat) (tr : List Ev) (s s' : M) (ev : List Ev) (hv : Inv P tr s) (h : HInv o tr s) (hm : Micro P s s' ev) :
    HInv o (tr ++ ev) s' := by
  cases hm with
  | call j hc hj =>
    by_cases hjo : j = o
    · obtain ⟨b, h1, -⟩ := h.held
      have : Reconf.held o (tr ++ [.call j]) = some false := by rw [held_append, h1]; simp [heldStep, hjo]
      exact ⟨⟨false, this, by simp⟩, fun _ _ _ _ => this⟩
    · exact hinv_keep h rfl (by simp [heldStep, hjo]) (by intro r fs h1; simp [hjo] at h1)
  | dead => exact hinv_keep h rfl (fun _ => rfl) (fun r fs h1 h2 => ⟨r, fs, h1, h2⟩)
  | spawn j => exact hinv_keep h rfl (by simp [heldStep]) (fun r fs h1 h2 => ⟨r, fs, h1, h2⟩)
  | leave i fs v hf =>
    refine hinv_keep h rfl (by simp [heldStep]) ?_
    intro r fs' h1 h2
    simp only [List.cons.injEq, Frame.loop.injEq] at h1
    obtain ⟨ph, -, hfit⟩ := pinv_top hv.p hf
    rw [← h1.1.1] at h2
    exact absurd h2 hfit.2.1
  | idle i r fs hf hs =>
    by_cases ho : o = i
    · subst ho
      have := h.idl r fs hf hs
      exact ⟨⟨false, by simpa using this, by simp⟩, by intro r' fs' h1; simp at h1⟩
    · exact hinv_keep h (by simp [upd, ho]) (fun _ => rfl) (by intro r fs h1; simp at h1)
  | enter i r fs hf hs => exact hinv_keep h rfl (by simp [heldStep]) (by intro r fs h1; simp at h1)
  | refuse i r fs hf hs =>
    refine hinv_keep h rfl (by simp [heldStep]) ?_
    intro r' fs' h1 h2
    rw [hf] at h1
    simp only [List.cons.injEq, Frame.loop.injEq] at h1
    rw [← h1.1.1] at h2; simp only [upd_same] at h2; cases h2
  | run i r fs hf hs => exact hinv_keep h rfl (fun _ => rfl) (by intro r fs h1; simp at h1)
  | abort i r fs hf hs =>
    refine hinv_keep h rfl (fun _ => rfl) ?_
    intro r' fs' h1 h2
    rw [hf] at h1
    simp only [List.cons.injEq, Frame.loop.injEq] at h1
    rw [← h1.1.1] at h2; simp only [upd_same] at h2; cases h2
  | restart i r fs hf hs =>
    by_cases ho : i = o
    · obtain ⟨b, h1, -⟩ := h.held
      have : Reconf.held o (tr ++ [.restart i]) = some false := by rw [held_append, h1]; simp [heldStep, ho]
      exact ⟨⟨false, this, by simp⟩, fun _ _ _ _ => this⟩
    · refine hinv_keep h (by simp [upd, Ne.symm ho]) (by simp [heldStep, ho]) ?_
      intro r' fs' h1 h2
      rw [hf] at h1
      simp only [List.cons.injEq, Frame.loop.injEq] at h1
      exact absurd h1.1.1 ho
  | ret i r fs hf hs =>
    refine hinv_keep h rfl (by simp [heldStep]) ?_
    intro r' fs' h1
    have := hv.p.tail (.loop o r') (by rw [hf]; simp only [List.tail_cons]; simp only at h1; rw [h1]; simp)
    exact absurd this id
  | exitTrue i r fs hf =>
    refine hinv_keep h rfl (fun _ => rfl) ?_
    intro r' fs' h1 h2
    simp only [List.cons.injEq, Frame.loop.injEq] at h1
    rw [← h1.1.1] at h2; simp only [upd_same] at h2; cases h2
  | exitFalse i r fs hf =>
    refine hinv_keep h rfl (fun _ => rfl) ?_
    intro r' fs' h1 h2
    simp only [List.cons.injEq, Frame.loop.injEq] at h1
    obtain ⟨ph, -, hfit⟩ := pinv_top hv.p hf
    rw [← h1.1.1] at h2
    exact absurd h2 hfit.2.1
  | after k o' m fs hf =>
    have hframes : (afterExc s k o' m fs).1.frames = .check k :: fs := by cases hb : m.beh <;> simp [afterExc, hb]
    refine ⟨?_, by intro r' fs' h1; rw [hframes] at h1; cases h1⟩
    obtain ⟨b, h1, h2⟩ := h.held
    by_cases ho : o' = o
    · subst ho
      have hok := (hv.n.ok (.exc k o' m) (by rw [hf]; simp)).2.2.1
      refine ⟨decide (m.beh ≠ .resume), by rw [held_append, h1]; simp [heldStep], ?_⟩
      cases hb : m.beh <;> simp [afterExc, hb, hok]
    · refine ⟨b, by rw [held_append, h1]; simp [heldStep, ho], ?_⟩
      intro hb
      have := h2 hb
      cases hb : m.beh <;> simp [afterExc, hb, upd, Ne.symm ho, this]
  | finish k fs hf hos =>
    rcases finish_cases P s k fs with he | ⟨f, hff, h1, h2, h3, h4, -⟩
    · rw [he]; exact hinv_keep h rfl (fun _ => rfl) (fun r fs h1 h2 => ⟨r, fs, h1, h2⟩)
    · refine hinv_keep h (by rw [h2]) (fun _ => rfl) ?_
      intro r' fs' h5 h6
      rw [h1] at h5
      have hi : o = k.i := by
        simp only [List.cons.injEq] at h5
        rcases hff with rfl | rfl
        · exact (Frame.loop.inj h5.1).1.symm
        · cases h5.1
      rw [hi] at h6
      exact absurd h6 (finish_not_idle hv.p hf (by
        intro he
        have := congrArg M.frames he
        rw [h1] at this
        simp only [hf, List.cons.injEq, and_true] at this
        rcases hff with rfl | rfl <;> cases this))
  | skip k fs o' os hf _ _ _ => exact hinv_keep h rfl (fun _ => rfl) (by intro r fs h1; simp at h1)
  | opn k fs o' os hf _ _ _ => exact hinv_keep h rfl (fun _ => rfl) (by intro r fs h1; simp at h1)
  | next k fs o' os hf _ _ => exact hinv_keep h rfl (fun _ => rfl) (by intro r fs h1; simp at h1)
  | pollFalse k fs o' os m ms hf _ _ => exact hinv_keep h rfl (by simp [heldStep]) (by intro r fs h1; simp at h1)
  | pollFired k fs o' os m ms hf _ _ _ => exact hinv_keep h rfl (by simp [heldStep]) (by intro r fs h1; simp at h1)
  | fire k fs o' os m ms hf _ _ hfd =>
    refine ⟨?_, by intro r' fs' h1; simp at h1⟩
    obtain ⟨b, h1, h2⟩ := h.held
    by_cases ho : o' = o
    · subst ho
      have hb : b = false := by cases b with
        | false => rfl
        | true => rw [h2 rfl] at hfd; cases hfd
      subst hb
      exact ⟨false, by rw [held_append, h1]; simp [heldStep], by simp⟩
    · exact ⟨b, by rw [held_append, h1]; simp [heldStep, ho], by simp only [upd_other _ _ _ _ (Ne.symm ho)]; exact h2⟩

theorem hinv_change {c : Change} {o : Nat} {tr : List Ev} {s : M} (h : HInv o tr s) : HInv o tr (state c s) := by
  refine ⟨h.held, ?_⟩
  intro r fs h1 h2
  cases hs : s.frames with
  | nil => simp [state, hs] at h1
  | cons f0 fs0 =>
    simp only [state, hs, List.map_cons, List.cons.injEq] at h1
    cases f0 with
    | loop i r0 =>
      simp only [frame, Frame.loop.injEq] at h1
      obtain ⟨⟨rfl, rfl⟩, -⟩ := h1
      exact h.idl _ _ hs h2
    | _ => simp [frame] at h1

/-- The induction over histories, for invariants which are kept by single effects and by changes. -/
theorem reachC_inv {Q : Prog → List Ev → M → Prop} (h0 : ∀ P, Q P [] init)
    (hm : ∀ P tr s s' ev, Inv P tr s → Q P tr s → Micro P s s' ev → Q P (tr ++ ev) s') (hc : ∀ P tr s c, Inv P tr s → Q P tr s → Q (prog c P) tr (state c s))
    {P : Prog} {tr : List Ev} {s : M} (h : ReachC P tr s) : Q P tr s := by
  induction h with
  | init P => exact h0 P
  | step P tr s x s' ev hr hs hw ih =>
    have hv := inv_reach hr
    rcases stepW P s s' x ev hs hw with ⟨h1, h2⟩ | ⟨s1, ev1, ev2, h1, h2, h3, h4, rfl⟩
    · exact hm P tr s s' ev hv ih h1
    · rw [← List.append_assoc]
      exact hm P _ s1 s' ev2 (inv_micro P tr s s1 ev1 hv h1 h2) (hm P tr s s1 ev1 hv ih h1) h3
  | change P tr s c hr ih => exact hc P tr s c (inv_reach hr) ih

theorem held_between (o : Nat) (t : List Ev) (h : .call o ∉ t) (h' : .restart o ∉ t) :
    (t.foldlM (busyStep o) false = some false ∧ t.foldlM (heldStep o) true = some true) ∨ t.foldlM (busyStep o) false = none ∨
      t.foldlM (heldStep o) true = none := by
  induction t with
  | nil => exact Or.inl ⟨rfl, rfl⟩
  | cons e t ih =>
    have ih := ih (fun hm => h (List.mem_cons_of_mem _ hm)) (fun hm => h' (List.mem_cons_of_mem _ hm))
    have key : (busyStep o false e = some false ∧ heldStep o true e = some true) ∨ busyStep o false e = none ∨ heldStep o true e = none := by
      cases e with
      | fire o' m => by_cases ho : o' = o <;> simp [heldStep, busyStep, ho]
      | handled o' m => by_cases ho : o' = o <;> simp [heldStep, busyStep, ho]
      | call o' =>
        by_cases ho : o' = o
        · subst ho; exact absurd (by simp) h
        · simp [heldStep, busyStep, ho]
      | restart o' =>
        by_cases ho : o' = o
        · subst ho; exact absurd (by simp) h'
        · simp [heldStep, busyStep, ho]
      | _ => exact Or.inl ⟨rfl, rfl⟩
    rcases key with ⟨hk1, hk2⟩ | hk | hk
    · rw [List.foldlM_cons, List.foldlM_cons, hk1, hk2]; exact ih
    · right; left; rw [List.foldlM_cons, hk]; rfl
    · right; right; rw [List.foldlM_cons, hk]; rfl

/-- **C12 with reconfigured monitors.** Once exception processing of `o` has ended with behavior abort or restart (as set at this moment), no monitor of `o` fires
before `o` is called again or restarted. -/
theorem exception_once (P : Prog) (t1 t2 t3 : List Ev) (s : M) (o : Nat) (m m' : Mon) (hm : m.beh ≠ .resume)
    (h : ReachC P (t1 ++ .handled o m :: t2 ++ .fire o m' :: t3) s) : .call o ∈ t2 ∨ .restart o ∈ t2 := by
  by_contra hn
  rw [not_or] at hn
  have hb := (inv_reach h).e.busy o
  rw [busy_forget] at hb
  obtain ⟨b0, hh, -⟩ := (reachC_inv (Q := fun _ tr s => HInv o tr s) (fun _ => ⟨⟨false, rfl, by simp⟩, by simp [init]⟩)
    (fun P tr s s' ev hv hq hm => hinv_micro P o tr s s' ev hv hq hm) (fun _ _ _ _ _ hq => hinv_change hq) h).held
  simp only [List.append_assoc, List.cons_append, busy, held, List.foldlM_append, List.foldlM_cons] at hb hh
  cases h1 : t1.foldlM (busyStep o) false with
  | none => rw [h1] at hb; cases hb
  | some b =>
    cases h2 : t1.foldlM (heldStep o) false with
    | none => rw [h2] at hh; cases hh
    | some b' =>
      simp only [h1, Option.bind_eq_bind, Option.bind_some, busyStep, if_true] at hb
      simp only [h2, Option.bind_eq_bind, Option.bind_some, heldStep, if_true, hm, ne_eq, not_false_eq_true, decide_true] at hh
      cases b with
      | false => simp at hb
      | true =>
        simp only [if_true, Option.bind_some] at hb
        rcases held_between o t2 hn.1 hn.2 with ⟨h3, h4⟩ | h3 | h3
        · simp [h4] at hh
        · simp [h3] at hb
        · simp [h3] at hh

/-! ### C222: the number of retries -/

/-- Number of exception processings of `i` which ended with behavior restart: the behavior set when the exception sequence has finished, line 134. -/
def retries (i : Nat) (tr : List Ev) : Nat :=
  tr.countP (fun e => match e with | .handled o m => decide (o = i ∧ m.beh = .restart) | _ => false)

/-- Number of exception processings of `i`. -/
def handlings (i : Nat) (tr : List Ev) : Nat := tr.countP (fun e => match e with | .handled o _ => decide (o = i) | _ => false)

/-- Each restart of `i` is paid for by exception processing which ended with behavior restart. -/
theorem micro_restart (P : Prog) (s s' : M) (ev : List Ev) (hm : Micro P s s' ev) (i : Nat) :
    restarts i ev + (if s'.st i = .restarting then 1 else 0) ≤ (if s.st i = .restarting then 1 else 0) + retries i ev := by
  have hset : ∀ (j : Nat) (x : SState), x ≠ .restarting → (if upd s.st j x i = .restarting then 1 else 0) ≤ (if s.st i = .restarting then 1 else 0) := by
    intro j x hx
    by_cases hij : i = j
    · subst hij; simp [upd_same, hx]
    · rw [upd_other _ _ _ _ hij]; exact Nat.le_refl _
  cases hm with
  | call j hc hj => simp [restarts, retries]
  | dead => simp [restarts, retries]
  | spawn j => simp [restarts, retries]
  | leave i fs v hf => simp [restarts, retries]
  | idle i r fs hf hs => simp [restarts, retries]
  | enter j r fs hf hs => simpa [restarts, retries] using hset j .running (by decide)
  | refuse j r fs hf hs => simpa [restarts, retries] using hset j .terminated (by decide)
  | run j r fs hf hs => simp [restarts, retries]
  | abort j r fs hf hs => simpa [restarts, retries] using hset j .terminated (by decide)
  | restart j r fs hf hs =>
    by_cases hij : i = j
    · subst hij; simp [restarts, retries, upd, hs]
    · have : ¬ j = i := fun h => hij h.symm
      simp [restarts, retries, upd, hij, this]
  | ret j r fs hf hs => simpa [restarts, retries] using hset j .idle (by decide)
  | exitTrue j r fs hf => simpa [restarts, retries] using hset j .terminated (by decide)
  | exitFalse j r fs hf => simp [restarts, retries]
  | after k o m fs hf =>
    by_cases hio : i = o
    · subst hio
      cases hb : m.beh <;> simp [restarts, retries, afterExc, upd, hb]
    · have : ¬ o = i := fun h => hio h.symm
      cases hb : m.beh <;> simp [restarts, retries, afterExc, upd, hb, hio, this]
  | finish k fs hf hos =>
    have hst : ∀ st : Nat → SState, (∀ j, st j = s.st j ∨ st j = .aborting) →
        (if st i = .restarting then 1 else 0) ≤ (if s.st i = .restarting then 1 else 0) := by
      intro st h1
      rcases h1 i with h2 | h2 <;> rw [h2] <;> simp
    have hst2 : ∀ st : Nat → SState, (∀ j, st j = s.st j ∨ st j = .aborting) →
        (if (if st k.i = .aborting ∨ st k.i = .restarting then st else upd st k.i .starting) i = .restarting then 1 else 0) ≤
          (if s.st i = .restarting then 1 else 0) := by
      intro st h1
      by_cases hc2 : st k.i = .aborting ∨ st k.i = .restarting
      · simp only [if_pos hc2]; exact hst st h1
      · simp only [if_neg hc2]
        by_cases hik : i = k.i
        · subst hik; simp [upd_same]
        · rw [upd_other _ _ _ _ hik]; exact hst st h1
    have e0 : restarts i [] = 0 := rfl
    have e1 : retries i [] = 0 := rfl
    rw [e0, e1, Nat.zero_add, Nat.add_zero]
    unfold finish
    cases ha : k.act with
    | none =>
      cases hc : k.cont with
      | idle => exact hst2 s.st (fun _ => Or.inl rfl)
      | run => exact hst s.st (fun _ => Or.inl rfl)
    | some a =>
      cases hb : s.active a with
      | none => simp only [hb]; exact Nat.le_refl _
      | some m =>
        simp only [hb]
        cases hc : k.cont with
        | idle => exact hst2 _ (fun j => mark_cases _ _ _ _ j)
        | run => exact hst _ (fun j => mark_cases _ _ _ _ j)
  | skip k fs o os hf _ _ _ => simp [restarts, retries]
  | opn k fs o os hf _ _ _ => simp [restarts, retries]
  | next k fs o os hf _ _ => simp [restarts, retries]
  | pollFalse k fs o os m ms hf _ _ => simp [restarts, retries]
  | pollFired k fs o os m ms hf _ _ _ => simp [restarts, retries]
  | fire k fs o os m ms hf _ _ _ => simp [restarts, retries]

theorem retries_append (i : Nat) (t1 t2 : List Ev) : retries i (t1 ++ t2) = retries i t1 + retries i t2 := by simp [retries]

/-- Since any call of `i`, restarts are paid for by exception processing with behavior restart since this call. -/
theorem restarts_since_call {P : Prog} {tr : List Ev} {s : M} (h : ReachC P tr s) (i : Nat) :
    ∀ t1 t2, tr = t1 ++ .call i :: t2 → restarts i t2 + (if s.st i = .restarting then 1 else 0) ≤ retries i t2 := by
  refine reachC_inv (Q := fun _ tr s => ∀ t1 t2, tr = t1 ++ .call i :: t2 → restarts i t2 + (if s.st i = .restarting then 1 else 0) ≤ retries i t2)
    ?_ ?_ ?_ h
  · intro P t1 t2 he; simp at he
  · intro P tr s s' ev hv hq hm t1 t2 he
    have hr := micro_restart P s s' ev hm i
    rcases List.append_eq_append_iff.1 he with ⟨a, h1, h2⟩ | ⟨a, h1, h2⟩
    · -- the call is in the new events
      cases hm with
      | call j hc hj =>
        cases a with
        | nil =>
          simp only [List.nil_append, List.cons.injEq, Ev.call.injEq] at h2
          obtain ⟨rfl, rfl⟩ := h2
          have := hv.i j hj
          simp [restarts, retries, this]
        | cons e a =>
          simp only [List.cons_append, List.cons.injEq] at h2
          have := congrArg List.length h2.2
          simp at this
      | _ =>
        exfalso
        have : Ev.call i ∈ a ++ .call i :: t2 := by simp
        rw [← h2] at this
        simp at this
    · cases a with
      | nil =>
        simp only [List.nil_append] at h2
        have hmem : Ev.call i ∈ ev := by rw [← h2]; simp
        cases hm with
        | call j hc hj =>
          simp only [List.cons.injEq, Ev.call.injEq] at h2
          obtain ⟨rfl, rfl⟩ := h2
          have := hv.i i hj
          simp [restarts, retries, this]
        | _ => exfalso; simp at hmem
      | cons e a =>
        simp only [List.cons_append, List.cons.injEq] at h2
        obtain ⟨rfl, rfl⟩ := h2
        have := hq t1 a h1
        rw [restarts_append, retries_append]
        omega
  · intro P tr s c _ hq; exact hq

/-- Within one call the action of `i` is executed at most once plus once per exception processing which ended with behavior restart in this call. -/
theorem executions_per_call (P : Prog) (t1 t2 : List Ev) (s : M) (i : Nat) (h : ReachC P (t1 ++ .call i :: t2) s) :
    enters i t2 ≤ 1 + calls i t2 + retries i t2 := by
  obtain ⟨ph, hp, -⟩ := (inv_reach h).p.phase i
  have h1 := executions_of_phase t1 t2 i ph hp
  have h2 := restarts_since_call h i t1 t2 rfl
  omega

theorem retries_le (i n : Nat) (t : List Ev) : ∀ k, (∀ u v m, t = u ++ .handled i m :: v → n ≤ k + handlings i u → m.beh ≠ .restart) → retries i t ≤ n - k := by
  induction t with
  | nil => intro k _; simp [retries]
  | cons e t ih =>
    intro k h
    have hne : ∀ e' : Ev, (∀ m, e' ≠ .handled i m) → e' = e → retries i (e :: t) ≤ n - k := by
      intro e' h1 h2
      subst h2
      have h3 : retries i [e'] = 0 ∧ handlings i [e'] = 0 := by
        cases e' with
        | handled o m =>
          have : ¬ o = i := by rintro rfl; exact h1 m rfl
          simp [retries, handlings, this]
        | _ => simp [retries, handlings]
      have h4 : retries i (e' :: t) = retries i t := by
        rw [show e' :: t = [e'] ++ t from rfl, retries_append, h3.1, Nat.zero_add]
      rw [h4]
      refine ih k ?_
      intro u v m h5 h6
      refine h (e' :: u) v m (by rw [h5]; rfl) ?_
      have : handlings i (e' :: u) = handlings i u := by
        have h7 := h3.2
        simp only [handlings] at h7 ⊢
        rw [List.countP_cons] at h7 ⊢
        simp only [List.countP_nil] at h7
        omega
      omega
    cases e with
    | handled o m =>
      by_cases ho : o = i
      · subst ho
        have h1 := h [] t m rfl
        have h2 : retries o t ≤ n - (k + 1) := by
          refine ih (k + 1) ?_
          intro u v m' h5 h6
          refine h (.handled o m :: u) v m' (by rw [h5]; rfl) ?_
          have : handlings o (.handled o m :: u) = handlings o u + 1 := by simp [handlings]
          omega
        have h3 : retries o (.handled o m :: t) = retries o t + (if m.beh = .restart then 1 else 0) := by
          simp [retries, List.countP_cons]
        rw [h3]
        by_cases hb : m.beh = .restart
        · rw [if_pos hb]
          by_cases hk : n ≤ k
          · exact absurd hb (h1 (by simpa [handlings] using hk))
          · omega
        · rw [if_neg hb]; omega
      · exact hne _ (by intro m' he; cases he; exact ho rfl) rfl
    | _ => exact hne _ (by intro m' he; cases he) rfl

/-- **C222.** The retry limit of SequencerTest23 and 26: if in a call the behavior found at the end of exception processing is no longer restart after `n`
exception processings (as the exception sequence has changed it), the action is executed at most `n + 1` times in this call. -/
theorem retry_limit (P : Prog) (t1 t2 : List Ev) (s : M) (i n : Nat) (h : ReachC P (t1 ++ .call i :: t2) s) (hc : .call i ∉ t2)
    (hl : ∀ u v m, t2 = u ++ .handled i m :: v → n ≤ handlings i u → m.beh ≠ .restart) : enters i t2 ≤ n + 1 := by
  have h1 := executions_per_call P t1 t2 s i h
  have h2 := retries_le i n t2 0 (by simpa using hl)
  have h3 : calls i t2 = 0 := by
    rw [calls, List.countP_eq_zero]
    intro e he
    cases e with
    | call j =>
      simp only [decide_eq_true_eq]
      intro hj; rw [hj] at he; exact hc he
    | _ => simp
  omega

/-! ### What the exception sequence has changed stays changed -/

/-- A change which makes no monitor of `i` restart. -/
def NoNewRestart (i : Nat) (P : Prog) (c : Change) : Prop :=
  (∀ m ∈ P.mons i, m.beh ≠ .restart → (c.g m).beh ≠ .restart) ∧ ∀ m ∈ c.add i, m.beh ≠ .restart

/-- Continuations of a history without changes that make a monitor of `i` restart. -/
inductive RunC (i : Nat) : Prog → M → List Ev → Prog → M → Prop where
  | refl (P s) : RunC i P s [] P s
  | step (P s tr P' s' x s'' ev) : RunC i P s tr P' s' → step P' s' x = some (s'', ev) →
      (∀ j, .call j ∈ ev → ∀ c ∈ P'.cstack j, c ≠ j → c ∈ s'.frames.map Frame.id) → RunC i P s (tr ++ ev) P' s''
  | change (P s tr P' s') (c : Change) : RunC i P s tr P' s' → NoNewRestart i P' c → RunC i P s tr (prog c P') (state c s')

theorem micro_handled {P : Prog} {s s' : M} {ev : List Ev} (hs : ∀ f ∈ s.frames, Shape P f) (hm : Micro P s s' ev) {o : Nat} {m : Mon}
    (h : .handled o m ∈ ev) : m ∈ P.mons o := by
  cases hm with
  | after k o' m' fs hf =>
    simp only [List.mem_singleton, Ev.handled.injEq] at h
    obtain ⟨rfl, rfl⟩ := h
    exact (hs (.exc k o m) (by rw [hf]; simp)).2.2.2
  | _ => simp at h

theorem runC {i : Nat} {P P' : Prog} {t1 t2 : List Ev} {s s' : M} (h : ReachC P t1 s) (hn : ∀ m ∈ P.mons i, m.beh ≠ .restart) (h2 : RunC i P s t2 P' s') :
    ReachC P' (t1 ++ t2) s' ∧ (∀ m ∈ P'.mons i, m.beh ≠ .restart) ∧ ∀ m, .handled i m ∈ t2 → m.beh ≠ .restart := by
  induction h2 with
  | refl => exact ⟨by simpa using h, hn, by simp⟩
  | step tr P' s' x s'' ev _ hs hw ih =>
    obtain ⟨h1, h2, h3⟩ := ih
    refine ⟨by rw [← List.append_assoc]; exact .step _ _ _ _ _ _ h1 hs hw, h2, ?_⟩
    intro m hm
    rcases List.mem_append.1 hm with hm | hm
    · exact h3 m hm
    · have hv := inv_reach h1
      apply h2
      rcases stepW P' s' s'' x ev hs hw with ⟨h4, -⟩ | ⟨s1, ev1, ev2, h4, h5, h6, -, rfl⟩
      · exact micro_handled hv.e.shape h4 hm
      · rcases List.mem_append.1 hm with hm | hm
        · exact micro_handled hv.e.shape h4 hm
        · exact micro_handled (inv_micro P' _ s' s1 ev1 hv h4 h5).e.shape h6 hm
  | change tr P' s' c _ hc ih =>
    obtain ⟨h1, h2, h3⟩ := ih
    refine ⟨.change _ _ _ c h1, ?_, h3⟩
    intro m hm
    simp only [prog, List.mem_append, List.mem_map] at hm
    rcases hm with ⟨m0, h4, rfl⟩ | hm
    · exact hc.1 m0 h4 (h2 m0 h4)
    · exact hc.2 m hm

/-- **C224, violated.** The framework does not give back the behavior which the exception sequence has taken away: once no monitor of `i` has behavior restart
(as after the limit was used up in one call), every later call of `i` executes its action at most once, unless the behavior is set again. -/
theorem later_calls_not_retried_violated (P P' : Prog) (t1 t2 t3 : List Ev) (s s' : M) (i : Nat) (h : ReachC P t1 s) (hn : ∀ m ∈ P.mons i, m.beh ≠ .restart)
    (h2 : RunC i P s (t2 ++ .call i :: t3) P' s') (hc : .call i ∉ t3) : enters i t3 ≤ 1 := by
  obtain ⟨h3, -, h4⟩ := runC h hn h2
  rw [← List.append_assoc] at h3
  refine retry_limit P' (t1 ++ t2) t3 s' i 0 h3 hc ?_
  intro u v m he _
  exact h4 m (by rw [he]; simp)

/-! ### SequencerTest26 -/

/-- What happens next in a run with changes: an input of the machine or a change. -/
inductive Act where
  | inp (x : Inp)
  | chg (c : Change)

def okCalls (P : Prog) (s : M) (ev : List Ev) : Bool :=
  ev.all (fun e => match e with
    | .call j => (P.cstack j).all (fun c => decide (c = j) || decide (c ∈ s.frames.map Frame.id))
    | _ => true)

/-- Runs with changes, for examples. -/
def execC : Prog → M → List Act → Option (Prog × M × List Ev)
  | P, s, [] => some (P, s, [])
  | P, s, .chg c :: as => execC (prog c P) (state c s) as
  | P, s, .inp x :: as => match step P s x with
    | none => none
    | some (s', ev) => if okCalls P s ev then (execC P s' as).map (fun r => (r.1, r.2.1, ev ++ r.2.2)) else none

theorem execC_reach (as : List Act) : ∀ (P : Prog) (tr : List Ev) (s : M) (P' : Prog) (s' : M) (t : List Ev), ReachC P tr s →
    execC P s as = some (P', s', t) → ReachC P' (tr ++ t) s' := by
  induction as with
  | nil => intro P tr s P' s' t h he; simp only [execC, Option.some.injEq, Prod.mk.injEq] at he; obtain ⟨rfl, rfl, rfl⟩ := he; simpa using h
  | cons a as ih =>
    intro P tr s P' s' t h he
    cases a with
    | chg c => exact ih _ _ _ _ _ _ (.change P tr s c h) he
    | inp x =>
      simp only [execC] at he
      cases hs : step P s x with
      | none => rw [hs] at he; cases he
      | some r =>
        obtain ⟨s1, ev⟩ := r
        simp only [hs] at he
        split at he
        · rename_i hok
          simp only [Option.map_eq_some_iff, Prod.mk.injEq] at he
          obtain ⟨⟨P2, s2, t2⟩, h1, rfl, rfl, rfl⟩ := he
          rw [← List.append_assoc]
          refine ih P (tr ++ ev) s1 _ _ _ (.step P tr s x s1 ev h hs ?_) h1
          intro j hj c hc hcj
          have := List.all_eq_true.1 hok (.call j) hj
          have := List.all_eq_true.1 this c hc
          simpa [hcj] using this
        · cases he

/-- The main sequence 0, the sequence 1 with a timeout whose behavior is restart, its step 2 and its exception sequence 3. -/
def test26 : Prog where
  caller := fun i => if i = 1 then some 0 else if i = 2 ∨ i = 3 then some 1 else none
  older := by
    intro i c h
    by_cases h1 : i = 1
    · simp [h1] at h; omega
    · by_cases h2 : i = 2 ∨ i = 3
      · simp [h1, h2] at h; omega
      · simp [h1, h2] at h
  blocking := fun _ => true
  mons := fun i => if i = 1 then [⟨0, .restart, some 3⟩] else []

/-- `caller->setTimeoutBehavior(SequenceProp::abort)`. -/
def toAbort : Change where
  g := fun m => { m with beh := .abort }
  add := fun _ => []

open Act Inp in
/-- The main sequence is started up to its action. -/
def begin0 : List Act := [inp (call 0), inp tick, inp tick, inp tick, inp tick, inp (pre true)]

open Act Inp in
/-- Sequence 1 is called up to its precondition. -/
def call1 : List Act := [inp (call 1), inp tick, inp tick, inp (cond false), inp tick, inp tick, inp tick, inp tick]

open Act Inp in
/-- The action of sequence 1 is entered, its step runs into the timeout, the exception sequence is executed (and does `c`), the step and the action end. -/
def attempt (c : List Act) : List Act :=
  [inp (pre true), inp (call 2), inp tick, inp tick, inp tick, inp tick, inp (cond true)] ++
  [inp tick, inp tick, inp tick, inp tick, inp tick, inp tick, inp tick, inp (pre true)] ++ c ++
  [inp (ret 0), inp tick, inp tick, inp tick, inp tick, inp tick, inp tick, inp tick, inp (exitc true), inp tick] ++
  [inp tick, inp tick, inp tick, inp tick, inp tick, inp tick, inp tick, inp (ret 0), inp tick]

def firstCall : List Act := call1 ++ attempt [] ++ attempt [] ++ attempt [.chg toAbort] ++ [.inp .tick]

def run26 (as : List Act) : List Ev := ((execC test26 init as).map (fun r => r.2.2)).getD []

/-- The first call executes the action three times (two restarts, then aborted) and returns; the second call executes it once. -/
example : enters 1 (run26 (begin0 ++ firstCall)) = 3 ∧ handlings 1 (run26 (begin0 ++ firstCall)) = 3 ∧ retries 1 (run26 (begin0 ++ firstCall)) = 2 ∧
    (run26 (begin0 ++ firstCall)).getLast? = some (.ret 1 0) := by decide +kernel
example : enters 1 (run26 (begin0 ++ firstCall ++ call1 ++ attempt [] ++ [.inp .tick])) = 4 ∧
    calls 1 (run26 (begin0 ++ firstCall ++ call1 ++ attempt [] ++ [.inp .tick])) = 2 ∧
    (run26 (begin0 ++ firstCall ++ call1 ++ attempt [] ++ [.inp .tick])).getLast? = some (.ret 1 0) := by decide +kernel

/-- The condition of `retry_limit` by positions. -/
def limitOk (i n : Nat) (t : List Ev) : Bool :=
  (List.range t.length).all (fun k => match t[k]? with
    | some (.handled o m) => !(decide (o = i) && decide (n ≤ handlings i (t.take k)) && decide (m.beh = .restart))
    | _ => true)

theorem limit_of_ok (i n : Nat) (t : List Ev) (h : limitOk i n t = true) :
    ∀ u v m, t = u ++ .handled i m :: v → n ≤ handlings i u → m.beh ≠ .restart := by
  intro u v m he hn hb
  subst he
  have := List.all_eq_true.1 h u.length (by simp)
  simp [hn, hb] at this

theorem reach26 (as : List Act) (h : (execC test26 init as).isSome) : ∃ P s, ReachC P (run26 as) s := by
  cases hr : execC test26 init as with
  | none => rw [hr] at h; cases h
  | some r =>
    refine ⟨r.1, r.2.1, ?_⟩
    have := execC_reach as test26 [] init r.1 r.2.1 r.2.2 (.init test26) hr
    simpa [run26, hr] using this

/-- `retry_limit` with limit 2 applies to the first call, and its bound is met. -/
example : enters 1 ((run26 (begin0 ++ firstCall)).drop 3) ≤ 2 + 1 := by
  obtain ⟨P, s, h⟩ := reach26 (begin0 ++ firstCall) (by decide +kernel)
  have he : run26 (begin0 ++ firstCall) = (run26 (begin0 ++ firstCall)).take 2 ++ .call 1 :: (run26 (begin0 ++ firstCall)).drop 3 := by decide +kernel
  rw [he] at h
  exact retry_limit P _ _ s 1 2 h (by decide +kernel) (limit_of_ok 1 2 _ (by decide +kernel))
/-- With limit 1 the condition fails: the second exception processing still ends with restart. -/
example : limitOk 1 1 ((run26 (begin0 ++ firstCall)).drop 3) = false ∧ enters 1 ((run26 (begin0 ++ firstCall)).drop 3) = 3 := by decide +kernel

theorem execC_run (i : Nat) (xs : List Inp) : ∀ (P0 : Prog) (s0 : M) (tr : List Ev) (P : Prog) (s : M) (P' : Prog) (s' : M) (t : List Ev),
    RunC i P0 s0 tr P s → execC P s (xs.map .inp) = some (P', s', t) → RunC i P0 s0 (tr ++ t) P' s' := by
  induction xs with
  | nil =>
    intro P0 s0 tr P s P' s' t h he
    simp only [List.map_nil, execC, Option.some.injEq, Prod.mk.injEq] at he; obtain ⟨rfl, rfl, rfl⟩ := he; simpa using h
  | cons x xs ih =>
    intro P0 s0 tr P s P' s' t h he
    simp only [List.map_cons, execC] at he
    cases hs : step P s x with
    | none => rw [hs] at he; cases he
    | some r =>
      obtain ⟨s1, ev⟩ := r
      simp only [hs] at he
      split at he
      · rename_i hok
        simp only [Option.map_eq_some_iff, Prod.mk.injEq] at he
        obtain ⟨⟨P2, s2, t2⟩, h1, rfl, rfl, rfl⟩ := he
        rw [← List.append_assoc]
        refine ih P0 s0 (tr ++ ev) P s1 _ _ _ (.step P0 s0 tr P s x s1 ev h hs ?_) h1
        intro j hj c hc hcj
        have := List.all_eq_true.1 hok (.call j) hj
        have := List.all_eq_true.1 this c hc
        simpa [hcj] using this
      · cases he

def inpOf : Act → Inp
  | .inp x => x
  | .chg _ => .tick

/-- The state after the first call, and the events of the second call. -/
def after26 : Prog × M × List Ev := (execC test26 init (begin0 ++ firstCall)).getD (test26, init, [])
def second26 : List Ev := ((execC after26.1 after26.2.1 ((call1 ++ attempt []).map (fun a => .inp (inpOf a)))).map (fun r => r.2.2)).getD []

/-- `later_calls_not_retried_violated` applies to the second call: the timeout fires in it and its action is executed once only. -/
example : enters 1 (second26.drop 1) ≤ 1 := by
  have h0 : (execC test26 init (begin0 ++ firstCall)).isSome = true := by decide +kernel
  have h1 : ReachC after26.1 after26.2.2 after26.2.1 := by
    have := execC_reach (begin0 ++ firstCall) test26 [] init after26.1 after26.2.1 after26.2.2 (.init test26)
      (by unfold after26; cases h : execC test26 init (begin0 ++ firstCall) with
        | none => rw [h] at h0; cases h0
        | some r => rfl)
    simpa using this
  have h2 : (execC after26.1 after26.2.1 ((call1 ++ attempt []).map (fun a => .inp (inpOf a)))).isSome = true := by decide +kernel
  obtain ⟨P', s', h3⟩ : ∃ P' s', RunC 1 after26.1 after26.2.1 second26 P' s' := by
    cases h : execC after26.1 after26.2.1 ((call1 ++ attempt []).map (fun a => .inp (inpOf a))) with
    | none => rw [h] at h2; cases h2
    | some r =>
      refine ⟨r.1, r.2.1, ?_⟩
      have := execC_run 1 ((call1 ++ attempt []).map inpOf) after26.1 after26.2.1 [] after26.1 after26.2.1 r.1 r.2.1 r.2.2 (.refl _ _)
        (by rw [List.map_map]; exact h)
      have e : second26 = r.2.2 := by unfold second26; rw [h]; rfl
      rw [e]; exact this
  have he : second26 = [] ++ .call 1 :: second26.drop 1 := by decide +kernel
  rw [he] at h3
  exact later_calls_not_retried_violated after26.1 P' after26.2.2 [] (second26.drop 1) after26.2.1 s' 1 h1 (by decide +kernel) h3 (by decide +kernel)
example : enters 1 second26 = 1 ∧ handlings 1 second26 = 1 := by decide +kernel

/-- `exception_once` and `exceptions_not_nested` apply to the first call: it has three firings, with a restart between them. -/
example : ((run26 (begin0 ++ firstCall)).filter (fun e => match e with | .fire _ _ => true | .handled _ _ => true | .restart _ => true | _ => false)) =
    [.fire 1 ⟨0, .restart, some 3⟩, .handled 1 ⟨0, .restart, some 3⟩, .restart 1, .fire 1 ⟨0, .restart, some 3⟩, .handled 1 ⟨0, .restart, some 3⟩, .restart 1,
     .fire 1 ⟨0, .restart, some 3⟩, .handled 1 ⟨0, .abort, some 3⟩] := by decide +kernel

end Verif.Sequencer.Reconf
