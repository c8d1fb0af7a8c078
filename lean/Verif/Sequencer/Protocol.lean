import Verif.Sequencer.Micro
/-!
C09 and C10: the protocol every sequence follows.
-/
namespace Verif.Sequencer

/-! ### Specification: the life of one sequence as an automaton over the events -/

/-- Phases of a sequence `i`; `r` is the value its `start()` would return now. -/
inductive Phase where
  /-- not called -/
  | off
  /-- called or restarted, action not (again) executed -/
  | ready (r : Int)
  /-- executing its action -/
  | inside
  /-- action executed, polling for its exit condition -/
  | after (r : Int)
  /-- precondition refused -/
  | done (r : Int)
deriving DecidableEq

/-- The allowed events of sequence `i`.  The value returned is -1 until the action was executed, then the value of the last execution. -/
def proto (i : Nat) (ph : Phase) (e : Ev) : Option Phase :=
  match e with
  | .call j => if j = i then (if ph = .off then some (.ready (-1)) else none) else some ph
  | .enter j => if j = i then (match ph with | .ready _ => some .inside | _ => none) else some ph
  | .leave j v => if j = i then (if ph = .inside then some (.after v) else none) else some ph
  | .restart j => if j = i then (match ph with | .ready r => some (.ready r) | .after r => some (.ready r) | _ => none) else some ph
  | .refuse j => if j = i then (match ph with | .ready r => some (.done r) | _ => none) else some ph
  | .ret j v => if j = i then
      (match ph with
        | .ready r => if v = r then some .off else none
        | .after r => if v = r then some .off else none
        | .done r => if v = r then some .off else none
        | _ => none) else some ph
  | _ => some ph

/-- Phase of `i` after a history; `none` if the history is not allowed. -/
def phase (i : Nat) (tr : List Ev) : Option Phase := tr.foldlM (proto i) .off

theorem phase_append (i : Nat) (tr ev : List Ev) : phase i (tr ++ ev) = (phase i tr).bind (fun ph => ev.foldlM (proto i) ph) := by
  simp only [phase, List.foldlM_append]; rfl

/-! ### The invariant -/

/-- Frames below the top: custom actions and exception processing. -/
def Frame.low : Frame → Prop
  | .body _ => True
  | .exc _ _ _ => True
  | _ => False

/-- Neither `idle` nor `starting`. -/
def SState.started (st : SState) : Prop := st ≠ .idle ∧ st ≠ .starting

def Fits (f : Frame) (ph : Phase) (st : SState) : Prop :=
  match f with
  | .loop _ r => ph = .ready r ∨ (ph = .after r ∧ st.started) ∨ (ph = .done r ∧ st = .terminated)
  | .exit _ r => (ph = .ready r ∨ ph = .after r) ∧ st.started
  | .body _ => ph = .inside ∧ st.started
  | .check k => (k.cont = .idle ∧ ph = .ready k.ret) ∨ (k.cont = .run ∧ (ph = .ready k.ret ∨ ph = .after k.ret) ∧ st.started)
  | .exc k _ _ => (k.cont = .idle ∧ ph = .ready k.ret) ∨ (k.cont = .run ∧ (ph = .ready k.ret ∨ ph = .after k.ret) ∧ st.started)

theorem fits_mono {f : Frame} {ph : Phase} {st st' : SState} (h : Fits f ph st) (hl : ∀ i r, f ≠ .loop i r) (hs : st'.started) : Fits f ph st' := by
  cases f with
  | loop i r => exact absurd rfl (hl i r)
  | exit i r => exact ⟨h.1, hs⟩
  | body i => exact ⟨h.1, hs⟩
  | check k => rcases h with h | ⟨h1, h2, -⟩; exact Or.inl h; exact Or.inr ⟨h1, h2, hs⟩
  | exc k o m => rcases h with h | ⟨h1, h2, -⟩; exact Or.inl h; exact Or.inr ⟨h1, h2, hs⟩

structure PInv (tr : List Ev) (s : M) : Prop where
  nodup : (s.frames.map Frame.id).Nodup
  tail : ∀ f ∈ s.frames.tail, f.low
  phase : ∀ i, ∃ ph, phase i tr = some ph ∧ (i ∉ s.frames.map Frame.id → ph = .off) ∧ ∀ f ∈ s.frames, f.id = i → Fits f ph (s.st i)

theorem upd_same {α : Type} (f : Nat → α) (i : Nat) (v : α) : upd f i v i = v := by simp [upd]
theorem upd_other {α : Type} (f : Nat → α) (i j : Nat) (v : α) (h : j ≠ i) : upd f i v j = f j := by simp [upd, h]

theorem mark_cases (fired : Nat → Bool) (b : Beh) (l : List Nat) : ∀ (st : Nat → SState) (x : Nat),
    mark fired b l st x = st x ∨ mark fired b l st x = .aborting := by
  induction l with
  | nil => intro st x; exact Or.inl rfl
  | cons y l ih =>
    intro st x
    unfold mark
    split
    · exact Or.inl rfl
    · rcases ih (if b = .resume then st else upd st y .aborting) x with h | h
      · rw [h]
        split
        · exact Or.inl rfl
        · by_cases hxy : x = y
          · subst hxy; right; simp [upd]
          · left; simp [upd, hxy]
      · exact Or.inr h

theorem started_aborting : SState.started .aborting := by simp [SState.started]
theorem started_running : SState.started .running := by simp [SState.started]
theorem started_restarting : SState.started .restarting := by simp [SState.started]
theorem started_terminated : SState.started .terminated := by simp [SState.started]

/-- The top frame is replaced by one of the same sequence, without protocol events; states of others change to started ones only. -/
theorem pinv_replace {tr ev : List Ev} {s s' : M} (h : PInv tr s) (f0 f1 : Frame) (fs : List Frame) (hf : s.frames = f0 :: fs)
    (hf' : s'.frames = f1 :: fs) (hid : f1.id = f0.id) (hev : ∀ i ph, ev.foldlM (proto i) ph = some ph)
    (hst : ∀ j, j ≠ f0.id → s'.st j = s.st j ∨ (s'.st j).started)
    (htop : ∀ ph, Fits f0 ph (s.st f0.id) → Fits f1 ph (s'.st f0.id)) : PInv (tr ++ ev) s' := by
  obtain ⟨hn, ht, hp⟩ := h
  have hids : s'.frames.map Frame.id = s.frames.map Frame.id := by rw [hf, hf']; simp [hid]
  refine ⟨by rw [hids]; exact hn, by rw [hf'] ; rw [hf] at ht; exact ht, ?_⟩
  intro i
  obtain ⟨ph, h1, h2, h3⟩ := hp i
  refine ⟨ph, by rw [phase_append, h1]; exact hev i ph, by rw [hids]; exact h2, ?_⟩
  rw [hf'] ; rw [hf] at h3 hn ht
  intro f hfm hfi
  rcases List.mem_cons.1 hfm with rfl | hfm
  · have := h3 f0 (by simp) (by rw [← hid]; exact hfi)
    have hi0 : i = f0.id := by rw [← hfi]; exact hid
    rw [hi0] at this ⊢
    exact htop ph this
  · have hold := h3 f (by simp [hfm]) hfi
    have hne : i ≠ f0.id := by
      intro he
      simp only [List.map_cons, List.nodup_cons] at hn
      apply hn.1
      rw [← he, ← hfi]
      exact List.mem_map_of_mem hfm
    rcases hst i hne with he | hs
    · rw [he]; exact hold
    · refine fits_mono hold ?_ hs
      intro a b hab
      have := ht f (by simpa using hfm)
      rw [hab] at this
      exact this

/-- The top frame is replaced, with one protocol event of its own sequence. -/
theorem pinv_event {tr : List Ev} {e : Ev} {s s' : M} (h : PInv tr s) (f0 f1 : Frame) (fs : List Frame) (hf : s.frames = f0 :: fs)
    (hf' : s'.frames = f1 :: fs) (hid : f1.id = f0.id) (hev : ∀ i ph, i ≠ f0.id → proto i ph e = some ph)
    (hst : ∀ j, j ≠ f0.id → s'.st j = s.st j)
    (htop : ∀ ph, Fits f0 ph (s.st f0.id) → ∃ ph', proto f0.id ph e = some ph' ∧ Fits f1 ph' (s'.st f0.id)) : PInv (tr ++ [e]) s' := by
  obtain ⟨hn, ht, hp⟩ := h
  have hids : s'.frames.map Frame.id = s.frames.map Frame.id := by rw [hf, hf']; simp [hid]
  refine ⟨by rw [hids]; exact hn, by rw [hf'] ; rw [hf] at ht; exact ht, ?_⟩
  intro i
  obtain ⟨ph, h1, h2, h3⟩ := hp i
  rw [hf'] ; rw [hf] at h3 hn ht
  by_cases hi : i = f0.id
  · obtain ⟨ph', hp1, hp2⟩ := htop ph (by have := h3 f0 (by simp) hi.symm; rwa [hi] at this)
    refine ⟨ph', by rw [phase_append, h1]; simp [hi, hp1], fun hno => ?_, ?_⟩
    · exact absurd (by simp [hi, hid]) hno
    · intro f hfm hfi
      rcases List.mem_cons.1 hfm with rfl | hfm
      · rw [hi]; exact hp2
      · exfalso
        simp only [List.map_cons, List.nodup_cons] at hn
        apply hn.1
        rw [← hi, ← hfi]
        exact List.mem_map_of_mem hfm
  · refine ⟨ph, by rw [phase_append, h1]; simp [hev i ph hi], ?_, ?_⟩
    · intro hno; apply h2
      rw [hf]; simpa [hid] using hno
    · intro f hfm hfi
      rcases List.mem_cons.1 hfm with rfl | hfm
      · exact absurd (hfi ▸ hid) hi
      · rw [hst i hi]; exact h3 f (by simp [hfm]) hfi

theorem pinv_micro (P : Prog) (tr : List Ev) (s s' : M) (ev : List Ev) (h : PInv tr s) (hm : Micro P s s' ev) : PInv (tr ++ ev) s' := by
  have hnil : ∀ i ph, ([] : List Ev).foldlM (proto i) ph = some ph := fun _ _ => rfl
  cases hm with
  | call j hc hj =>
    obtain ⟨hn, ht, hp⟩ := h
    refine ⟨List.nodup_cons.2 ⟨hj, hn⟩, ?_, ?_⟩
    · intro f hf
      simp only [List.tail_cons] at hf
      cases hfr : s.frames with
      | nil => rw [hfr] at hf; cases hf
      | cons g gs =>
        rw [hfr] at hf hc ht
        rcases List.mem_cons.1 hf with rfl | hf
        · cases f <;> simp [CanCall] at hc <;> trivial
        · exact ht f hf
    · intro i
      obtain ⟨ph, h1, h2, h3⟩ := hp i
      by_cases hi : i = j
      · subst hi
        refine ⟨.ready (-1), by rw [phase_append, h1, h2 hj]; simp [proto], by simp [Frame.id], ?_⟩
        intro f hf hfi
        rcases List.mem_cons.1 hf with rfl | hf
        · exact Or.inl rfl
        · exact absurd (by rw [← hfi]; exact List.mem_map_of_mem hf) hj
      · refine ⟨ph, by rw [phase_append, h1]; simp [proto, Ne.symm hi], ?_, ?_⟩
        · intro hno; apply h2; intro hmem; apply hno; simp [hmem]
        · intro f hf hfi
          rcases List.mem_cons.1 hf with rfl | hf
          · exact absurd hfi.symm hi
          · exact h3 f hf hfi
  | dead =>
    exact ⟨h.nodup, h.tail, by simpa using h.phase⟩
  | spawn j =>
    refine ⟨h.nodup, h.tail, ?_⟩
    intro i
    obtain ⟨ph, h1, h2⟩ := h.phase i
    exact ⟨ph, by rw [phase_append, h1]; simp [proto], h2⟩
  | leave i fs v hf =>
    exact pinv_event h _ _ fs hf rfl rfl (by intro j ph hj; simp [proto, Ne.symm hj, Frame.id] ; intro he; exact absurd he.symm hj)
      (fun _ _ => rfl) (by
        intro ph hph; obtain ⟨rfl, hs⟩ := hph
        exact ⟨.after v, by simp [proto, Frame.id], Or.inr (Or.inl ⟨rfl, hs⟩)⟩)
  | idle i r fs hf hs =>
    exact pinv_replace h _ _ fs hf rfl rfl hnil (fun _ _ => Or.inl rfl) (by
      intro ph hph
      rcases hph with rfl | ⟨-, hst⟩ | ⟨-, hst⟩
      · exact Or.inl ⟨rfl, rfl⟩
      · exact absurd hs hst.1
      · have : s.st i = .terminated := hst
        rw [hs] at this; cases this)
  | enter i r fs hf hs =>
    exact pinv_event h _ _ fs hf rfl rfl (by intro j ph hj; simp [proto]; intro he; exact absurd he.symm hj)
      (fun j hj => upd_other _ _ _ _ hj) (by
        intro ph hph
        rcases hph with rfl | ⟨-, hst⟩ | ⟨-, hst⟩
        · exact ⟨.inside, by simp [proto, Frame.id], rfl, by simp [Frame.id, upd, SState.started]⟩
        · exact absurd hs hst.2
        · have : s.st i = .terminated := hst
          rw [hs] at this; cases this)
  | refuse i r fs hf hs =>
    exact pinv_event h _ _ fs hf hf rfl (by intro j ph hj; simp [proto]; intro he; exact absurd he.symm hj)
      (fun j hj => upd_other _ _ _ _ hj) (by
        intro ph hph
        rcases hph with rfl | ⟨-, hst⟩ | ⟨-, hst⟩
        · exact ⟨.done r, by simp [proto, Frame.id], Or.inr (Or.inr ⟨rfl, by simp [Frame.id, upd]⟩)⟩
        · exact absurd hs hst.2
        · have : s.st i = .terminated := hst
          rw [hs] at this; cases this)
  | run i r fs hf hs =>
    exact pinv_replace h _ _ fs hf rfl rfl hnil (fun _ _ => Or.inl rfl) (by
      intro ph hph
      have hst : (s.st i).started := by rw [hs]; exact started_running
      rcases hph with rfl | ⟨rfl, -⟩ | ⟨-, hst'⟩
      · exact Or.inr ⟨rfl, Or.inl rfl, hst⟩
      · exact Or.inr ⟨rfl, Or.inr rfl, hst⟩
      · have : s.st i = .terminated := hst'
        rw [hs] at this; cases this)
  | abort i r fs hf hs =>
    exact pinv_replace h _ _ fs hf hf rfl hnil (fun j hj => Or.inl (upd_other _ _ _ _ hj)) (by
      intro ph hph
      have e : upd s.st i .terminated i = .terminated := upd_same _ _ _
      rcases hph with rfl | ⟨rfl, -⟩ | ⟨rfl, -⟩
      · exact Or.inl rfl
      · exact Or.inr (Or.inl ⟨rfl, by simp only [Frame.id]; rw [e]; exact started_terminated⟩)
      · exact Or.inr (Or.inr ⟨rfl, e⟩))
  | restart i r fs hf hs =>
    exact pinv_event h _ _ fs hf hf rfl (by intro j ph hj; simp [proto]; intro he; exact absurd he.symm hj)
      (fun j hj => upd_other _ _ _ _ hj) (by
        intro ph hph
        rcases hph with rfl | ⟨rfl, -⟩ | ⟨-, hst⟩
        · exact ⟨.ready r, by simp [proto, Frame.id], Or.inl rfl⟩
        · exact ⟨.ready r, by simp [proto, Frame.id], Or.inl rfl⟩
        · have : s.st i = .terminated := hst
          rw [hs] at this; cases this)
  | ret i r fs hf hs =>
    obtain ⟨hn, ht, hp⟩ := h
    rw [hf] at hn ht hp
    simp only [List.map_cons, List.nodup_cons] at hn
    refine ⟨hn.2, fun f hff => ht f (List.mem_of_mem_tail hff), ?_⟩
    intro j
    obtain ⟨ph, h1, h2, h3⟩ := hp j
    by_cases hj : j = i
    · subst hj
      have := h3 _ (List.mem_cons_self) rfl
      have hph : proto j ph (.ret j r) = some .off := by
        rcases this with rfl | ⟨rfl, -⟩ | ⟨rfl, -⟩ <;> simp [proto]
      refine ⟨.off, by rw [phase_append, h1]; simp [hph], fun _ => rfl, ?_⟩
      intro f hff hfi
      have : f.id ∈ fs.map Frame.id := List.mem_map_of_mem hff
      rw [hfi] at this
      exact absurd this hn.1
    · refine ⟨ph, by rw [phase_append, h1]; simp [proto, Ne.symm hj], ?_, ?_⟩
      · intro hno; apply h2; simp only [List.map_cons, List.mem_cons, not_or]; exact ⟨hj, hno⟩
      · intro f hff hfi
        show Fits f ph (upd s.st i .idle j)
        rw [upd_other _ _ _ _ hj]; exact h3 f (by simp [hff]) hfi
  | exitTrue i r fs hf =>
    exact pinv_replace h _ _ fs hf rfl rfl hnil (fun j hj => Or.inl (upd_other _ _ _ _ hj)) (by
      intro ph hph
      have e : upd s.st i .terminated i = .terminated := upd_same _ _ _
      obtain ⟨hph | hph, -⟩ := hph
      · exact Or.inl hph
      · exact Or.inr (Or.inl ⟨hph, by simp only [Frame.id]; rw [e]; exact started_terminated⟩))
  | exitFalse i r fs hf =>
    exact pinv_replace h _ _ fs hf rfl rfl hnil (fun j hj => Or.inl rfl) (by
      intro ph hph
      obtain ⟨hph | hph, hst⟩ := hph
      · exact Or.inl hph
      · exact Or.inr (Or.inl ⟨hph, hst⟩))
  | after k o m fs hf =>
    have hst : ∀ j, (afterExc s k o m fs).1.st j = s.st j ∨ ((afterExc s k o m fs).1.st j).started := by
      intro j
      by_cases hj : j = o
      · subst hj; right; unfold afterExc; cases m.beh <;> simp [upd, SState.started]
      · left; unfold afterExc; cases m.beh <;> simp [upd, hj]
    exact pinv_replace h _ (.check k) fs hf (by unfold afterExc; cases m.beh <;> rfl) rfl (by intro i ph; simp [proto])
      (fun j _ => hst j) (by
        intro ph hph
        rcases hst k.i with he | he
        · have he' : (afterExc s k o m fs).1.st (Frame.exc k o m).id = s.st (Frame.exc k o m).id := he
          rw [he']; exact hph
        · rcases hph with hph | ⟨h1, h2, -⟩
          · exact Or.inl hph
          · exact Or.inr ⟨h1, h2, he⟩)
  | finish k fs hf hos =>
    have hgo : ∀ st : Nat → SState, (∀ j, st j = s.st j ∨ st j = .aborting) → ∀ s', (match k.cont with
        | .idle => { s with st := (if st k.i = .aborting ∨ st k.i = .restarting then st else upd st k.i .starting), frames := .loop k.i k.ret :: fs }
        | .run => { s with st := st, frames := (if st k.i = .restarting then .loop k.i k.ret else .exit k.i k.ret) :: fs } : M) = s' →
        PInv (tr ++ []) s' := by
      intro st hst s' hs'
      have hst' : ∀ j, st j = s.st j ∨ (st j).started := by
        intro j; rcases hst j with h | h
        · exact Or.inl h
        · right; rw [h]; exact started_aborting
      cases hc : k.cont with
      | idle =>
        rw [hc] at hs'; subst hs'
        refine pinv_replace h _ (.loop k.i k.ret) fs hf rfl rfl hnil ?_ ?_
        · intro j hj
          show (if _ then st else upd st k.i .starting) j = _ ∨ _
          split
          · exact hst' j
          · have hj' : j ≠ k.i := hj
            simp only [upd_other _ _ _ _ hj']; exact hst' j
        · intro ph hph
          rcases hph with ⟨-, rfl⟩ | ⟨h1, -⟩
          · exact Or.inl rfl
          · rw [hc] at h1; cases h1
      | run =>
        rw [hc] at hs'; subst hs'
        refine pinv_replace h _ (if st k.i = .restarting then .loop k.i k.ret else .exit k.i k.ret) fs hf rfl (by split <;> rfl) hnil
          (fun j _ => hst' j) ?_
        intro ph hph
        rcases hph with ⟨h1, -⟩ | ⟨-, h2, h3⟩
        · rw [hc] at h1; cases h1
        · have hs3 : (st k.i).started := by
            rcases hst' k.i with he | he
            · rw [he]; exact h3
            · exact he
          split
          · rcases h2 with h2 | h2
            · exact Or.inl h2
            · exact Or.inr (Or.inl ⟨h2, hs3⟩)
          · exact ⟨h2, hs3⟩
    unfold finish
    cases ha : k.act with
    | none => exact hgo s.st (fun _ => Or.inl rfl) _ rfl
    | some a =>
      cases hb : s.active a with
      | none => simp only [hb]; exact ⟨h.nodup, h.tail, by simpa using h.phase⟩
      | some m => simp only [hb]; exact hgo (mark s.fired m.beh (P.cstack k.i) s.st) (fun j => mark_cases _ _ _ _ j) _ rfl
  | skip k fs o os hf _ _ _ =>
    exact pinv_replace h _ _ fs hf rfl rfl hnil (fun j hj => Or.inl rfl) (fun ph hph => hph)
  | opn k fs o os hf _ _ _ =>
    exact pinv_replace h _ _ fs hf rfl rfl hnil (fun j hj => Or.inl rfl) (fun ph hph => hph)
  | next k fs o os hf _ _ =>
    exact pinv_replace h _ _ fs hf rfl rfl hnil (fun j hj => Or.inl rfl) (fun ph hph => hph)
  | pollFalse k fs o os m ms hf _ _ =>
    exact pinv_replace h _ _ fs hf rfl rfl (by intro i ph; simp [proto]) (fun j hj => Or.inl rfl) (fun ph hph => hph)
  | pollFired k fs o os m ms hf _ _ _ =>
    exact pinv_replace h _ _ fs hf rfl rfl (by intro i ph; simp [proto]) (fun j hj => Or.inl rfl) (fun ph hph => hph)
  | fire k fs o os m ms hf _ _ _ =>
    exact pinv_replace h _ _ fs hf rfl rfl (by intro i ph; simp [proto]) (fun j hj => Or.inl rfl) (fun ph hph => hph)

theorem pinv_init : PInv [] init := ⟨by simp [init], by simp [init], fun i => ⟨.off, rfl, fun _ => rfl, by simp [init]⟩⟩

theorem reach_pinv {P : Prog} {tr : List Ev} {s : M} (h : Reach P tr s) : PInv tr s :=
  reach_inv PInv pinv_init (fun tr s s' ev hq hm => pinv_micro P tr s s' ev hq hm) h

/-- **C09.** In every history, for all conditions and custom actions, every sequence follows the protocol: it executes its action only after it was
called or restarted and with its precondition fulfilled (`enter` happens in place of `refuse`), and its call returns -1 if the action was not executed
in this call and else the value of the last execution. -/
theorem follows_protocol (P : Prog) (tr : List Ev) (s : M) (h : Reach P tr s) (i : Nat) : ∃ ph, phase i tr = some ph := by
  obtain ⟨ph, h1, -⟩ := (reach_pinv h).phase i
  exact ⟨ph, h1⟩

/-- **C09, on return the sequence is idle and can be called again.** After the event `ret i v` the state of `i` is idle, `i` is not active, and a call from
the same place succeeds. -/
theorem idle_after_return (P : Prog) (tr : List Ev) (s s' : M) (x : Inp) (i : Nat) (v : Int) (hr : Reach P tr s)
    (h : step P s x = some (s', [.ret i v])) : s'.st i = .idle ∧ i ∉ s'.frames.map Frame.id ∧ phase i (tr ++ [.ret i v]) = some .off := by
  have hi := reach_pinv (Reach.step _ _ _ _ _ hr h)
  rcases step_micro P s s' x _ h with hm | ⟨s1, o, m, e2, hm1, hm2, he⟩
  · cases hm with
    | ret _ _ fs hf hs =>
      have hn := (reach_pinv hr).nodup
      rw [hf] at hn
      have hno : i ∉ fs.map Frame.id := (List.nodup_cons.1 hn).1
      obtain ⟨ph, h1, h2, -⟩ := hi.phase i
      exact ⟨upd_same _ _ _, hno, by rw [h1, h2 hno]⟩
  · cases he

/-! ### Consequences of the protocol in plain terms -/

/-- The value of the last completed execution of the action of `i`, `d` if there is none. -/
def lastValue (i : Nat) (d : Int) (tr : List Ev) : Int := tr.foldl (fun r e => match e with | .leave j v => if j = i then v else r | _ => r) d

/-- Number of executions of the action of `i`. -/
def enters (i : Nat) (tr : List Ev) : Nat := tr.countP (fun e => decide (e = .enter i))
def restarts (i : Nat) (tr : List Ev) : Nat := tr.countP (fun e => decide (e = .restart i))
def calls (i : Nat) (tr : List Ev) : Nat := tr.countP (fun e => decide (e = .call i))
/-- Number of times a monitor of `i` with behavior restart fired. -/
def restartFires (i : Nat) (tr : List Ev) : Nat :=
  tr.countP (fun e => match e with | .fire o m => decide (o = i ∧ m.beh = .restart) | _ => false)

def Phase.val : Phase → Option Int
  | .ready r => some r
  | .after r => some r
  | .done r => some r
  | _ => none

def Phase.pot : Phase → Nat
  | .ready _ => 1
  | _ => 0

theorem fold_value (i : Nat) (t : List Ev) : ∀ (ph ph' : Phase) (d : Int), (ph.val = some d ∨ ph = .inside) → t.foldlM (proto i) ph = some ph' →
    (∀ v, .ret i v ∉ t) → ph'.val = some (lastValue i d t) ∨ ph' = .inside := by
  induction t with
  | nil => intro ph ph' d hv h _; simp only [List.foldlM_nil] at h; cases h; exact hv
  | cons e t ih =>
    intro ph ph' d hv h hr
    simp only [List.foldlM_cons] at h
    cases hp : proto i ph e with
    | none => rw [hp] at h; cases h
    | some p1 =>
      rw [hp] at h
      have hr' : ∀ v, .ret i v ∉ t := fun v hm => hr v (by simp [hm])
      have key : p1.val = some (lastValue i d [e]) ∨ p1 = .inside := by
        cases e with
        | call j =>
          simp only [proto] at hp
          by_cases hj : j = i
          · rw [if_pos hj] at hp
            split at hp
            · rename_i ho; subst ho; simp [Phase.val] at hv
            · cases hp
          · rw [if_neg hj] at hp; cases hp; simpa [lastValue] using hv
        | enter j =>
          simp only [proto] at hp
          by_cases hj : j = i
          · rw [if_pos hj] at hp
            split at hp
            · cases hp; exact Or.inr rfl
            · cases hp
          · rw [if_neg hj] at hp; cases hp; simpa [lastValue] using hv
        | leave j v =>
          simp only [proto] at hp
          by_cases hj : j = i
          · rw [if_pos hj] at hp
            split at hp
            · cases hp; simp [lastValue, hj, Phase.val]
            · cases hp
          · rw [if_neg hj] at hp; cases hp; simpa [lastValue, hj] using hv
        | restart j =>
          simp only [proto] at hp
          by_cases hj : j = i
          · rw [if_pos hj] at hp
            split at hp <;> first | (cases hp; simpa [lastValue, Phase.val] using hv) | cases hp
          · rw [if_neg hj] at hp; cases hp; simpa [lastValue] using hv
        | refuse j =>
          simp only [proto] at hp
          by_cases hj : j = i
          · rw [if_pos hj] at hp
            split at hp <;> first | (cases hp; simpa [lastValue, Phase.val] using hv) | cases hp
          · rw [if_neg hj] at hp; cases hp; simpa [lastValue] using hv
        | ret j v =>
          simp only [proto] at hp
          by_cases hj : j = i
          · exact absurd (by simp [hj]) (hr v)
          · rw [if_neg hj] at hp; cases hp; simpa [lastValue] using hv
        | spawn j => simp only [proto] at hp; cases hp; simpa [lastValue] using hv
        | poll o m b => simp only [proto] at hp; cases hp; simpa [lastValue] using hv
        | fire o m => simp only [proto] at hp; cases hp; simpa [lastValue] using hv
        | handled o m => simp only [proto] at hp; cases hp; simpa [lastValue] using hv
      have := ih p1 ph' (lastValue i d [e]) key h hr'
      simpa [lastValue] using this

theorem fold_enters (i : Nat) (t : List Ev) : ∀ (ph ph' : Phase), t.foldlM (proto i) ph = some ph' →
    enters i t + ph'.pot ≤ ph.pot + calls i t + restarts i t := by
  induction t with
  | nil => intro ph ph' h; simp only [List.foldlM_nil] at h; cases h; simp [enters, calls, restarts]
  | cons e t ih =>
    intro ph ph' h
    simp only [List.foldlM_cons] at h
    cases hp : proto i ph e with
    | none => rw [hp] at h; cases h
    | some p1 =>
      rw [hp] at h
      have h1 := ih p1 ph' h
      have key : enters i [e] + p1.pot ≤ ph.pot + calls i [e] + restarts i [e] := by
        cases e <;> simp only [proto] at hp <;> (try split at hp) <;> (try split at hp) <;> (try split at hp) <;>
          first | cases hp | skip
        all_goals first
          | (rename_i hj; simp [enters, calls, restarts, Phase.pot, hj]; done)
          | (simp_all [enters, calls, restarts, Phase.pot]; done)
      simp only [enters, calls, restarts] at *
      rw [List.countP_cons] at *
      rw [List.countP_cons, List.countP_cons]
      simp only [List.countP_nil] at key
      simp only [List.countP_cons, List.countP_nil] at key
      omega

theorem value_of_phase (t1 t2 : List Ev) (i : Nat) (v : Int) (ph : Phase) (hp : phase i (t1 ++ .call i :: t2 ++ [.ret i v]) = some ph)
    (h2 : ∀ w, .ret i w ∉ t2) : v = lastValue i (-1) t2 := by
  rw [List.append_assoc, phase_append] at hp
  cases h1 : phase i t1 with
  | none => rw [h1] at hp; cases hp
  | some p0 =>
    rw [h1] at hp
    simp only [Option.bind_some, List.cons_append, List.foldlM_cons, List.foldlM_append] at hp
    cases hc : proto i p0 (.call i) with
    | none => rw [hc] at hp; cases hp
    | some p1 =>
      rw [hc] at hp
      have hp1 : p1 = .ready (-1) := by
        simp only [proto, if_true] at hc
        split at hc <;> cases hc; rfl
      subst hp1
      cases hf : t2.foldlM (proto i) (.ready (-1)) with
      | none => simp [hf] at hp
      | some p2 =>
        simp only [Option.bind_eq_bind, Option.bind_some, hf] at hp
        have hv := fold_value i t2 _ p2 (-1) (Or.inl rfl) hf h2
        rcases hv with hv | rfl
        · cases p2 <;> simp [Phase.val] at hv <;> simp [proto, hv] at hp <;> exact hp.1
        · simp [proto] at hp

/-- **C09, the value returned.** If a call of `i` returns `v`, then `v` is the value of the last execution of its action in this call, or -1 if its action was
not executed (to its end) in this call. -/
theorem return_value (P : Prog) (t1 t2 : List Ev) (s : M) (i : Nat) (v : Int) (h : Reach P (t1 ++ .call i :: t2 ++ [.ret i v]) s)
    (h2 : ∀ w, .ret i w ∉ t2) : v = lastValue i (-1) t2 := by
  obtain ⟨ph, hp⟩ := follows_protocol P _ s h i
  exact value_of_phase t1 t2 i v ph hp h2

/-- **C09, precondition.** An action is entered exactly when the precondition just evaluated was true, and a sequence is refused exactly when
it was false. -/
theorem precondition_decides (P : Prog) (s s' : M) (x : Inp) (ev : List Ev) (h : step P s x = some (s', ev)) :
    ((∃ i, Ev.enter i ∈ ev) ↔ x = .pre true) ∧ ((∃ i, Ev.refuse i ∈ ev) ↔ x = .pre false) := by
  have hs : ∀ (s : M) j i, Ev.enter i ∉ (startSeq P s j).2 ∧ Ev.refuse i ∉ (startSeq P s j).2 := by
    intro s j i; unfold startSeq; split
    · split <;> simp
    · simp
  have hm : ∀ (k : Chk) o m fs b i, Ev.enter i ∉ (checkMonitor P s k o m fs b).2 ∧ Ev.refuse i ∉ (checkMonitor P s k o m fs b).2 := by
    intro k o m fs b i
    unfold checkMonitor
    split
    · dsimp only
      split
      · simp
      · split
        · simp [afterExc]
        · simp [hs]
    · simp
  have fin : ∀ (r : M × List Ev), some r = some (s', ev) → ev = r.2 := by
    intro r hr; rw [Option.some.inj hr]
  unfold step at h
  split at h
  · simp at h
  · split at h
    · rw [fin _ h]; simp [hs]
    · rw [fin _ h]; simp [hs]
    · rw [fin _ h]; simp
    · split at h <;> first | (rw [fin _ h]; simp) | (exact absurd h (by simp))
    · rw [fin _ h]; simp
    · rw [fin _ h]; simp [afterExc]
    · split at h
      · rw [fin _ h]; simp
      · split at h <;> (rw [fin _ h]; simp)
      · rw [fin _ h]; simp
      · rw [fin _ h]; simp [hm]
      · simp at h
    · simp at h

/-- **C09, the precondition.** The event `refuse i` (precondition false) is followed by the return of the call without any execution of the action in between. -/
theorem refused_not_executed (P : Prog) (t1 t2 : List Ev) (s : M) (i : Nat) (h : Reach P (t1 ++ .refuse i :: t2 ++ [.enter i]) s) :
    ∃ v, .ret i v ∈ t2 := by
  obtain ⟨ph, hp⟩ := follows_protocol P _ s h i
  rw [List.append_assoc, phase_append] at hp
  cases h1 : phase i t1 with
  | none => rw [h1] at hp; cases hp
  | some p0 =>
    rw [h1] at hp
    simp only [Option.bind_some, List.cons_append, List.foldlM_cons, List.foldlM_append] at hp
    cases hc : proto i p0 (.refuse i) with
    | none => rw [hc] at hp; cases hp
    | some p1 =>
      rw [hc] at hp
      obtain ⟨r, rfl⟩ : ∃ r, p1 = .done r := by
        simp only [proto, if_true] at hc
        split at hc <;> cases hc; exact ⟨_, rfl⟩
      -- from `done` only `ret` leads elsewhere
      have key : ∀ (t : List Ev) (p2 : Phase), t.foldlM (proto i) (.done r) = some p2 → (∀ v, .ret i v ∉ t) → p2 = .done r := by
        intro t
        induction t with
        | nil => intro p2 h _; cases h; rfl
        | cons e t ih =>
          intro p2 h hr
          simp only [List.foldlM_cons] at h
          cases hq : proto i (.done r) e with
          | none => rw [hq] at h; cases h
          | some q =>
            rw [hq] at h
            have : q = .done r := by
              cases e with
              | ret j v =>
                by_cases hj : j = i
                · exact absurd (by simp [hj]) (hr v)
                · simp [proto, hj] at hq; exact hq.symm
              | call j => simp only [proto] at hq; split at hq <;> simp at hq; exact hq.symm
              | enter j => simp only [proto] at hq; split at hq <;> simp at hq; exact hq.symm
              | leave j v => simp only [proto] at hq; split at hq <;> simp at hq; exact hq.symm
              | restart j => simp only [proto] at hq; split at hq <;> simp at hq; exact hq.symm
              | refuse j => simp only [proto] at hq; split at hq <;> simp at hq; exact hq.symm
              | spawn j => simp [proto] at hq; exact hq.symm
              | poll o m b => simp [proto] at hq; exact hq.symm
              | fire o m => simp [proto] at hq; exact hq.symm
              | handled o m => simp [proto] at hq; exact hq.symm
            subst this
            exact ih p2 h (fun v hv => hr v (by simp [hv]))
      apply Classical.byContradiction
      intro hno
      cases hf : t2.foldlM (proto i) (.done r) with
      | none => simp [hf] at hp
      | some p2 =>
        have := key t2 p2 hf (fun v hv => hno ⟨v, hv⟩)
        subst this
        simp [hf, proto] at hp

/-- The state `restarting` and pending exception processing with behavior restart are paid for by fired monitors. -/
def excRestart (i : Nat) (fs : List Frame) : Nat :=
  fs.countP (fun f => match f with | .exc _ o m => decide (o = i ∧ m.beh = .restart) | _ => false)

def RInv (tr : List Ev) (s : M) : Prop :=
  ∀ i, restarts i tr + (if s.st i = .restarting then 1 else 0) + excRestart i s.frames ≤ restartFires i tr

theorem restarts_append (i : Nat) (t1 t2 : List Ev) : restarts i (t1 ++ t2) = restarts i t1 + restarts i t2 := by simp [restarts]
theorem restartFires_append (i : Nat) (t1 t2 : List Ev) : restartFires i (t1 ++ t2) = restartFires i t1 + restartFires i t2 := by
  simp [restartFires]


theorem rinv_micro (P : Prog) (tr : List Ev) (s s' : M) (ev : List Ev) (h : RInv tr s) (hm : Micro P s s' ev) : RInv (tr ++ ev) s' := by
  intro i
  have hi := h i
  rw [restarts_append, restartFires_append]
  cases hm with
  | call j hc hj => simpa [restarts, restartFires, excRestart] using hi
  | dead => simpa [restarts, restartFires] using hi
  | spawn j => simpa [restarts, restartFires] using hi
  | leave i fs v hf => rw [hf] at hi; simpa [restarts, restartFires, excRestart] using hi
  | idle i r fs hf hs => rw [hf] at hi; simpa [restarts, restartFires, excRestart] using hi
  | enter j r fs hf hs =>
    rw [hf] at hi
    by_cases hij : i = j
    · subst hij; simp [restarts, restartFires, excRestart, upd, hs] at hi ⊢; omega
    · simpa [restarts, restartFires, excRestart, upd, hij] using hi
  | refuse j r fs hf hs =>
    by_cases hij : i = j
    · subst hij; simp [restarts, restartFires, excRestart, upd, hs] at hi ⊢; omega
    · simpa [restarts, restartFires, excRestart, upd, hij] using hi
  | run j r fs hf hs => rw [hf] at hi; simpa [restarts, restartFires, excRestart] using hi
  | abort j r fs hf hs =>
    by_cases hij : i = j
    · subst hij; simp [restarts, restartFires, excRestart, upd, hs] at hi ⊢; omega
    · simpa [restarts, restartFires, excRestart, upd, hij] using hi
  | restart j r fs hf hs =>
    by_cases hij : i = j
    · subst hij; simp [restarts, restartFires, excRestart, upd, hs] at hi ⊢; omega
    · simp [restarts, restartFires, excRestart, upd, hij] at hi ⊢
      have : ¬ j = i := fun h => hij h.symm
      simpa [this] using hi
  | ret j r fs hf hs =>
    rw [hf] at hi
    by_cases hij : i = j
    · subst hij; simp [restarts, restartFires, excRestart, upd, hs] at hi ⊢; omega
    · simpa [restarts, restartFires, excRestart, upd, hij] using hi
  | exitTrue j r fs hf =>
    rw [hf] at hi
    by_cases hij : i = j
    · subst hij; simp [restarts, restartFires, excRestart, upd] at hi ⊢; omega
    · simpa [restarts, restartFires, excRestart, upd, hij] using hi
  | exitFalse j r fs hf => rw [hf] at hi; simpa [restarts, restartFires, excRestart] using hi
  | after k o m fs hf =>
    rw [hf] at hi
    by_cases hio : i = o
    · subst hio
      cases hb : m.beh <;> simp [restarts, restartFires, excRestart, afterExc, upd, hb] at hi ⊢ <;> omega
    · have : ¬ o = i := fun h => hio h.symm
      cases hb : m.beh <;> simp [restarts, restartFires, excRestart, afterExc, upd, hb, hio, this] at hi ⊢ <;> exact hi
  | finish k fs hf hos =>
    have hst : ∀ st : Nat → SState, (∀ j, st j = s.st j ∨ st j = .aborting) →
        restarts i tr + restarts i [] + (if st i = .restarting then 1 else 0) + excRestart i fs ≤ restartFires i tr + restartFires i [] := by
      intro st hst
      have e : excRestart i s.frames = excRestart i fs := by rw [hf]; simp [excRestart]
      rw [e] at hi
      rcases hst i with h1 | h1
      · rw [h1]; simpa [restarts, restartFires] using hi
      · rw [h1]; simp [restarts, restartFires] at hi ⊢; omega
    have hgo : ∀ st : Nat → SState, (∀ j, st j = s.st j ∨ st j = .aborting) → ∀ s', (match k.cont with
        | .idle => { s with st := (if st k.i = .aborting ∨ st k.i = .restarting then st else upd st k.i .starting), frames := .loop k.i k.ret :: fs }
        | .run => { s with st := st, frames := (if st k.i = .restarting then .loop k.i k.ret else .exit k.i k.ret) :: fs } : M) = s' →
        restarts i tr + restarts i [] + (if s'.st i = .restarting then 1 else 0) + excRestart i s'.frames ≤ restartFires i tr + restartFires i [] := by
      intro st h1 s' hs'
      have := hst st h1
      cases hc : k.cont with
      | idle =>
        rw [hc] at hs'; subst hs'
        have e : excRestart i (.loop k.i k.ret :: fs) = excRestart i fs := by simp [excRestart]
        rw [e]
        by_cases hcond : st k.i = .aborting ∨ st k.i = .restarting
        · simp only [hcond, if_true]; exact this
        · simp only [hcond, if_false]
          by_cases hik : i = k.i
          · rw [hik, upd_same]; rw [hik] at this
            simp only [reduceCtorEq, if_false]
            omega
          · rw [upd_other _ _ _ _ hik]; exact this
      | run =>
        rw [hc] at hs'; subst hs'
        have e : ∀ f : Frame, (f = .loop k.i k.ret ∨ f = .exit k.i k.ret) → excRestart i (f :: fs) = excRestart i fs := by
          rintro f (rfl | rfl) <;> simp [excRestart]
        rw [e _ (by split <;> simp)]
        exact this
    unfold finish
    cases ha : k.act with
    | none => exact hgo s.st (fun _ => Or.inl rfl) _ rfl
    | some a =>
      cases hb : s.active a with
      | none => simp only [hb]; simpa [restarts, restartFires] using hi
      | some m => simp only [hb]; exact hgo (mark s.fired m.beh (P.cstack k.i) s.st) (fun j => mark_cases _ _ _ _ j) _ rfl
  | skip k fs o os hf _ _ _ => rw [hf] at hi; simpa [restarts, restartFires, excRestart] using hi
  | opn k fs o os hf _ _ _ => rw [hf] at hi; simpa [restarts, restartFires, excRestart] using hi
  | next k fs o os hf _ _ => rw [hf] at hi; simpa [restarts, restartFires, excRestart] using hi
  | pollFalse k fs o os m ms hf _ _ => rw [hf] at hi; simpa [restarts, restartFires, excRestart] using hi
  | pollFired k fs o os m ms hf _ _ _ => rw [hf] at hi; simpa [restarts, restartFires, excRestart] using hi
  | fire k fs o os m ms hf _ _ _ =>
    rw [hf] at hi
    by_cases hio : o = i ∧ m.beh = .restart
    · simp [restarts, restartFires, excRestart, hio] at hi ⊢; omega
    · simp [restarts, restartFires, excRestart, hio] at hi ⊢; exact hi

/-- **C10.** In every history the action of a sequence was executed at most once per call of the sequence plus once per firing of one of its monitors
with behavior restart. -/
theorem executions_bounded (P : Prog) (tr : List Ev) (s : M) (h : Reach P tr s) (i : Nat) :
    enters i tr ≤ calls i tr + restartFires i tr := by
  obtain ⟨ph, hp⟩ := follows_protocol P tr s h i
  have h1 := fold_enters i tr .off ph hp
  have h2 := reach_inv RInv (fun i => by simp [restarts, init, excRestart, restartFires])
    (fun tr s s' ev hq hm => rinv_micro P tr s s' ev hq hm) h i
  simp only [Phase.pot] at h1
  omega

theorem executions_of_phase (t1 t2 : List Ev) (i : Nat) (ph : Phase) (hp : phase i (t1 ++ .call i :: t2) = some ph) :
    enters i t2 ≤ 1 + calls i t2 + restarts i t2 := by
  rw [phase_append] at hp
  cases h1 : phase i t1 with
  | none => rw [h1] at hp; cases hp
  | some p0 =>
    rw [h1] at hp
    simp only [Option.bind_some, List.foldlM_cons] at hp
    cases hc : proto i p0 (.call i) with
    | none => rw [hc] at hp; cases hp
    | some p1 =>
      rw [hc] at hp
      have hp1 : p1 = .ready (-1) := by
        simp only [proto, if_true] at hc
        split at hc <;> cases hc; rfl
      subst hp1
      have := fold_enters i t2 _ ph hp
      simp only [Phase.pot] at this
      omega

/-- **C10, per call.** Within one call (until it returns) the action is executed at most once plus once per restart; without restart at most once, no matter
how often the exit condition and the monitors are polled. -/
theorem executions_per_call (P : Prog) (t1 t2 : List Ev) (s : M) (i : Nat) (h : Reach P (t1 ++ .call i :: t2) s) :
    enters i t2 ≤ 1 + calls i t2 + restarts i t2 := by
  obtain ⟨ph, hp⟩ := follows_protocol P _ s h i
  exact executions_of_phase t1 t2 i ph hp

end Verif.Sequencer
