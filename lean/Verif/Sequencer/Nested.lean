import Verif.Sequencer.Exceptions
/-!
Programs which call a sequence only while its callers are active (the intended use: a sequence is called by the sequence given as its caller).
-/
namespace Verif.Sequencer

/-- Histories in which every sequence called has all its callers active. -/
inductive ReachW (P : Prog) : List Ev → M → Prop where
  | init : ReachW P [] init
  | step (tr s x s' ev) : ReachW P tr s → step P s x = some (s', ev) →
      (∀ j, .call j ∈ ev → ∀ c ∈ P.cstack j, c ≠ j → c ∈ s.frames.map Frame.id) → ReachW P (tr ++ ev) s'

/-- Runs from a state, with the events they produce; calls as in `ReachW`. -/
inductive RunW (P : Prog) (s0 : M) : List Ev → M → Prop where
  | refl : RunW P s0 [] s0
  | step (tr s x s' ev) : RunW P s0 tr s → step P s x = some (s', ev) →
      (∀ j, .call j ∈ ev → ∀ c ∈ P.cstack j, c ≠ j → c ∈ s.frames.map Frame.id) → RunW P s0 (tr ++ ev) s'

theorem ReachW.reach {P : Prog} {tr : List Ev} {s : M} (h : ReachW P tr s) : Reach P tr s := by
  induction h with
  | init => exact .init
  | step tr s x s' ev _ hs _ ih => exact .step tr s x s' ev ih hs

theorem ReachW.run {P : Prog} {t1 t2 : List Ev} {s1 s2 : M} (h : ReachW P t1 s1) (h2 : RunW P s1 t2 s2) : ReachW P (t1 ++ t2) s2 := by
  induction h2 with
  | refl => simpa using h
  | step tr s x s' ev _ hs hw ih => rw [← List.append_assoc]; exact .step _ _ _ _ _ ih hs hw

/-! ### The caller stack -/

theorem mem_cstack_self (P : Prog) (i : Nat) : i ∈ P.cstack i := by rw [cstack_eq]; simp

/-- The stack of a member is a suffix. -/
theorem cstack_suffix (P : Prog) (i o : Nat) (h : o ∈ P.cstack i) : P.cstack o <:+ P.cstack i := by
  induction i using Nat.strongRecOn with
  | _ i ih =>
    rw [cstack_eq] at h
    rcases List.mem_cons.1 h with rfl | h
    · exact List.suffix_refl _
    · rw [cstack_eq P i]
      cases hc : P.caller i with
      | none => simp [hc] at h
      | some c =>
        simp only [hc] at h ⊢
        exact (ih c (P.older i c hc) h).trans (List.suffix_cons _ _)

theorem cstack_trans (P : Prog) {a b c : Nat} (h1 : a ∈ P.cstack b) (h2 : b ∈ P.cstack c) : a ∈ P.cstack c :=
  (cstack_suffix P c b h2).subset h1

/-- For a suffix `x :: l` of a stack with `o`: `o` is in it, or `x` is a caller of `o`. -/
theorem suffix_cases (P : Prog) {i o x : Nat} {l : List Nat} (h : o ∈ P.cstack i) (hs : (x :: l) <:+ P.cstack i) :
    o ∈ l ∨ x ∈ P.cstack o := by
  rcases List.suffix_or_suffix_of_suffix (cstack_suffix P i o h) hs with h1 | h1
  · have : o ∈ x :: l := h1.subset (mem_cstack_self P o)
    rcases List.mem_cons.1 this with rfl | h2
    · exact Or.inr (mem_cstack_self P o)
    · exact Or.inl h2
  · exact Or.inr (h1.subset (by simp))

/-! ### Invariant -/

def Nest (P : Prog) : List Frame → Prop
  | [] => True
  | f :: fs => (∀ c ∈ P.cstack f.id, c ∈ (f :: fs).map Frame.id) ∧ Nest P fs

theorem nest_mem {P : Prog} {l : List Frame} (h : Nest P l) {f : Frame} (hf : f ∈ l) : ∀ c ∈ P.cstack f.id, c ∈ l.map Frame.id := by
  induction l with
  | nil => cases hf
  | cons g l ih =>
    intro c hc
    rcases List.mem_cons.1 hf with rfl | hf
    · exact h.1 c hc
    · have := ih h.2 hf c hc
      simp only [List.map_cons, List.mem_cons]; exact Or.inr this

theorem nest_low {P : Prog} {f0 : Frame} {l : List Frame} (h : Nest P (f0 :: l)) (hn : ((f0 :: l).map Frame.id).Nodup) {f : Frame} (hf : f ∈ l) :
    f0.id ∉ P.cstack f.id := by
  intro hc
  simp only [List.map_cons, List.nodup_cons] at hn
  exact hn.1 (nest_mem h.2 hf _ hc)

theorem nest_replace {P : Prog} {f0 f1 : Frame} {l : List Frame} (h : Nest P (f0 :: l)) (hid : f1.id = f0.id) : Nest P (f1 :: l) := by
  refine ⟨?_, h.2⟩
  have := h.1
  rw [hid]
  simpa [hid] using this

def ActOk (P : Prog) (s : M) (k : Chk) : Prop := ∀ a, k.act = some a → a ∈ P.cstack k.i ∧ s.active a ≠ none

def OkF (P : Prog) (s : M) : Frame → Prop
  | .check k => ActOk P s k
  | .exc k o m => ActOk P s k ∧ o ∈ P.cstack k.i ∧ s.fired o = true ∧ s.active o = some m
  | _ => True

theorem okf_congr {P : Prog} {s s' : M} (h1 : s'.active = s.active) (h2 : s'.fired = s.fired) {f : Frame} (h : OkF P s f) : OkF P s' f := by
  cases f <;> simp only [OkF, ActOk, h1, h2] at h ⊢ <;> exact h

structure NInv (P : Prog) (s : M) : Prop where
  nest : Nest P s.frames
  ok : ∀ f ∈ s.frames, OkF P s f
  halt : s.halt ≠ some .nullDeref

theorem ninv_init (P : Prog) : NInv P init := ⟨trivial, by simp [init], by simp [init]⟩

/-- Effects on the top frame only. -/
theorem ninv_top {P : Prog} {s s' : M} (h : NInv P s) {f0 f1 : Frame} {fs : List Frame} (hf : s.frames = f0 :: fs) (hf' : s'.frames = f1 :: fs)
    (hid : f1.id = f0.id) (ha : s'.active = s.active) (hfi : s'.fired = s.fired) (hh : s'.halt = s.halt) (hok : OkF P s f0 → OkF P s f1) : NInv P s' := by
  have hn := h.nest
  rw [hf] at hn
  refine ⟨by rw [hf']; exact nest_replace hn hid, ?_, by rw [hh]; exact h.halt⟩
  intro f hfm
  apply okf_congr ha hfi
  rw [hf'] at hfm
  rcases List.mem_cons.1 hfm with rfl | hfm
  · exact hok (h.ok f0 (by rw [hf]; simp))
  · exact h.ok f (by rw [hf]; simp [hfm])

theorem act_mem {f : Frame} {P : Prog} {s : M} (h : OkF P s f) :
    match f with
    | .check k => ActOk P s k
    | .exc k _ _ => ActOk P s k
    | _ => True := by
  cases f <;> simp only [OkF] at h ⊢ <;> first | exact h | exact h.1

/-- Clearing the monitor of a sequence above all frames considered. -/
theorem okf_clear {P : Prog} {s s' : M} {i : Nat} (ha : s'.active = upd s.active i none) (hfi : s'.fired = upd s.fired i false) {f : Frame}
    (hi : i ∉ P.cstack f.id) (h : OkF P s f) : OkF P s' f := by
  have hk : ∀ k : Chk, i ∉ P.cstack k.i → ActOk P s k → ActOk P s' k := by
    intro k hik hk a haa
    obtain ⟨h1, h2⟩ := hk a haa
    refine ⟨h1, ?_⟩
    rw [ha, upd_other]
    · exact h2
    · rintro rfl; exact hik h1
  cases f with
  | check k => exact hk k hi h
  | exc k o m =>
    obtain ⟨h1, h2, h3, h4⟩ := h
    have hne : o ≠ i := by rintro rfl; exact hi h2
    exact ⟨hk k hi h1, h2, by rw [hfi, upd_other _ _ _ _ hne]; exact h3, by rw [ha, upd_other _ _ _ _ hne]; exact h4⟩
  | _ => trivial

/-- What the following needs of the invariants of `Protocol` and `Exceptions`. -/
structure Weak (P : Prog) (s : M) : Prop where
  nodup : (s.frames.map Frame.id).Nodup
  tail : ∀ f ∈ s.frames.tail, f.low
  shape : ∀ f ∈ s.frames, Shape P f
  count : ∀ o, excOf o s.frames ≤ (s.inExc o).toNat
  top : ∀ k fs o os l, s.frames = .check k :: fs → k.os = o :: os → k.ms = some l → s.inExc o = false
  fired : ∀ o, s.fired o = true → s.active o ≠ none

theorem weak_of {P : Prog} {tr : List Ev} {s : M} (hp : PInv tr s) (he : EInv P tr s) : Weak P s :=
  ⟨hp.nodup, hp.tail, he.shape, fun o => Nat.le_of_eq (he.count o), he.top, he.fired⟩

theorem ninv_micro (P : Prog) (s s' : M) (ev : List Ev) (he : Weak P s) (h : NInv P s) (hm : Micro P s s' ev)
    (hw : ∀ j, ev = [.call j] → ∀ c ∈ P.cstack j, c ≠ j → c ∈ s.frames.map Frame.id) : NInv P s' := by
  cases hm with
  | call j hc hj =>
    refine ⟨⟨?_, h.nest⟩, ?_, h.halt⟩
    · intro c hcs
      by_cases hcj : c = j
      · simp [hcj, Frame.id]
      · have := hw j rfl c hcs hcj
        simp only [List.map_cons, List.mem_cons]; exact Or.inr this
    · intro f hf
      rcases List.mem_cons.1 hf with rfl | hf
      · trivial
      · exact okf_congr rfl rfl (h.ok f hf)
  | dead => exact ⟨h.nest, fun f hf => okf_congr rfl rfl (h.ok f hf), by simp⟩
  | spawn j => exact h
  | leave i fs v hf => exact ninv_top h hf rfl rfl rfl rfl rfl (fun _ => trivial)
  | idle i r fs hf hs =>
    have hn := h.nest
    rw [hf] at hn
    refine ⟨nest_replace hn rfl, ?_, h.halt⟩
    intro f hfm
    rcases List.mem_cons.1 hfm with rfl | hfm
    · intro a ha; simp [newCheck] at ha
    · have hnd := he.nodup
      rw [hf] at hnd
      exact okf_clear (i := i) rfl rfl (nest_low hn hnd hfm) (h.ok f (by rw [hf]; simp [hfm]))
  | enter i r fs hf hs => exact ninv_top h hf rfl rfl rfl rfl rfl (fun _ => trivial)
  | refuse i r fs hf hs => exact ninv_top h hf hf rfl rfl rfl rfl (fun _ => trivial)
  | run i r fs hf hs => exact ninv_top h hf rfl rfl rfl rfl rfl (fun _ => by intro a ha; simp [newCheck] at ha)
  | abort i r fs hf hs => exact ninv_top h hf hf rfl rfl rfl rfl (fun _ => trivial)
  | restart i r fs hf hs =>
    have hn := h.nest
    rw [hf] at hn
    refine ⟨h.nest, ?_, h.halt⟩
    intro f hfm
    simp only at hfm
    rw [hf] at hfm
    rcases List.mem_cons.1 hfm with rfl | hfm
    · trivial
    · have hnd := he.nodup
      rw [hf] at hnd
      exact okf_clear (i := i) rfl rfl (nest_low hn hnd hfm) (h.ok f (by rw [hf]; simp [hfm]))
  | ret i r fs hf hs =>
    have hn := h.nest
    rw [hf] at hn
    exact ⟨hn.2, fun f hfm => okf_congr rfl rfl (h.ok f (by rw [hf]; exact List.mem_cons_of_mem _ hfm)), h.halt⟩
  | exitTrue i r fs hf => exact ninv_top h hf rfl rfl rfl rfl rfl (fun _ => trivial)
  | exitFalse i r fs hf => exact ninv_top h hf rfl rfl rfl rfl rfl (fun _ => trivial)
  | after k o m fs hf =>
    have hn := h.nest
    rw [hf] at hn
    have hframes : (afterExc s k o m fs).1.frames = .check k :: fs := by cases hb : m.beh <;> simp [afterExc, hb]
    have hacx : (afterExc s k o m fs).1.active = s.active := by cases hb : m.beh <;> simp [afterExc, hb]
    have hhx : (afterExc s k o m fs).1.halt = s.halt := by cases hb : m.beh <;> simp [afterExc, hb]
    have hfired : ∀ o', o' ≠ o → (afterExc s k o m fs).1.fired o' = s.fired o' := by
      intro o' ho
      cases hb : m.beh <;> simp [afterExc, hb, upd, ho]
    refine ⟨by rw [hframes]; exact nest_replace hn rfl, ?_, by rw [hhx]; exact h.halt⟩
    rw [hframes]
    have hk : ∀ k, ActOk P s k → ActOk P (afterExc s k o m fs).1 k := by
      intro k hk a ha
      have : (afterExc s k o m fs).1.active = s.active := by cases hb : m.beh <;> simp [afterExc, hb]
      rw [this]; exact hk a ha
    have hk' : ∀ k', ActOk P s k' → ActOk P (afterExc s k o m fs).1 k' := by
      intro k' hk a ha; rw [hacx]; exact hk a ha
    intro f hfm
    rcases List.mem_cons.1 hfm with rfl | hfm
    · exact hk k (h.ok (.exc k o m) (by rw [hf]; simp)).1
    · have hok := h.ok f (by rw [hf]; simp [hfm])
      cases f with
      | check k' => exact hk' k' hok
      | exc k' o' m' =>
        have hne : o' ≠ o := by
          rintro rfl
          have hc := he.count o'
          rw [hf] at hc
          have h1 : excOf o' fs ≠ 0 := by
            intro h0
            simp only [excOf, List.countP_eq_zero] at h0
            have := h0 (.exc k' o' m') hfm
            simp at this
          have h2 : excOf o' (Frame.exc k o' m :: fs) = excOf o' fs + 1 := by simp [excOf]
          rw [h2] at hc
          have := Bool.toNat_le (s.inExc o')
          omega
        exact ⟨hk' k' hok.1, hok.2.1, by rw [hfired o' hne]; exact hok.2.2.1, by rw [hacx]; exact hok.2.2.2⟩
      | _ => trivial
  | finish k fs hf hos =>
    have hok := h.ok (.check k) (by rw [hf]; simp)
    have hfin : finish P s k fs ≠ { s with halt := some .nullDeref } := by
      unfold finish
      cases ha : k.act with
      | none =>
        cases hc : k.cont <;> simp only <;> intro he <;> have := congrArg M.frames he <;> simp only [hf, List.cons.injEq, and_true] at this
        · cases this
        · revert this; split <;> simp
      | some a =>
        obtain ⟨-, h2⟩ := hok a ha
        cases hb : s.active a with
        | none => exact absurd hb h2
        | some m =>
          simp only [hb]
          cases hc : k.cont <;> simp only <;> intro he <;> have := congrArg M.frames he <;> simp only [hf, List.cons.injEq, and_true] at this
          · cases this
          · revert this; split <;> simp
    rcases finish_cases P s k fs with he | ⟨f, hff, h1, h2, h3, h4, h5⟩
    · exact absurd he hfin
    · refine ninv_top h hf h1 ?_ h3 h2 h5 (fun _ => ?_)
      · rcases hff with rfl | rfl <;> rfl
      · rcases hff with rfl | rfl <;> trivial
  | skip k fs o os hf ho hms hin => exact ninv_top h hf rfl rfl rfl rfl rfl (fun h => h)
  | opn k fs o os hf ho hms hin => exact ninv_top h hf rfl rfl rfl rfl rfl (fun h => h)
  | next k fs o os hf ho hms => exact ninv_top h hf rfl rfl rfl rfl rfl (fun h => h)
  | pollFalse k fs o os m ms hf ho hms => exact ninv_top h hf rfl rfl rfl rfl rfl (fun h => h)
  | pollFired k fs o os m ms hf ho hms hfd =>
    refine ninv_top h hf rfl rfl rfl rfl rfl (fun h => ?_)
    intro a ha
    simp only [Option.some.injEq] at ha
    subst ha
    have hsh := (he.shape (.check k) (by rw [hf]; simp)).1
    rw [ho] at hsh
    exact ⟨hsh.subset (by simp), he.fired o hfd⟩
  | fire k fs o os m ms hf ho hms hfd =>
    have hn := h.nest
    rw [hf] at hn
    have hsh := (he.shape (.check k) (by rw [hf]; simp)).1
    rw [ho] at hsh
    have hok : o ∈ P.cstack k.i := hsh.subset (by simp)
    have hino : s.inExc o = false := he.top k fs o os _ hf ho hms
    refine ⟨nest_replace hn rfl, ?_, h.halt⟩
    intro f hfm
    rcases List.mem_cons.1 hfm with rfl | hfm'
    · refine ⟨?_, hok, by simp [upd], by simp [upd]⟩
      intro a ha
      simp only [Option.some.injEq] at ha
      subst ha
      exact ⟨hok, by simp [upd]⟩
    · have hokf := h.ok f (by rw [hf]; simp [hfm'])
      have hk' : ∀ k', ActOk P s k' → ∀ a, k'.act = some a → a ∈ P.cstack k'.i ∧ upd s.active o (some m) a ≠ none := by
        intro k' hk a ha
        obtain ⟨h1, h2⟩ := hk a ha
        refine ⟨h1, ?_⟩
        by_cases hao : a = o
        · subst hao; simp [upd]
        · rw [upd_other _ _ _ _ hao]; exact h2
      cases f with
      | check k' => exact hk' k' hokf
      | exc k' o' m' =>
        have hne : o' ≠ o := by
          rintro rfl
          have hc := he.count o'
          rw [hino] at hc
          simp only [Bool.toNat_false, excOf, Nat.le_zero, List.countP_eq_zero] at hc
          have := hc (.exc k' o' m') (by rw [hf]; simp [hfm'])
          simp at this
        exact ⟨hk' k' hokf.1, hokf.2.1, by simp only [upd_other _ _ _ _ hne]; exact hokf.2.2.1, by simp only [upd_other _ _ _ _ hne]; exact hokf.2.2.2⟩
      | _ => trivial

/-! ### Induction over histories of single effects -/

structure AInv (P : Prog) (tr : List Ev) (s : M) : Prop where
  p : PInv tr s
  e : EInv P tr s
  n : NInv P s

theorem ainv_micro (P : Prog) (tr : List Ev) (s s' : M) (ev : List Ev) (h : AInv P tr s) (hm : Micro P s s' ev)
    (hw : ∀ j, ev = [.call j] → ∀ c ∈ P.cstack j, c ≠ j → c ∈ s.frames.map Frame.id) : AInv P (tr ++ ev) s' :=
  ⟨pinv_micro P tr s s' ev h.p hm, einv_micro P tr s s' ev h.p h.e hm, ninv_micro P s s' ev (weak_of h.p h.e) h.n hm hw⟩

/-- A step under the calling discipline is one or two effects under the discipline. -/
theorem stepW (P : Prog) (s s' : M) (x : Inp) (ev : List Ev) (h : step P s x = some (s', ev))
    (hw : ∀ j, .call j ∈ ev → ∀ c ∈ P.cstack j, c ≠ j → c ∈ s.frames.map Frame.id) :
    (Micro P s s' ev ∧ ∀ j, ev = [.call j] → ∀ c ∈ P.cstack j, c ≠ j → c ∈ s.frames.map Frame.id) ∨
    ∃ s1 ev1 ev2, Micro P s s1 ev1 ∧ (∀ j, ev1 = [.call j] → ∀ c ∈ P.cstack j, c ≠ j → c ∈ s.frames.map Frame.id) ∧
      Micro P s1 s' ev2 ∧ (∀ j, ev2 = [.call j] → ∀ c ∈ P.cstack j, c ≠ j → c ∈ s1.frames.map Frame.id) ∧ ev = ev1 ++ ev2 := by
  rcases step_micro P s s' x ev h with h1 | ⟨s1, o, m, ev2, h1, h2, rfl⟩
  · exact Or.inl ⟨h1, fun j hj => hw j (by rw [hj]; simp)⟩
  · right
    refine ⟨s1, _, ev2, h1, by intro j hj; simp at hj, h2, ?_, rfl⟩
    intro j hj c hc hcj
    have := hw j (by rw [hj]; simp) c hc hcj
    have hids : s1.frames.map Frame.id = s.frames.map Frame.id := by
      cases h1 with
      | fire k fs o os m ms hf ho hms hfd => simp [hf, Frame.id]
    rw [hids]; exact this

theorem ainv_step (P : Prog) (tr : List Ev) (s s' : M) (x : Inp) (ev : List Ev) (h : AInv P tr s) (hs : step P s x = some (s', ev))
    (hw : ∀ j, .call j ∈ ev → ∀ c ∈ P.cstack j, c ≠ j → c ∈ s.frames.map Frame.id) : AInv P (tr ++ ev) s' := by
  rcases stepW P s s' x ev hs hw with ⟨h1, h2⟩ | ⟨s1, ev1, ev2, h1, h2, h3, h4, rfl⟩
  · exact ainv_micro P tr s s' ev h h1 h2
  · rw [← List.append_assoc]
    exact ainv_micro P _ _ _ _ (ainv_micro P tr s s1 ev1 h h1 h2) h3 h4

theorem reach_ainv {P : Prog} {tr : List Ev} {s : M} (h : ReachW P tr s) : AInv P tr s := by
  induction h with
  | init => exact ⟨pinv_init, einv_init P, ninv_init P⟩
  | step tr s x s' ev _ hs hw ih => exact ainv_step P tr s s' x ev ih hs hw

/-! ### The property theorem (C66) -/

/-- If sequences are called only while their callers are active, the active monitor is never dereferenced while null. -/
theorem no_null_dereference (P : Prog) (tr : List Ev) (s : M) (h : ReachW P tr s) : s.halt ≠ some .nullDeref := (reach_ainv h).n.halt

/-! ### C67: sequences which are not active are idle -/

theorem mark_other (fired : Nat → Bool) (b : Beh) (l : List Nat) : ∀ (st : Nat → SState) (x : Nat), x ∉ l → mark fired b l st x = st x := by
  induction l with
  | nil => intros; rfl
  | cons y l ih =>
    intro st x hx
    unfold mark
    simp only [List.mem_cons, not_or] at hx
    split
    · rfl
    · rw [ih _ x hx.2]
      split
      · rfl
      · simp [upd, hx.1]

def IdleInv (s : M) : Prop := ∀ c, c ∉ s.frames.map Frame.id → s.st c = .idle

theorem idle_micro (P : Prog) (tr : List Ev) (s s' : M) (ev : List Ev) (ha : AInv P tr s) (h : IdleInv s) (hm : Micro P s s' ev) : IdleInv s' := by
  have hset : ∀ {f0 f1 : Frame} {fs : List Frame} (x : SState), s.frames = f0 :: fs → f1.id = f0.id →
      ∀ c, c ∉ (f1 :: fs).map Frame.id → upd s.st f0.id x c = .idle := by
    intro f0 f1 fs x hf hid c hc
    simp only [List.map_cons, List.mem_cons, not_or, hid] at hc
    rw [upd_other _ _ _ _ hc.1]
    exact h c (by rw [hf]; simpa using hc)
  have hkeep : ∀ {f0 f1 : Frame} {fs : List Frame}, s.frames = f0 :: fs → f1.id = f0.id →
      ∀ c, c ∉ (f1 :: fs).map Frame.id → s.st c = .idle := by
    intro f0 f1 fs hf hid c hc
    simp only [List.map_cons, List.mem_cons, not_or, hid] at hc
    exact h c (by rw [hf]; simpa using hc)
  cases hm with
  | call j hc hj => intro c hc; simp only [List.map_cons, List.mem_cons, not_or] at hc; exact h c hc.2
  | dead => exact h
  | spawn j => exact h
  | leave i fs v hf => exact hkeep (f1 := .loop i v) hf rfl
  | idle i r fs hf hs => exact hkeep (f1 := .check (newCheck P i r .idle)) hf rfl
  | enter i r fs hf hs => exact hset (f1 := .body i) .running hf rfl
  | refuse i r fs hf hs =>
    have := hset (f1 := .loop i r) .terminated hf rfl
    rw [← hf] at this; exact this
  | run i r fs hf hs => exact hkeep (f1 := .check (newCheck P i r .run)) hf rfl
  | abort i r fs hf hs =>
    have := hset (f1 := .loop i r) .terminated hf rfl
    rw [← hf] at this; exact this
  | restart i r fs hf hs =>
    have := hset (f1 := .loop i r) .starting hf rfl
    rw [← hf] at this; exact this
  | ret i r fs hf hs =>
    intro c hc
    simp only at hc
    by_cases hci : c = i
    · subst hci; simp [upd]
    · simp only [upd_other _ _ _ _ hci]
      exact h c (by rw [hf]; simpa [Frame.id, hci] using hc)
  | exitTrue i r fs hf => exact hset (f1 := .loop i r) .terminated hf rfl
  | exitFalse i r fs hf => exact hkeep (f1 := .loop i r) hf rfl
  | after k o m fs hf =>
    have hframes : (afterExc s k o m fs).1.frames = .check k :: fs := by cases hb : m.beh <;> simp [afterExc, hb]
    have hok := (ha.n.ok (.exc k o m) (by rw [hf]; simp)).2.1
    have hids := nest_mem ha.n.nest (f := .exc k o m) (by rw [hf]; simp) o hok
    intro c hc
    rw [hframes] at hc
    have hc' : c ∉ s.frames.map Frame.id := by rw [hf]; simpa [Frame.id] using hc
    have hco : c ≠ o := by rintro rfl; exact hc' hids
    have := h c hc'
    cases hb : m.beh <;> simpa [afterExc, hb, upd, hco] using this
  | finish k fs hf hos =>
    have hn := nest_mem ha.n.nest (f := .check k) (by rw [hf]; simp)
    have key : ∀ st : Nat → SState, (∀ c, c ∉ s.frames.map Frame.id → st c = .idle) →
        ∀ c, c ∉ s.frames.map Frame.id → (if st k.i = .aborting ∨ st k.i = .restarting then st else upd st k.i .starting) c = .idle := by
      intro st hst c hc
      split
      · exact hst c hc
      · rw [upd_other]
        · exact hst c hc
        · rintro rfl; exact hc (hn _ (by rw [cstack_eq]; simp [Frame.id]))
    have hmk : ∀ b, ∀ c, c ∉ s.frames.map Frame.id → mark s.fired b (P.cstack k.i) s.st c = .idle := by
      intro b c hc
      rw [mark_other]
      · exact h c hc
      · intro hcc; exact hc (hn c hcc)
    intro c hc
    have hc' : c ∉ s.frames.map Frame.id := by
      rcases finish_cases P s k fs with he | ⟨f, hff, h1, -⟩
      · rw [he] at hc; exact hc
      · rw [h1] at hc; rw [hf]; rcases hff with rfl | rfl <;> simpa [Frame.id] using hc
    unfold finish
    cases hact : k.act with
    | none =>
      cases hc2 : k.cont
      · exact key s.st h c hc'
      · exact h c hc'
    | some a =>
      cases hac : s.active a with
      | none => simp only [hac]; exact h c hc'
      | some m =>
        simp only [hac]
        cases hc2 : k.cont
        · exact key _ (hmk _) c hc'
        · exact hmk _ c hc'
  | skip k fs o os hf ho hms hi => exact hkeep (f1 := .check { k with os := os }) hf rfl
  | opn k fs o os hf ho hms hi => exact hkeep (f1 := .check { k with ms := some (P.mons o) }) hf rfl
  | next k fs o os hf ho hms => exact hkeep (f1 := .check { k with os := os, ms := none }) hf rfl
  | pollFalse k fs o os m ms hf ho hms => exact hkeep (f1 := .check { k with ms := some ms }) hf rfl
  | pollFired k fs o os m ms hf ho hms hfd => exact hkeep (f1 := .check { k with ms := some ms, act := some o }) hf rfl
  | fire k fs o os m ms hf ho hms hfd => exact hkeep (f1 := .exc { k with ms := some ms, act := some o } o m) hf rfl

/-- If sequences are called only while their callers are active, every sequence which is not active is idle, so a call always begins with its checks and its
precondition. -/
theorem inactive_idle (P : Prog) (tr : List Ev) (s : M) (h : ReachW P tr s) : ∀ c, c ∉ s.frames.map Frame.id → s.st c = .idle := by
  induction h with
  | init => intro c _; rfl
  | step tr s x s' ev hr hs hw ih =>
    have ha := reach_ainv hr
    rcases stepW P s s' x ev hs hw with ⟨h1, h2⟩ | ⟨s1, ev1, ev2, h1, h2, h3, h4, rfl⟩
    · exact idle_micro P tr s s' ev ha ih h1
    · exact idle_micro P _ s1 s' ev2 (ainv_micro P tr s s1 ev1 ha h1 h2) (idle_micro P tr s s1 ev1 ha ih h1) h3

end Verif.Sequencer
