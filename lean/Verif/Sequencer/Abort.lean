import Verif.Sequencer.Nested
/-!
C11: after a monitor with behavior abort or restart of `o` has fired, no sequence called by `o`, directly or indirectly, starts its action.
-/
namespace Verif.Sequencer

def Frame.chk : Frame → Option Chk
  | .check k => some k
  | .exc k _ _ => some k
  | _ => none

theorem chk_id {f : Frame} {k : Chk} (h : f.chk = some k) : f.id = k.i := by
  cases f <;> simp [Frame.chk] at h <;> subst h <;> rfl

/-- Facts about the states of sequences; `o` is the owner considered. -/
structure GInv (P : Prog) (o : Nat) (s : M) : Prop where
  inner : ∀ c, c ≠ o → o ∈ P.cstack c → s.st c ≠ .restarting
  run : ∀ c, (s.st c = .starting ∨ s.st c = .running) → s.fired c = true → s.inExc c = true
  chk : ∀ f ∈ s.frames, ∀ k, f.chk = some k → s.fired k.i = true → s.inExc k.i = true ∨ s.st k.i = .aborting ∨ s.st k.i = .restarting
  top : ∀ c, (s.st c = .terminated ∨ s.st c = .starting) → ∃ r fs, s.frames = .loop c r :: fs

theorem ginv_init (P : Prog) (o : Nat) : GInv P o init := by
  refine ⟨?_, ?_, ?_, ?_⟩ <;> simp [init]

/-- What `finish` does to the states. -/
theorem finish_st (P : Prog) (s : M) (k : Chk) (fs : List Frame) (hh : (finish P s k fs).halt = s.halt) (hs : s.halt ≠ some .nullDeref) :
    ∃ st : Nat → SState, (st = s.st ∨ ∃ a m, k.act = some a ∧ s.active a = some m ∧ st = mark s.fired m.beh (P.cstack k.i) s.st) ∧
      (k.act = none → st = s.st) ∧
      ((k.cont = .idle ∧ (finish P s k fs).st = (if st k.i = .aborting ∨ st k.i = .restarting then st else upd st k.i .starting) ∧
          (finish P s k fs).frames = .loop k.i k.ret :: fs) ∨
       (k.cont = .run ∧ (finish P s k fs).st = st)) ∧
      (∀ a m, k.act = some a → s.active a = some m → st = mark s.fired m.beh (P.cstack k.i) s.st) := by
  unfold finish at hh ⊢
  cases ha : k.act with
  | none =>
    refine ⟨s.st, Or.inl rfl, fun _ => rfl, ?_, by simp⟩
    cases hc : k.cont
    · left; exact ⟨rfl, rfl, rfl⟩
    · right; exact ⟨rfl, rfl⟩
  | some a =>
    simp only [ha] at hh
    cases hb : s.active a with
    | none => simp only [hb] at hh; exact absurd hh.symm hs
    | some m =>
      refine ⟨mark s.fired m.beh (P.cstack k.i) s.st, Or.inr ⟨a, m, rfl, hb, rfl⟩, by simp, ?_, ?_⟩
      · simp only [hb]
        cases hc : k.cont
        · left; exact ⟨rfl, rfl, rfl⟩
        · right; exact ⟨rfl, rfl⟩
      · intro a' m' h1 h2
        cases h1; rw [hb] at h2; cases h2; rfl

theorem mark_fired (fired : Nat → Bool) (b : Beh) (l : List Nat) : ∀ (st : Nat → SState) (x : Nat), fired x = true → mark fired b l st x = st x := by
  induction l with
  | nil => intros; rfl
  | cons y l ih =>
    intro st x hx
    unfold mark
    split
    · rfl
    · rename_i hy
      rw [ih _ x hx]
      split
      · rfl
      · by_cases hxy : x = y
        · subst hxy; exact absurd hx hy
        · simp [upd, hxy]

theorem mark_notmem (fired : Nat → Bool) (b : Beh) (l : List Nat) : ∀ (st : Nat → SState) (x : Nat), x ∉ l → mark fired b l st x = st x := by
  induction l with
  | nil => intros; rfl
  | cons y l ih =>
    intro st x hx
    unfold mark
    simp only [List.mem_cons, not_or] at hx
    split
    · rfl
    · rw [ih _ x hx.2]
      split
      · rfl
      · simp [upd, hx.1]

/-- The sequence which polls is itself marked, unless it has fired. -/
theorem mark_self (P : Prog) (fired : Nat → Bool) (b : Beh) (hb : b ≠ .resume) (i : Nat) (st : Nat → SState) (hf : fired i = false) :
    mark fired b (P.cstack i) st i = .aborting := by
  obtain ⟨l, hl⟩ : ∃ l, P.cstack i = i :: l := ⟨_, cstack_eq P i⟩
  rw [hl]
  unfold mark
  rw [hf]
  simp only [Bool.false_eq_true, if_false, hb]
  rcases mark_cases fired b l (upd st i .aborting) i with h | h
  · rw [h, upd_same]
  · exact h

theorem ginv_micro (P : Prog) (o : Nat) (hin : ∀ c, c ≠ o → o ∈ P.cstack c → ∀ m ∈ P.mons c, m.beh ≠ .restart)
    (tr : List Ev) (s s' : M) (ev : List Ev) (ha : AInv P tr s) (ha' : AInv P (tr ++ ev) s') (h : GInv P o s) (hm : Micro P s s' ev) : GInv P o s' := by
  have hnl : ∀ {f0 : Frame} {fs : List Frame}, s.frames = f0 :: fs → (∀ i r, f0 ≠ .loop i r) → ∀ c, ¬ (s.st c = .terminated ∨ s.st c = .starting) := by
    intro f0 fs hf h0 c hc
    obtain ⟨r, fs', h1⟩ := h.top c hc
    rw [hf] at h1
    exact h0 c r (List.cons.inj h1).1
  have hli : ∀ {i r} {fs : List Frame}, s.frames = .loop i r :: fs → ∀ c, (s.st c = .terminated ∨ s.st c = .starting) → c = i := by
    intro i r fs hf c hc
    obtain ⟨r', fs', h1⟩ := h.top c hc
    rw [hf] at h1
    exact (Frame.loop.inj (List.cons.inj h1).1).1.symm
  have hlow : ∀ {f0 : Frame} {fs : List Frame}, s.frames = f0 :: fs → ∀ f ∈ fs, f.id ≠ f0.id := by
    intro f0 fs hf f hfm he
    have hn := ha.p.nodup
    rw [hf] at hn
    simp only [List.map_cons, List.nodup_cons] at hn
    exact hn.1 (by rw [← he]; exact List.mem_map_of_mem hfm)
  have hchk : ∀ {f0 : Frame} {fs : List Frame}, s.frames = f0 :: fs → ∀ f ∈ fs, ∀ k, f.chk = some k →
      s.fired k.i = true → s.inExc k.i = true ∨ s.st k.i = .aborting ∨ s.st k.i = .restarting := by
    intro f0 fs hf f hfm; exact h.chk f (by rw [hf]; simp [hfm])
  cases hm with
  | call j hc hj =>
    refine ⟨h.inner, h.run, ?_, ?_⟩
    · intro f hf k hk
      rcases List.mem_cons.1 hf with rfl | hf
      · cases hk
      · exact h.chk f hf k hk
    · intro c hcc
      obtain ⟨r, fs, h1⟩ := h.top c hcc
      rw [h1] at hc; exact absurd hc id
  | dead => exact ⟨h.inner, h.run, h.chk, h.top⟩
  | spawn j => exact h
  | leave i fs v hf =>
    refine ⟨h.inner, h.run, ?_, fun c hc => absurd hc (hnl hf (by simp) c)⟩
    intro f hfm k hk
    rcases List.mem_cons.1 hfm with rfl | hfm
    · cases hk
    · exact hchk hf f hfm k hk
  | idle i r fs hf hs =>
    refine ⟨h.inner, ?_, ?_, ?_⟩
    · intro c hc hfc
      by_cases hci : c = i
      · subst hci; simp [upd] at hfc
      · simp only [upd_other _ _ _ _ hci] at hfc; exact h.run c hc hfc
    · intro f hfm k hk hfk
      by_cases hci : k.i = i
      · simp only [hci, upd_same] at hfk; cases hfk
      · simp only [upd_other _ _ _ _ hci] at hfk
        rcases List.mem_cons.1 hfm with rfl | hfm
        · simp only [Frame.chk, Option.some.injEq] at hk; subst hk; exact absurd rfl hci
        · exact hchk hf f hfm k hk hfk
    · intro c hc
      have := hli hf c hc
      subst this
      rw [hs] at hc; rcases hc with hc | hc <;> cases hc
  | enter i r fs hf hs =>
    refine ⟨?_, ?_, ?_, ?_⟩
    · intro c h1 h2
      by_cases hci : c = i
      · subst hci; simp [upd]
      · simp only [upd_other _ _ _ _ hci]; exact h.inner c h1 h2
    · intro c hc hfc
      by_cases hci : c = i
      · subst hci; exact h.run c (Or.inl hs) hfc
      · simp only [upd_other _ _ _ _ hci] at hc; exact h.run c hc hfc
    · intro f hfm k hk hfk
      rcases List.mem_cons.1 hfm with rfl | hfm
      · cases hk
      · have hne : k.i ≠ i := by rw [← chk_id hk]; exact hlow hf f hfm
        simp only [upd_other _ _ _ _ hne]
        exact hchk hf f hfm k hk hfk
    · intro c hc
      by_cases hci : c = i
      · subst hci; simp [upd] at hc
      · simp only [upd_other _ _ _ _ hci] at hc; exact absurd (hli hf c hc) hci
  | refuse i r fs hf hs =>
    refine ⟨?_, ?_, ?_, ?_⟩
    · intro c h1 h2
      by_cases hci : c = i
      · subst hci; simp [upd]
      · simp only [upd_other _ _ _ _ hci]; exact h.inner c h1 h2
    · intro c hc hfc
      by_cases hci : c = i
      · subst hci; simp [upd] at hc
      · simp only [upd_other _ _ _ _ hci] at hc; exact h.run c hc hfc
    · intro f hfm k hk hfk
      simp only at hfm; rw [hf] at hfm
      rcases List.mem_cons.1 hfm with rfl | hfm
      · cases hk
      · have hne : k.i ≠ i := by rw [← chk_id hk]; exact hlow hf f hfm
        simp only [upd_other _ _ _ _ hne]
        exact hchk hf f hfm k hk hfk
    · intro c hc
      by_cases hci : c = i
      · subst hci; exact ⟨r, fs, hf⟩
      · simp only [upd_other _ _ _ _ hci] at hc; exact absurd (hli hf c hc) hci
  | run i r fs hf hs =>
    refine ⟨h.inner, h.run, ?_, ?_⟩
    · intro f hfm k hk hfk
      rcases List.mem_cons.1 hfm with rfl | hfm
      · simp only [Frame.chk, Option.some.injEq] at hk; subst hk
        exact Or.inl (h.run i (Or.inr hs) hfk)
      · exact hchk hf f hfm k hk hfk
    · intro c hc
      have := hli hf c hc
      subst this
      rw [hs] at hc; rcases hc with hc | hc <;> cases hc
  | abort i r fs hf hs =>
    refine ⟨?_, ?_, ?_, ?_⟩
    · intro c h1 h2
      by_cases hci : c = i
      · subst hci; simp [upd]
      · simp only [upd_other _ _ _ _ hci]; exact h.inner c h1 h2
    · intro c hc hfc
      by_cases hci : c = i
      · subst hci; simp [upd] at hc
      · simp only [upd_other _ _ _ _ hci] at hc; exact h.run c hc hfc
    · intro f hfm k hk hfk
      simp only at hfm; rw [hf] at hfm
      rcases List.mem_cons.1 hfm with rfl | hfm
      · cases hk
      · have hne : k.i ≠ i := by rw [← chk_id hk]; exact hlow hf f hfm
        simp only [upd_other _ _ _ _ hne]
        exact hchk hf f hfm k hk hfk
    · intro c hc
      by_cases hci : c = i
      · subst hci; exact ⟨r, fs, hf⟩
      · simp only [upd_other _ _ _ _ hci] at hc; exact absurd (hli hf c hc) hci
  | restart i r fs hf hs =>
    refine ⟨?_, ?_, ?_, ?_⟩
    · intro c h1 h2
      by_cases hci : c = i
      · subst hci; simp [upd]
      · simp only [upd_other _ _ _ _ hci]; exact h.inner c h1 h2
    · intro c hc hfc
      by_cases hci : c = i
      · subst hci; simp [upd] at hfc
      · simp only [upd_other _ _ _ _ hci] at hc hfc; exact h.run c hc hfc
    · intro f hfm k hk hfk
      simp only at hfm; rw [hf] at hfm
      rcases List.mem_cons.1 hfm with rfl | hfm
      · cases hk
      · have hne : k.i ≠ i := by rw [← chk_id hk]; exact hlow hf f hfm
        simp only [upd_other _ _ _ _ hne] at hfk ⊢
        exact hchk hf f hfm k hk hfk
    · intro c hc
      by_cases hci : c = i
      · subst hci; exact ⟨r, fs, hf⟩
      · simp only [upd_other _ _ _ _ hci] at hc; exact absurd (hli hf c hc) hci
  | ret i r fs hf hs =>
    refine ⟨?_, ?_, ?_, ?_⟩
    · intro c h1 h2
      by_cases hci : c = i
      · subst hci; simp [upd]
      · simp only [upd_other _ _ _ _ hci]; exact h.inner c h1 h2
    · intro c hc hfc
      by_cases hci : c = i
      · subst hci; simp [upd] at hc
      · simp only [upd_other _ _ _ _ hci] at hc; exact h.run c hc hfc
    · intro f hfm k hk hfk
      have hne : k.i ≠ i := by rw [← chk_id hk]; exact hlow hf f hfm
      simp only [upd_other _ _ _ _ hne]
      exact hchk hf f hfm k hk hfk
    · intro c hc
      by_cases hci : c = i
      · subst hci; simp [upd] at hc
      · simp only [upd_other _ _ _ _ hci] at hc; exact absurd (hli hf c hc) hci
  | exitTrue i r fs hf =>
    refine ⟨?_, ?_, ?_, ?_⟩
    · intro c h1 h2
      by_cases hci : c = i
      · subst hci; simp [upd]
      · simp only [upd_other _ _ _ _ hci]; exact h.inner c h1 h2
    · intro c hc hfc
      by_cases hci : c = i
      · subst hci; simp [upd] at hc
      · simp only [upd_other _ _ _ _ hci] at hc; exact h.run c hc hfc
    · intro f hfm k hk hfk
      rcases List.mem_cons.1 hfm with rfl | hfm
      · cases hk
      · have hne : k.i ≠ i := by rw [← chk_id hk]; exact hlow hf f hfm
        simp only [upd_other _ _ _ _ hne]
        exact hchk hf f hfm k hk hfk
    · intro c hc
      by_cases hci : c = i
      · subst hci; exact ⟨r, fs, rfl⟩
      · simp only [upd_other _ _ _ _ hci] at hc; exact absurd hc (hnl hf (by simp) c)
  | exitFalse i r fs hf =>
    refine ⟨h.inner, h.run, ?_, fun c hc => absurd hc (hnl hf (by simp) c)⟩
    intro f hfm k hk
    rcases List.mem_cons.1 hfm with rfl | hfm
    · cases hk
    · exact hchk hf f hfm k hk
  | after k o' m fs hf =>
    obtain ⟨-, -, -, hmm⟩ := ha.e.shape (.exc k o' m) (by rw [hf]; simp)
    have hframes : (afterExc s k o' m fs).1.frames = .check k :: fs := by cases hb : m.beh <;> simp [afterExc, hb]
    have hnt := hnl hf (by simp)
    have hck : ∀ f ∈ (afterExc s k o' m fs).1.frames, ∀ k', f.chk = some k' →
        s.fired k'.i = true → s.inExc k'.i = true ∨ s.st k'.i = .aborting ∨ s.st k'.i = .restarting := by
      rw [hframes]
      intro f hfm k' hk'
      rcases List.mem_cons.1 hfm with rfl | hfm
      · exact h.chk (.exc k o' m) (by rw [hf]; simp) k' hk'
      · exact hchk hf f hfm k' hk'
    refine ⟨?_, ?_, ?_, ?_⟩
    · intro c h1 h2
      by_cases hci : c = o'
      · subst hci
        have hr := hin c h1 h2 m hmm
        cases hb : m.beh
        · simp [afterExc, hb, upd]
        · simp [afterExc, hb, upd]
        · exact absurd hb hr
      · have := h.inner c h1 h2
        cases hb : m.beh <;> simpa [afterExc, hb, upd, hci] using this
    · intro c hc hfc
      by_cases hci : c = o'
      · subst hci
        cases hb : m.beh <;> simp [afterExc, hb, upd] at hc hfc
      · have := h.run c
        cases hb : m.beh <;> simp [afterExc, hb, upd, hci] at hc hfc ⊢ <;> exact this hc hfc
    · intro f hfm k' hk' hfk
      have hc := hck f hfm k' hk'
      by_cases hci : k'.i = o'
      · right
        cases hb : m.beh <;> simp [afterExc, hb, upd, hci] at hfk ⊢
      · cases hb : m.beh <;> simp [afterExc, hb, upd, hci] at hfk ⊢ <;> exact hc hfk
    · intro c hc
      exfalso
      by_cases hci : c = o'
      · subst hci
        cases hb : m.beh <;> simp [afterExc, hb, upd] at hc
      · have := hnt c
        cases hb : m.beh <;> simp [afterExc, hb, upd, hci] at hc <;> exact this hc
  | finish k fs hf hos =>
    have hnt := hnl hf (by simp)
    rcases finish_cases P s k fs with he | ⟨f0, hff, h1, h2, h3, h4, h5⟩
    · exact absurd (by rw [he]) ha'.n.halt
    obtain ⟨st, hst, -, hcont, -⟩ := finish_st P s k fs h5 ha.n.halt
    have hsame : ∀ x, st x = s.st x ∨ st x = .aborting := by
      intro x
      rcases hst with rfl | ⟨a, m, -, -, rfl⟩
      · exact Or.inl rfl
      · exact mark_cases _ _ _ _ _
    have hfirst : ∀ x, s.fired x = true → st x = s.st x := by
      intro x hx
      rcases hst with rfl | ⟨a, m, -, -, rfl⟩
      · rfl
      · exact mark_fired _ _ _ _ _ hx
    have hother : ∀ x, x ≠ k.i → (finish P s k fs).st x = st x := by
      intro x hx
      rcases hcont with ⟨-, h6, -⟩ | ⟨-, h6⟩
      · rw [h6]; split
        · rfl
        · simp [upd, hx]
      · rw [h6]
    have hself : (finish P s k fs).st k.i = st k.i ∨ ((finish P s k fs).st k.i = .starting ∧ st k.i ≠ .aborting ∧ st k.i ≠ .restarting ∧
        (finish P s k fs).frames = .loop k.i k.ret :: fs) := by
      rcases hcont with ⟨-, h6, h7⟩ | ⟨-, h6⟩
      · rw [h6]
        by_cases hc : st k.i = .aborting ∨ st k.i = .restarting
        · rw [if_pos hc]; exact Or.inl rfl
        · rw [not_or] at hc
          rw [if_neg (by rw [not_or]; exact hc), upd_same]; exact Or.inr ⟨rfl, hc.1, hc.2, h7⟩
      · rw [h6]; exact Or.inl rfl
    have hall : ∀ x, (finish P s k fs).st x = st x ∨ (x = k.i ∧ (finish P s k fs).st k.i = .starting ∧ st k.i ≠ .aborting ∧ st k.i ≠ .restarting ∧
        (finish P s k fs).frames = .loop k.i k.ret :: fs) := by
      intro x
      by_cases hx : x = k.i
      · subst hx; rcases hself with h6 | h6
        · exact Or.inl h6
        · exact Or.inr ⟨rfl, h6⟩
      · exact Or.inl (hother x hx)
    have hk0 := h.chk (.check k) (by rw [hf]; simp) k rfl
    refine ⟨?_, ?_, ?_, ?_⟩
    · intro c h6 h7
      rcases hall c with h8 | ⟨rfl, h8, -⟩
      · rw [h8]; rcases hsame c with h9 | h9
        · rw [h9]; exact h.inner c h6 h7
        · rw [h9]; decide
      · rw [h8]; decide
    · intro c hc hfc
      rw [h2] at hfc; rw [h4]
      rcases hall c with h8 | ⟨rfl, h8, h9, h10, -⟩
      · rw [h8, hfirst c hfc] at hc; exact h.run c hc hfc
      · rw [hfirst _ hfc] at h9 h10
        rcases hk0 hfc with h11 | h11 | h11
        · exact h11
        · exact absurd h11 h9
        · exact absurd h11 h10
    · intro f hfm k' hk' hfk
      rw [h1] at hfm
      rw [h2] at hfk; rw [h4]
      rcases List.mem_cons.1 hfm with rfl | hfm
      · rcases hff with rfl | rfl <;> cases hk'
      · have hne : k'.i ≠ k.i := by rw [← chk_id hk']; exact hlow hf f hfm
        rw [hother _ hne, hfirst _ hfk]
        exact hchk hf f hfm k' hk' hfk
    · intro c hc
      rcases hall c with h8 | ⟨rfl, h8, -, -, h9⟩
      · rw [h8] at hc
        exfalso
        rcases hsame c with h9 | h9
        · rw [h9] at hc; exact hnt c hc
        · rw [h9] at hc; rcases hc with hc | hc <;> cases hc
      · exact ⟨k.ret, fs, h9⟩
  | skip k fs o os hf ho hms hi =>
    refine ⟨h.inner, h.run, ?_, fun c hc => absurd hc (hnl hf (by simp) c)⟩
    intro f hfm k' hk'
    rcases List.mem_cons.1 hfm with rfl | hfm
    · simp only [Frame.chk, Option.some.injEq] at hk'; subst hk'
      exact h.chk (.check k) (by rw [hf]; simp) k rfl
    · exact hchk hf f hfm k' hk'
  | opn k fs o os hf ho hms hi =>
    refine ⟨h.inner, h.run, ?_, fun c hc => absurd hc (hnl hf (by simp) c)⟩
    intro f hfm k' hk'
    rcases List.mem_cons.1 hfm with rfl | hfm
    · simp only [Frame.chk, Option.some.injEq] at hk'; subst hk'
      exact h.chk (.check k) (by rw [hf]; simp) k rfl
    · exact hchk hf f hfm k' hk'
  | next k fs o os hf ho hms =>
    refine ⟨h.inner, h.run, ?_, fun c hc => absurd hc (hnl hf (by simp) c)⟩
    intro f hfm k' hk'
    rcases List.mem_cons.1 hfm with rfl | hfm
    · simp only [Frame.chk, Option.some.injEq] at hk'; subst hk'
      exact h.chk (.check k) (by rw [hf]; simp) k rfl
    · exact hchk hf f hfm k' hk'
  | pollFalse k fs o os m ms hf ho hms =>
    refine ⟨h.inner, h.run, ?_, fun c hc => absurd hc (hnl hf (by simp) c)⟩
    intro f hfm k' hk'
    rcases List.mem_cons.1 hfm with rfl | hfm
    · simp only [Frame.chk, Option.some.injEq] at hk'; subst hk'
      exact h.chk (.check k) (by rw [hf]; simp) k rfl
    · exact hchk hf f hfm k' hk'
  | pollFired k fs o os m ms hf ho hms hfd =>
    refine ⟨h.inner, h.run, ?_, fun c hc => absurd hc (hnl hf (by simp) c)⟩
    intro f hfm k' hk'
    rcases List.mem_cons.1 hfm with rfl | hfm
    · simp only [Frame.chk, Option.some.injEq] at hk'; subst hk'
      exact h.chk (.check k) (by rw [hf]; simp) k rfl
    · exact hchk hf f hfm k' hk'
  | fire k fs o' os m ms hf ho hms hfd =>
    refine ⟨h.inner, ?_, ?_, fun c hc => absurd hc (hnl hf (by simp) c)⟩
    · intro c hc hfc
      by_cases hci : c = o'
      · subst hci; simp [upd]
      · simp only [upd_other _ _ _ _ hci] at hfc ⊢; exact h.run c hc hfc
    · intro f hfm k' hk' hfk
      by_cases hci : k'.i = o'
      · left; simp [upd, hci]
      · simp only [upd_other _ _ _ _ hci] at hfk ⊢
        rcases List.mem_cons.1 hfm with rfl | hfm
        · simp only [Frame.chk, Option.some.injEq] at hk'; subst hk'
          exact h.chk (.check k) (by rw [hf]; simp) k rfl hfk
        · exact hchk hf f hfm k' hk' hfk

/-- The monitor `m` of `o` is still to be checked by `k`. -/
def Ahead (o : Nat) (m : Mon) (k : Chk) : Prop := o ∈ k.os ∧ ∀ l os, k.os = o :: os → k.ms = some l → m ∈ l

/-- Since the exception processing of `m` of `o` has ended. -/
structure IInv (P : Prog) (o : Nat) (m : Mon) (s : M) : Prop where
  fired : s.fired o = true
  inExc : s.inExc o = false
  active : s.active o = some m
  st : s.st o = .aborting ∨ s.st o = .restarting ∨ s.st o = .terminated
  inner : ∀ c, c ≠ o → o ∈ P.cstack c → s.st c ≠ .starting
  chk : ∀ f ∈ s.frames, ∀ k, f.chk = some k → k.i ≠ o → o ∈ P.cstack k.i → Ahead o m k ∨ ∃ b, k.act = some b ∧ b ∈ P.cstack o

theorem iinv_top {P : Prog} {o : Nat} {m : Mon} {s s' : M} (h : IInv P o m s) {f0 f1 : Frame} {fs : List Frame} (hf : s.frames = f0 :: fs)
    (hf' : s'.frames = f1 :: fs) (h1 : s'.fired o = s.fired o) (h2 : s'.inExc o = s.inExc o) (h3 : s'.active o = s.active o)
    (h4 : s'.st o = .aborting ∨ s'.st o = .restarting ∨ s'.st o = .terminated) (h5 : ∀ c, c ≠ o → o ∈ P.cstack c → s'.st c ≠ .starting)
    (h6 : ∀ k, f1.chk = some k → k.i ≠ o → o ∈ P.cstack k.i → Ahead o m k ∨ ∃ b, k.act = some b ∧ b ∈ P.cstack o) : IInv P o m s' := by
  refine ⟨by rw [h1]; exact h.fired, by rw [h2]; exact h.inExc, by rw [h3]; exact h.active, h4, h5, ?_⟩
  rw [hf']
  intro f hfm k hk
  rcases List.mem_cons.1 hfm with rfl | hfm
  · exact h6 k hk
  · exact h.chk f (by rw [hf]; simp [hfm]) k hk

theorem iinv_micro (P : Prog) (o : Nat) (m : Mon) (hin : ∀ c, c ≠ o → o ∈ P.cstack c → ∀ m ∈ P.mons c, m.beh ≠ .restart)
    (hout : ∀ a ∈ P.cstack o, ∀ m ∈ P.mons a, m.beh ≠ .resume)
    (tr : List Ev) (s s' : M) (ev : List Ev) (ha : AInv P tr s) (ha' : AInv P (tr ++ ev) s') (hg : GInv P o s) (h : IInv P o m s)
    (hm : Micro P s s' ev) (hret : ∀ v, .ret o v ∉ ev) (hres : .restart o ∉ ev) (hpoll : .poll o m false ∉ ev) :
    IInv P o m s' ∧ ∀ c, o ∈ P.cstack c → .enter c ∉ ev := by
  have hnl : ∀ {f0 : Frame} {fs : List Frame}, s.frames = f0 :: fs → (∀ i r, f0 ≠ .loop i r) → ∀ c, ¬ (s.st c = .terminated ∨ s.st c = .starting) := by
    intro f0 fs hf h0 c hc
    obtain ⟨r, fs', h1⟩ := hg.top c hc
    rw [hf] at h1
    exact h0 c r (List.cons.inj h1).1
  have hset : ∀ (i : Nat) (x : SState), (i = o → (x = .aborting ∨ x = .restarting ∨ x = .terminated)) →
      (upd s.st i x o = .aborting ∨ upd s.st i x o = .restarting ∨ upd s.st i x o = .terminated) := by
    intro i x hx
    by_cases hio : o = i
    · subst hio; simp only [upd_same]; exact hx rfl
    · simp only [upd_other _ _ _ _ hio]; exact h.st
  have hsetc : ∀ (i : Nat) (x : SState), (i ≠ o → o ∈ P.cstack i → x ≠ .starting) → ∀ c, c ≠ o → o ∈ P.cstack c → upd s.st i x c ≠ .starting := by
    intro i x hx c hc1 hc2
    by_cases hio : c = i
    · subst hio; simp only [upd_same]; exact hx hc1 hc2
    · simp only [upd_other _ _ _ _ hio]; exact h.inner c hc1 hc2
  have hck : ∀ {k : Chk} {fs : List Frame}, s.frames = .check k :: fs → k.i ≠ o → o ∈ P.cstack k.i → Ahead o m k ∨ ∃ b, k.act = some b ∧ b ∈ P.cstack o := by
    intro k fs hf; exact h.chk (.check k) (by rw [hf]; simp) k rfl
  cases hm with
  | call j hc hj =>
    refine ⟨⟨h.fired, h.inExc, h.active, h.st, h.inner, ?_⟩, by simp⟩
    intro f hf k hk
    rcases List.mem_cons.1 hf with rfl | hf
    · cases hk
    · exact h.chk f hf k hk
  | dead => exact ⟨⟨h.fired, h.inExc, h.active, h.st, h.inner, h.chk⟩, by simp⟩
  | spawn j => exact ⟨h, by simp⟩
  | leave i fs v hf => exact ⟨iinv_top h hf rfl rfl rfl rfl h.st h.inner (by intro k hk; cases hk), by simp⟩
  | idle i r fs hf hs =>
    have hio : o ≠ i := by
      rintro rfl
      have := h.st; rw [hs] at this
      rcases this with h1 | h1 | h1 <;> cases h1
    refine ⟨iinv_top h hf rfl (by simp [upd, hio]) rfl (by simp [upd, hio]) h.st h.inner ?_, by simp⟩
    intro k hk h1 h2
    simp only [Frame.chk, Option.some.injEq] at hk; subst hk
    left
    exact ⟨h2, by intro l os _ hl; simp [newCheck] at hl⟩
  | enter i r fs hf hs =>
    have hic : o ∉ P.cstack i := by
      intro hc
      by_cases hio : i = o
      · subst hio
        have := h.st; rw [hs] at this
        rcases this with h1 | h1 | h1 <;> cases h1
      · exact h.inner i hio hc hs
    refine ⟨iinv_top h hf rfl rfl rfl rfl (hset _ _ ?_) (hsetc _ _ (by intro _ _; decide)) (by intro k hk; cases hk), ?_⟩
    · rintro rfl; exact absurd (mem_cstack_self P _) hic
    · intro c hc he
      simp only [List.mem_singleton, Ev.enter.injEq] at he
      subst he; exact hic hc
  | refuse i r fs hf hs => exact ⟨iinv_top h hf hf rfl rfl rfl (hset _ _ (by simp)) (hsetc _ _ (by intro _ _; decide)) (by intro k hk; cases hk), by simp⟩
  | run i r fs hf hs =>
    refine ⟨iinv_top h hf rfl rfl rfl rfl h.st h.inner ?_, by simp⟩
    intro k hk h1 h2
    simp only [Frame.chk, Option.some.injEq] at hk; subst hk
    left
    exact ⟨h2, by intro l os _ hl; simp [newCheck] at hl⟩
  | abort i r fs hf hs => exact ⟨iinv_top h hf hf rfl rfl rfl (hset _ _ (by simp)) (hsetc _ _ (by intro _ _; decide)) (by intro k hk; cases hk), by simp⟩
  | restart i r fs hf hs =>
    have hio : o ≠ i := by rintro rfl; simp at hres
    refine ⟨iinv_top h hf hf (by simp [upd, hio]) rfl (by simp [upd, hio]) (hset _ _ (fun he => absurd he.symm hio)) (hsetc _ _ ?_) (by intro k hk; cases hk), by simp⟩
    intro h1 h2
    exact absurd hs (hg.inner i h1 h2)
  | ret i r fs hf hs =>
    have hio : o ≠ i := by rintro rfl; simp at hret
    refine ⟨⟨h.fired, h.inExc, h.active, hset _ _ (fun he => absurd he.symm hio), hsetc _ _ (by intro _ _; decide), ?_⟩, by simp⟩
    intro f hfm k hk
    exact h.chk f (by rw [hf]; simp only at hfm; simp [hfm]) k hk
  | exitTrue i r fs hf => exact ⟨iinv_top h hf rfl rfl rfl rfl (hset _ _ (by simp)) (hsetc _ _ (by intro _ _; decide)) (by intro k hk; cases hk), by simp⟩
  | exitFalse i r fs hf => exact ⟨iinv_top h hf rfl rfl rfl rfl h.st h.inner (by intro k hk; cases hk), by simp⟩
  | after k o' m' fs hf =>
    have hno : o ≠ o' := by
      rintro rfl
      have hc := ha.e.count o
      rw [h.inExc, hf] at hc
      simp [excOf] at hc
    have hframes : (afterExc s k o' m' fs).1.frames = .check k :: fs := by cases hb : m'.beh <;> simp [afterExc, hb]
    refine ⟨iinv_top h hf hframes ?_ ?_ ?_ ?_ ?_ ?_, by simp⟩
    · cases hb : m'.beh <;> simp [afterExc, hb, upd, hno]
    · cases hb : m'.beh <;> simp [afterExc, hb, upd, hno]
    · cases hb : m'.beh <;> simp [afterExc, hb]
    · have := h.st
      cases hb : m'.beh <;> simpa [afterExc, hb, upd, hno] using this
    · intro c h1 h2
      have := h.inner c h1 h2
      by_cases hco : c = o'
      · subst hco; cases hb : m'.beh <;> simp [afterExc, hb, upd]
      · cases hb : m'.beh <;> simpa [afterExc, hb, upd, hco] using this
    · intro k' hk'
      exact h.chk (.exc k o' m') (by rw [hf]; simp) k' hk'
  | finish k fs hf hos =>
    have hnt := hnl hf (by simp)
    rcases finish_cases P s k fs with he | ⟨f0, hff, h1, h2, h3, h4, h5⟩
    · exact absurd (by rw [he]) ha'.n.halt
    obtain ⟨st, hst, -, hcont, hact⟩ := finish_st P s k fs h5 ha.n.halt
    have hsame : ∀ x, st x = s.st x ∨ st x = .aborting := by
      intro x
      rcases hst with rfl | ⟨a, m, -, -, rfl⟩
      · exact Or.inl rfl
      · exact mark_cases _ _ _ _ _
    have hfirst : ∀ x, s.fired x = true → st x = s.st x := by
      intro x hx
      rcases hst with rfl | ⟨a, m, -, -, rfl⟩
      · rfl
      · exact mark_fired _ _ _ _ _ hx
    have hnew : ∀ x, st x = .aborting ∨ st x = .restarting ∨ x ≠ k.i → (finish P s k fs).st x = st x := by
      intro x hx
      rcases hcont with ⟨-, h6, -⟩ | ⟨-, h6⟩
      · rw [h6]
        by_cases hxk : x = k.i
        · subst hxk
          rw [if_pos]
          rcases hx with hx | hx | hx
          · exact Or.inl hx
          · exact Or.inr hx
          · exact absurd rfl hx
        · split
          · rfl
          · simp [upd, hxk]
      · rw [h6]
    have hsto : s.st o = .aborting ∨ s.st o = .restarting := by
      rcases h.st with h6 | h6 | h6
      · exact Or.inl h6
      · exact Or.inr h6
      · exact absurd (Or.inl h6) (hnt o)
    refine ⟨iinv_top h hf h1 (by rw [h2]) (by rw [h4]) (by rw [h3]) ?_ ?_ ?_, by simp⟩
    · have h6 := hfirst o h.fired
      rw [hnew o (by rw [h6]; rcases hsto with h7 | h7 <;> simp [h7]), h6]
      exact h.st
    · intro c hc1 hc2
      by_cases hck' : c = k.i
      · subst hck'
        -- the polling sequence itself
        have hdone : st k.i = .aborting ∨ st k.i = .restarting := by
          rcases hck hf hc1 hc2 with ⟨h6, -⟩ | ⟨b, h6, h7⟩
          · rw [hos] at h6; cases h6
          · obtain ⟨-, hb⟩ := ha.n.ok (.check k) (by rw [hf]; simp) b h6
            obtain ⟨mb, hmb⟩ := Option.ne_none_iff_exists'.1 hb
            have hbeh := hout b h7 mb (ha.e.active b mb hmb)
            cases hfk : s.fired k.i with
            | false => left; rw [hact b mb h6 hmb]; exact mark_self P _ _ hbeh _ _ hfk
            | true =>
              rw [hfirst _ hfk]
              rcases hg.chk (.check k) (by rw [hf]; simp) k rfl hfk with h8 | h8
              · exfalso
                have hc := ha.e.count k.i
                rw [h8, hf] at hc
                have hpos : 0 < excOf k.i fs := by
                  have : excOf k.i (Frame.check k :: fs) = excOf k.i fs := by simp [excOf]
                  rw [this] at hc; rw [hc]; decide
                simp only [excOf, List.countP_pos_iff] at hpos
                obtain ⟨f, hfm, hfo⟩ := hpos
                cases f with
                | exc k' o' m' =>
                  simp only [decide_eq_true_eq] at hfo
                  subst hfo
                  have hok := (ha.n.ok (.exc k' k.i m') (by rw [hf]; simp [hfm])).2.1
                  have hn := ha.n.nest
                  have hnd := ha.p.nodup
                  rw [hf] at hn hnd
                  exact nest_low hn hnd hfm hok
                | _ => simp at hfo
              · exact h8
        rw [hnew k.i (by rcases hdone with h9 | h9 <;> simp [h9])]
        rcases hdone with h9 | h9 <;> rw [h9] <;> decide
      · rw [hnew c (Or.inr (Or.inr hck'))]
        rcases hsame c with h6 | h6
        · rw [h6]; exact h.inner c hc1 hc2
        · rw [h6]; decide
    · intro k' hk'
      rcases hff with rfl | rfl <;> cases hk'
  | skip k fs x os hf ho hms hi =>
    have hxo : x ≠ o := by rintro rfl; rw [h.inExc] at hi; cases hi
    refine ⟨iinv_top h hf rfl rfl rfl rfl h.st h.inner ?_, by simp⟩
    intro k' hk' h1 h2
    simp only [Frame.chk, Option.some.injEq] at hk'; subst hk'
    rcases hck hf h1 h2 with ⟨h3, h4⟩ | h3
    · left
      rw [ho] at h3
      exact ⟨(List.mem_cons.1 h3).resolve_left (Ne.symm hxo), by intro l os' _ hl; simp only at hl; rw [hms] at hl; cases hl⟩
    · exact Or.inr h3
  | opn k fs x os hf ho hms hi =>
    refine ⟨iinv_top h hf rfl rfl rfl rfl h.st h.inner ?_, by simp⟩
    intro k' hk' h1 h2
    simp only [Frame.chk, Option.some.injEq] at hk'; subst hk'
    rcases hck hf h1 h2 with ⟨h3, h4⟩ | h3
    · left
      refine ⟨h3, ?_⟩
      intro l os' hl1 hl2
      simp only at hl1 hl2
      rw [ho] at hl1
      cases hl1; cases hl2
      exact ha.e.active _ _ h.active
    · exact Or.inr h3
  | next k fs x os hf ho hms =>
    refine ⟨iinv_top h hf rfl rfl rfl rfl h.st h.inner ?_, by simp⟩
    intro k' hk' h1 h2
    simp only [Frame.chk, Option.some.injEq] at hk'; subst hk'
    rcases hck hf h1 h2 with ⟨h3, h4⟩ | h3
    · left
      rw [ho] at h3
      rcases List.mem_cons.1 h3 with rfl | h3
      · exact absurd (h4 [] os ho hms) (by simp)
      · exact ⟨h3, by intro l os' _ hl; cases hl⟩
    · exact Or.inr h3
  | pollFalse k fs x os m' ms hf ho hms =>
    refine ⟨iinv_top h hf rfl rfl rfl rfl h.st h.inner ?_, by simp⟩
    intro k' hk' h1 h2
    simp only [Frame.chk, Option.some.injEq] at hk'; subst hk'
    rcases hck hf h1 h2 with ⟨h3, h4⟩ | h3
    · left
      refine ⟨h3, ?_⟩
      intro l os' hl1 hl2
      simp only at hl1 hl2
      have h5 := h4 _ os' hl1 hms
      cases hl2
      rcases List.mem_cons.1 h5 with rfl | h5
      · rw [ho] at hl1; cases hl1; simp at hpoll
      · exact h5
    · exact Or.inr h3
  | pollFired k fs x os m' ms hf ho hms hfd =>
    refine ⟨iinv_top h hf rfl rfl rfl rfl h.st h.inner ?_, by simp⟩
    intro k' hk' h1 h2
    simp only [Frame.chk, Option.some.injEq] at hk'; subst hk'
    have hsh := (ha.e.shape (.check k) (by rw [hf]; simp)).1
    rw [ho] at hsh
    by_cases hxo : x ∈ P.cstack o
    · exact Or.inr ⟨x, rfl, hxo⟩
    · left
      refine ⟨by simp only; rw [ho]; exact List.mem_cons_of_mem _ ((suffix_cases P h2 hsh).resolve_right hxo), ?_⟩
      intro l os' hl1
      simp only at hl1
      rw [ho] at hl1; cases hl1
      exact absurd (mem_cstack_self P _) hxo
  | fire k fs x os m' ms hf ho hms hfd =>
    have hno : o ≠ x := by rintro rfl; rw [h.fired] at hfd; cases hfd
    refine ⟨iinv_top h hf rfl (by simp [upd, hno]) (by simp [upd, hno]) (by simp [upd, hno]) h.st h.inner ?_, by simp⟩
    intro k' hk' h1 h2
    simp only [Frame.chk, Option.some.injEq] at hk'; subst hk'
    have hsh := (ha.e.shape (.check k) (by rw [hf]; simp)).1
    rw [ho] at hsh
    by_cases hxo : x ∈ P.cstack o
    · exact Or.inr ⟨x, rfl, hxo⟩
    · left
      refine ⟨by simp only; rw [ho]; exact List.mem_cons_of_mem _ ((suffix_cases P h2 hsh).resolve_right hxo), ?_⟩
      intro l os' hl1
      simp only at hl1
      rw [ho] at hl1; cases hl1
      exact absurd (mem_cstack_self P _) hxo

theorem h_ok {P : Prog} {tr : List Ev} {s : M} (ha : AInv P tr s) {k : Chk} {o : Nat} {m : Mon} {fs : List Frame} (hf : s.frames = .exc k o m :: fs) :
    OkF P s (.exc k o m) := ha.n.ok _ (by rw [hf]; simp)

/-- The end of the exception processing establishes the interval invariant. -/
theorem iinv_start (P : Prog) (o : Nat) (m : Mon) (hb : m.beh ≠ .resume) (tr : List Ev) (s s' : M) (ev : List Ev) (ha : AInv P tr s) (hg : GInv P o s)
    (hm : Micro P s s' ev) (hev : ∃ t, ev = t ++ [.handled o m]) : IInv P o m s' := by
  obtain ⟨t, hev⟩ := hev
  cases hm with
  | after k o' m' fs hf =>
    have : Ev.handled o' m' = .handled o m := by
      have := congrArg List.getLast? hev
      simpa using this
    cases this
    have hframes : (afterExc s k o m fs).1.frames = .check k :: fs := by cases hb : m.beh <;> simp [afterExc, hb]
    have hok := h_ok ha hf
    refine ⟨?_, ?_, ?_, ?_, ?_, ?_⟩
    · cases hb' : m.beh <;> simp [afterExc, hb', upd] <;> first | exact absurd hb' hb | exact hok.2.2.1
    · cases hb' : m.beh <;> simp [afterExc, hb', upd]
    · cases hb' : m.beh <;> simp [afterExc, hb'] <;> exact hok.2.2.2
    · cases hb' : m.beh <;> simp [afterExc, hb', upd]
      exact absurd hb' hb
    · intro c h1 h2
      have hns : s.st c ≠ .starting := by
        intro hc
        obtain ⟨r, fs', h3⟩ := hg.top c (Or.inr hc)
        rw [hf] at h3; cases h3
      cases hb' : m.beh <;> simpa [afterExc, hb', upd, h1] using hns
    · rw [hframes]
      intro f hfm k' hk' h1 h2
      have main : ∀ k' o' m', Frame.exc k' o' m' ∈ s.frames → o ∈ P.cstack k'.i → Ahead o m k' ∨ ∃ b, k'.act = some b ∧ b ∈ P.cstack o := by
        intro k' o' m' hmem h2
        obtain ⟨hs1, ⟨os, l, hos, -, -⟩, hact, -⟩ := ha.e.shape _ hmem
        rw [hos] at hs1
        by_cases hxo : o' ∈ P.cstack o
        · exact Or.inr ⟨o', hact, hxo⟩
        · left
          refine ⟨by rw [hos]; exact List.mem_cons_of_mem _ ((suffix_cases P h2 hs1).resolve_right hxo), ?_⟩
          intro l' os' hl1
          rw [hos] at hl1; cases hl1
          exact absurd (mem_cstack_self P _) hxo
      rcases List.mem_cons.1 hfm with rfl | hfm
      · simp only [Frame.chk, Option.some.injEq] at hk'; subst hk'
        exact main k o m (by rw [hf]; simp) h2
      · have hlow := ha.p.tail f (by rw [hf]; exact hfm)
        cases f with
        | exc k2 o2 m2 =>
          simp only [Frame.chk, Option.some.injEq] at hk'; subst hk'
          exact main k2 o2 m2 (by rw [hf]; simp [hfm]) h2
        | body i => cases hk'
        | _ => exact absurd hlow id
  | fire k fs o' os m' ms hf ho hms hfd =>
    have := congrArg List.getLast? hev
    simp at this
  | finish k fs hf ho => simp at hev
  | _ =>
    have := congrArg List.getLast? hev
    simp at this

/-- All facts together, over one step. -/
structure Full (P : Prog) (o : Nat) (tr : List Ev) (s : M) : Prop where
  a : AInv P tr s
  g : GInv P o s

theorem full_micro (P : Prog) (o : Nat) (hin : ∀ c, c ≠ o → o ∈ P.cstack c → ∀ m ∈ P.mons c, m.beh ≠ .restart) (tr : List Ev) (s s' : M) (ev : List Ev)
    (h : Full P o tr s) (hm : Micro P s s' ev) (hw : ∀ j, ev = [.call j] → ∀ c ∈ P.cstack j, c ≠ j → c ∈ s.frames.map Frame.id) : Full P o (tr ++ ev) s' :=
  have ha := ainv_micro P tr s s' ev h.a hm hw
  ⟨ha, ginv_micro P o hin tr s s' ev h.a ha h.g hm⟩

theorem full_step (P : Prog) (o : Nat) (hin : ∀ c, c ≠ o → o ∈ P.cstack c → ∀ m ∈ P.mons c, m.beh ≠ .restart) (tr : List Ev) (s s' : M) (x : Inp) (ev : List Ev)
    (h : Full P o tr s) (hs : step P s x = some (s', ev)) (hw : ∀ j, .call j ∈ ev → ∀ c ∈ P.cstack j, c ≠ j → c ∈ s.frames.map Frame.id) :
    Full P o (tr ++ ev) s' := by
  rcases stepW P s s' x ev hs hw with ⟨h1, h2⟩ | ⟨s1, ev1, ev2, h1, h2, h3, h4, rfl⟩
  · exact full_micro P o hin tr s s' ev h h1 h2
  · rw [← List.append_assoc]
    exact full_micro P o hin _ _ _ _ (full_micro P o hin tr s s1 ev1 h h1 h2) h3 h4

theorem reach_full {P : Prog} {o : Nat} (hin : ∀ c, c ≠ o → o ∈ P.cstack c → ∀ m ∈ P.mons c, m.beh ≠ .restart) {tr : List Ev} {s : M}
    (h : ReachW P tr s) : Full P o tr s := by
  induction h with
  | init => exact ⟨⟨pinv_init, einv_init P, ninv_init P⟩, ginv_init P o⟩
  | step tr s x s' ev _ hs hw ih => exact full_step P o hin tr s s' x ev ih hs hw

theorem iinv_step (P : Prog) (o : Nat) (m : Mon) (hin : ∀ c, c ≠ o → o ∈ P.cstack c → ∀ m ∈ P.mons c, m.beh ≠ .restart)
    (hout : ∀ a ∈ P.cstack o, ∀ m ∈ P.mons a, m.beh ≠ .resume)
    (tr : List Ev) (s s' : M) (x : Inp) (ev : List Ev) (hF : Full P o tr s) (h : IInv P o m s) (hs : step P s x = some (s', ev))
    (hw : ∀ j, .call j ∈ ev → ∀ c ∈ P.cstack j, c ≠ j → c ∈ s.frames.map Frame.id)
    (hret : ∀ v, .ret o v ∉ ev) (hres : .restart o ∉ ev) (hpoll : .poll o m false ∉ ev) :
    IInv P o m s' ∧ ∀ c, o ∈ P.cstack c → .enter c ∉ ev := by
  rcases stepW P s s' x ev hs hw with ⟨h1, h2⟩ | ⟨s1, ev1, ev2, h1, h2, h3, h4, rfl⟩
  · exact iinv_micro P o m hin hout tr s s' ev hF.a (full_micro P o hin tr s s' ev hF h1 h2).a hF.g h h1 hret hres hpoll
  · have hF1 := full_micro P o hin tr s s1 ev1 hF h1 h2
    have hF2 := full_micro P o hin _ _ _ _ hF1 h3 h4
    simp only [List.mem_append, not_or] at hret hres hpoll
    obtain ⟨h5, h6⟩ := iinv_micro P o m hin hout tr s s1 ev1 hF.a hF1.a hF.g h h1 (fun v => (hret v).1) hres.1 hpoll.1
    obtain ⟨h7, h8⟩ := iinv_micro P o m hin hout _ s1 s' ev2 hF1.a hF2.a hF1.g h5 h3 (fun v => (hret v).2) hres.2 hpoll.2
    refine ⟨h7, ?_⟩
    intro c hc hm
    rcases List.mem_append.1 hm with hm | hm
    · exact h6 c hc hm
    · exact h8 c hc hm

theorem iinv_reach (P : Prog) (o : Nat) (m : Mon) (hb : m.beh ≠ .resume) (hin : ∀ c, c ≠ o → o ∈ P.cstack c → ∀ m ∈ P.mons c, m.beh ≠ .restart)
    (hout : ∀ a ∈ P.cstack o, ∀ m ∈ P.mons a, m.beh ≠ .resume) (tr : List Ev) (s : M) (h : ReachW P tr s) :
    ∀ t, tr = t ++ [.handled o m] → IInv P o m s := by
  induction h with
  | init => intro t ht; simp at ht
  | step tr s x s' ev hr hs hw ih =>
    intro t ht
    have hF := reach_full hin hr
    rcases List.eq_nil_or_concat ev with rfl | ⟨ev', e, rfl⟩
    · exact (iinv_step P o m hin hout tr s s' x [] hF (ih t (by simpa using ht)) hs hw (by simp) (by simp) (by simp)).1
    · have he : e = .handled o m := by
        have := congrArg List.getLast? ht
        simpa using this
      subst he
      rcases stepW P s s' x _ hs hw with ⟨h1, h2⟩ | ⟨s1, ev1, ev2, h1, h2, h3, h4, h5⟩
      · exact iinv_start P o m hb tr s s' _ hF.a hF.g h1 ⟨_, List.concat_eq_append⟩
      · have hF1 := full_micro P o hin tr s s1 ev1 hF h1 h2
        rcases List.eq_nil_or_concat ev2 with rfl | ⟨ev3, e3, rfl⟩
        · have h6 := iinv_start P o m hb tr s s1 ev1 hF.a hF.g h1 ⟨ev', by simpa using h5.symm⟩
          exact (iinv_micro P o m hin hout _ s1 s' [] hF1.a (full_micro P o hin _ _ _ _ hF1 h3 h4).a hF1.g h6 h3 (by simp) (by simp) (by simp)).1
        · have : e3 = .handled o m := by
            have := congrArg List.getLast? h5
            simpa using this.symm
          subst this
          exact iinv_start P o m hb _ s1 s' _ hF1.a hF1.g h3 ⟨_, List.concat_eq_append⟩

/-! ### The property theorem (C11) -/

/-- The full statement of C11: after the exception processing of a monitor `m` with behavior abort or restart of `o`, until `o` returns or is restarted, no
sequence called by `o` directly or indirectly, nor `o` itself, starts an action. -/
def AbortStops (P : Prog) (o : Nat) (m : Mon) : Prop :=
  ∀ t1 s1 t2 s2, ReachW P (t1 ++ [.handled o m]) s1 → RunW P s1 t2 s2 → (∀ v, .ret o v ∉ t2) → .restart o ∉ t2 →
    ∀ c, o ∈ P.cstack c → .enter c ∉ t2

/-- Partial: it holds as long as every further evaluation of the condition of `m` gives true, if sequences called by `o` have no monitors with behavior restart
and `o` and its callers have none with behavior resume.  Missing: the other cases, where it is false, see `abort_transient`, `abort_masked_by_resume` and
`abort_masked_by_restart`. -/
theorem abort_stops_callees_partial (P : Prog) (o : Nat) (m : Mon) (hb : m.beh ≠ .resume)
    (hin : ∀ c, c ≠ o → o ∈ P.cstack c → ∀ m ∈ P.mons c, m.beh ≠ .restart) (hout : ∀ a ∈ P.cstack o, ∀ m ∈ P.mons a, m.beh ≠ .resume)
    (t1 t2 : List Ev) (s1 s2 : M) (h1 : ReachW P (t1 ++ [.handled o m]) s1) (h2 : RunW P s1 t2 s2)
    (hret : ∀ v, .ret o v ∉ t2) (hres : .restart o ∉ t2) (hpoll : .poll o m false ∉ t2) : ∀ c, o ∈ P.cstack c → .enter c ∉ t2 := by
  have h0 := iinv_reach P o m hb hin hout _ s1 h1 t1 rfl
  suffices hmain : IInv P o m s2 ∧ ∀ c, o ∈ P.cstack c → .enter c ∉ t2 from hmain.2
  induction h2 with
  | refl => exact ⟨h0, by simp⟩
  | step tr s x s' ev hr hs hw ih =>
    simp only [List.mem_append, not_or] at hret hres hpoll
    obtain ⟨h3, h4⟩ := ih (fun v => (hret v).1) hres.1 hpoll.1
    have hF := reach_full hin (h1.run hr)
    obtain ⟨h5, h6⟩ := iinv_step P o m hin hout _ s s' x ev hF h3 hs hw (fun v => (hret v).2) hres.2 hpoll.2
    refine ⟨h5, ?_⟩
    intro c hc hm
    rcases List.mem_append.1 hm with hm | hm
    · exact h4 c hc hm
    · exact h6 c hc hm

/-- While the condition of `m` stays true, a sequence called by `o` which finishes a check of its monitors is aborting or restarting, so it leaves its loop. -/
theorem aborting_returns (P : Prog) (s : M) (i : Nat) (r : Int) (fs : List Frame) (hh : s.halt = none) (hf : s.frames = .loop i r :: fs) (hs : s.st i = .aborting) :
    ∃ s1 s2, step P s .tick = some (s1, []) ∧ step P s1 .tick = some (s2, [.ret i r]) ∧ s2.frames = fs ∧ s2.st i = .idle := by
  refine ⟨_, _, by simp only [step, hh, hf, hs, ne_eq, not_true_eq_false, if_false]; rfl, by simp only [step, hh, hf, upd_same, ne_eq, not_true_eq_false, if_false]; rfl, rfl, upd_same _ _ _⟩

end Verif.Sequencer
