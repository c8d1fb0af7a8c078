/-
C121: messages of the user interface.  C122: life of the user interface.
-/
import Verif.Ui.Curses
import Mathlib.Data.List.Induction

namespace Verif.Ui.Curses

/-! ### Messages -/

/-- **C121** The list holds the newest five messages in the order in which they were added. -/
theorem newest_kept {α : Type} (ms : List α) : ms.foldl addMessage [] = ms.drop (ms.length - 5) := by
  induction ms using List.reverseRecOn with
  | nil => rfl
  | append_singleton ms m ih =>
    rw [List.foldl_append, ih, List.foldl_cons, List.foldl_nil, addMessage]
    have h5 : messageLines - 1 = 5 := rfl
    simp only [h5, List.length_append, List.length_drop, List.length_cons, List.length_nil]
    by_cases h : ms.length < 5
    · rw [if_neg (by omega), show ms.length - 5 = 0 by omega, show ms.length + (0 + 1) - 5 = 0 by omega]
      simp
    · rw [if_pos (by omega), List.tail_append_of_ne_nil (by
        intro e
        have := congrArg List.length e
        simp at this
        omega)]
      rw [List.tail_drop, List.drop_append_of_le_length (by omega)]
      congr 2
      omega

example : [1, 2, 3, 4, 5, 6, 7].foldl addMessage [] = [3, 4, 5, 6, 7] := newest_kept _

/-- The areas as they should be: from one line (included) to another one (excluded), below each other. -/
def area (LINES : Nat) : Area → Nat × Nat
  | .header => (0, 3)
  | .sequences => (4, LINES - 16)
  | .messages => (LINES - 16, LINES - 10)
  | .status => (LINES - 10, LINES - 6)
  | .commands => (LINES - 6, LINES - 2)
  | .footer => (LINES - 2, LINES)

theorem layout_eq (LINES : Nat) (h : 16 ≤ LINES) (h' : LINES < 2 ^ 31) : layout LINES = ⟨0, LINES - 2, 4, LINES - 6, LINES - 10, LINES - 16⟩ := by
  have hu : ∀ x : Int, 0 ≤ x → x < 2 ^ 32 → u32 x = x.toNat := fun x h0 h1 => by rw [u32, Int.emod_eq_of_lt h0 h1]
  have h1 : u32 (LINES - 2) = LINES - 2 := by rw [hu _ (by omega) (by omega)]; omega
  have h2 : u32 ((LINES - 2 : Nat) - 6 / 2 - 1) = LINES - 6 := by rw [hu _ (by omega) (by omega)]; omega
  have h3 : u32 ((LINES - 6 : Nat) - 4) = LINES - 10 := by rw [hu _ (by omega) (by omega)]; omega
  have h4 : u32 ((LINES - 10 : Nat) - (messageLines : Nat)) = LINES - 16 := by
    have : (messageLines : Int) = 6 := rfl
    rw [hu _ (by omega) (by omega)]; omega
  simp only [layout, h1, h2, h3, h4]

/-- **C121 (partial)** On a screen of at least 21 lines, with the messages which are kept and at most `LINES - 21` sequences: every area is written only within its own lines, and the areas are disjoint.
Missing: more sequences, see `sequences_violated`, and messages with a percent sign, see `percent_violated`. -/
theorem areas_partial (LINES nseq : Nat) (h : 21 ≤ LINES) (h' : LINES < 2 ^ 31) (hs : nseq ≤ LINES - 21) {α : Type} (ms : List α) :
    (∀ a, ∀ n ∈ written (layout LINES) LINES nseq (ms.foldl addMessage []).length a, (area LINES a).1 ≤ n ∧ n < (area LINES a).2) ∧
      ∀ a b, a ≠ b → (area LINES a).2 ≤ (area LINES b).1 ∨ (area LINES b).2 ≤ (area LINES a).1 := by
  constructor
  · intro a n hn
    rw [layout_eq LINES (by omega) h', newest_kept] at hn
    cases a <;> simp only [written, area, List.mem_append, List.mem_filter, List.mem_range, List.mem_cons, List.mem_map, List.not_mem_nil, or_false, List.length_drop, decide_eq_true_eq] at hn ⊢
    · omega
    · rcases hn with hn | ⟨i, hi, hn⟩ <;> omega
    · rcases hn with hn | ⟨i, hi, hn⟩ <;> omega
    · omega
    · rcases hn with hn | ⟨i, hi, hn⟩
      · omega
      · rcases hi with rfl | rfl | rfl | rfl | rfl <;> omega
    · omega
  · intro a b hab
    cases a <;> cases b <;> simp only [area] <;> first | exact absurd rfl hab | omega

/-- A terminal of 24 lines, 3 sequences and 9 messages: the last message is on the line above the title of the status. -/
example : written (layout 24) 24 3 (([0, 1, 2, 3, 4, 5, 6, 7, 8] : List Nat).foldl addMessage []).length .messages = [8, 9, 10, 11, 12, 13] ∧ (layout 24).status = 14 := by
  decide

/-- **C121 violated**: one sequence more (and any number above) is written over the title of the messages. -/
theorem sequences_violated (LINES nseq nmsg : Nat) (h : 21 ≤ LINES) (h' : LINES < 2 ^ 31) (hs : LINES - 21 < nseq) :
    ∃ n ∈ written (layout LINES) LINES nseq nmsg .sequences, n ∈ written (layout LINES) LINES nseq nmsg .messages := by
  rw [layout_eq LINES (by omega) h']
  refine ⟨LINES - 16, List.mem_cons_of_mem _ (List.mem_map.2 ⟨LINES - 21, List.mem_range.2 hs, by simp only; omega⟩), List.mem_cons_self ..⟩

/-- The fourth sequence on a terminal of 24 lines. -/
example : ∃ n ∈ written (layout 24) 24 4 0 .sequences, n ∈ written (layout 24) 24 4 0 .messages := sequences_violated 24 4 0 (by decide) (by decide) (by decide)

/-- A message without a percent sign is printed as it is. -/
theorem printed (m : List Char) (h : '%' ∉ m) : printf m = some m := by
  induction m with
  | nil => rfl
  | cons c m ih =>
    have hc : c ≠ '%' := fun e => h (e ▸ List.mem_cons_self ..)
    have := ih fun hm => h (List.mem_cons_of_mem _ hm)
    unfold printf
    split
    · simp_all
    · simp_all
    · simp_all
    · simp_all
    · rename_i heq
      cases heq
      rw [this]; rfl

example : printf "motor on".toList = some "motor on".toList := printed _ (by decide)

theorem printf_length (m : List Char) : ∀ r, printf m = some r → r.length ≤ m.length ∧ ('%' ∈ m → r.length < m.length) := by
  induction m using printf.induct with
  | case1 => intro r h; simp [printf] at h; simp [h]
  | case2 => intro r h; simp [printf] at h
  | case3 rest ih =>
    intro r h
    rw [printf] at h
    obtain ⟨q, hq, rfl⟩ := Option.map_eq_some_iff.1 h
    have := (ih q hq).1
    simp only [List.length_cons]
    omega
  | case4 c rest h1 =>
    intro r h
    rw [printf] at h
    · cases h
    · exact h1
  | case5 c rest h1 h2 h3 ih =>
    intro r h
    rw [printf] at h
    · obtain ⟨q, hq, rfl⟩ := Option.map_eq_some_iff.1 h
      have hi := ih q hq
      have hc : c ≠ '%' := by
        rintro rfl
        cases rest with
        | nil => exact h1 rfl rfl
        | cons d rest => exact h3 d rest rfl rfl
      simp only [List.length_cons, List.mem_cons]
      refine ⟨by omega, fun hm => ?_⟩
      rcases hm with hm | hm
      · exact absurd hm.symm hc
      · have := hi.2 hm; omega
    all_goals assumption

/-- Only such a message is printed as it is. -/
theorem printed_iff (m : List Char) : printf m = some m ↔ '%' ∉ m :=
  ⟨fun h hm => absurd ((printf_length m m h).2 hm) (Nat.lt_irrefl _), printed m⟩

example : printf "100 %%".toList = some "100 %".toList := by decide

/-- Specification: a message in which every percent sign is doubled. -/
def doubled (m : List Char) : List Char := m.flatMap fun c => if c = '%' then ['%', '%'] else [c]

/-- What a caller can do: a message with doubled percent signs is printed with single ones. -/
theorem doubled_printed (m : List Char) : printf (doubled m) = some m := by
  induction m with
  | nil => rfl
  | cons c m ih =>
    by_cases hc : c = '%'
    · subst hc
      show printf ('%' :: '%' :: doubled m) = _
      rw [printf, ih]; rfl
    · have : doubled (c :: m) = c :: doubled m := by simp [doubled, hc]
      rw [this, printf, ih]
      · rfl
      all_goals simp_all

example : printf (doubled "20 % of 100 %".toList) = some "20 % of 100 %".toList := doubled_printed _

/-- **C121 violated**: a message is used as the format: no message with a percent sign is printed as it is; most are undefined (here: a percent sign followed by anything else, after a text without). -/
theorem percent_violated (a b : List Char) (c : Char) (ha : '%' ∉ a) (hc : c ≠ '%') : printf (a ++ '%' :: c :: b) = none := by
  induction a with
  | nil =>
    show printf ('%' :: c :: b) = none
    unfold printf
    split
    · simp_all
    · simp_all
    · simp_all
    · rfl
    · rename_i hx heq
      cases heq
      exact (hx _ _ rfl rfl).elim
  | cons d a ih =>
    have hd : d ≠ '%' := fun e => ha (e ▸ List.mem_cons_self ..)
    have := ih fun hm => ha (List.mem_cons_of_mem _ hm)
    show printf (d :: (a ++ '%' :: c :: b)) = none
    unfold printf
    split
    · simp_all
    · simp_all
    · simp_all
    · simp_all
    · rename_i heq
      cases heq
      rw [this]; rfl

example : printf "battery at 20 % power".toList = none := percent_violated "battery at 20 ".toList "power".toList ' ' (by decide) (by decide)

/-! ### Life -/

/-- No key has any effect: as long as the user interface is shown, none is even read.  More: as soon as the thread sees the state `active`, it ends. -/
theorem active_no_keys (u : Ui) (h : u.state = .active) (es : List Ev) (he : ∀ e ∈ es, e = .thread) : (steps u es).read = u.read := by
  have key : ∀ (es : List Ev) (u : Ui), (u.state = .active ∨ u.pc = .ended) → (∀ e ∈ es, e = .thread) → (steps u es).read = u.read := by
    intro es
    induction es with
    | nil => intro u _ _; rfl
    | cons e es ih =>
      intro u hu he
      rw [he e (List.mem_cons_self ..)]
      have h1 : (step u .thread).read = u.read ∧ ((step u .thread).state = .active ∨ (step u .thread).pc = .ended) := by
        obtain ⟨st, pc, rd, ds⟩ := u
        rcases hu with hu | hu <;> simp only at hu <;> subst hu
        · cases pc <;> simp [step]
        · simp [step]
      show (steps (step u .thread) es).read = _
      rw [ih _ h1.2 fun e h => he e (List.mem_cons_of_mem _ h), h1.1]
  exact key es u (Or.inl h) he

/-- **C122 violated**: after `dispay` the user interface does not run until `exit`, but ends by itself after four steps of its thread (wherever it was waiting), without having read a key. -/
theorem dispay_ends_violated (n : Nat) : steps fresh (.dispay :: List.replicate (n + 4) .thread) = ⟨.stopped, .ended, 0, false⟩ := by
  have h4 : steps fresh (.dispay :: List.replicate 4 .thread) = ⟨.stopped, .ended, 0, false⟩ := rfl
  have hrep : List.replicate (n + 4) Ev.thread = List.replicate 4 .thread ++ List.replicate n .thread := by
    rw [List.replicate_append_replicate]; congr 1; omega
  have hstay : ∀ n, steps ⟨.stopped, .ended, 0, false⟩ (List.replicate n .thread) = ⟨.stopped, .ended, 0, false⟩ := by
    intro n
    induction n with
    | zero => rfl
    | succ n ih => rw [List.replicate_succ]; exact ih
  rw [hrep, ← List.cons_append, steps, List.foldl_append]
  change steps (steps fresh (.dispay :: List.replicate 4 .thread)) _ = _
  rw [h4, hstay]

/-- **C122 violated**: a user interface which was never shown cannot be destroyed: whatever else is called, and however long one waits, the destructor never returns. -/
theorem destructor_hangs_violated (es : List Ev) (h : .dispay ∉ es) : ¬ (steps fresh es).destroyed := by
  have key : ∀ (es : List Ev) (u : Ui), u.state ≠ .active → u.pc ≠ .last → u.pc ≠ .ended → .dispay ∉ es → (steps u es).pc ≠ .ended := by
    intro es
    induction es with
    | nil => intro u _ _ h _; exact h
    | cons e es ih =>
      intro u h1 h2 h3 hd
      have hne : e ≠ .dispay := fun he => hd (he ▸ List.mem_cons_self ..)
      have hd' : Ev.dispay ∉ es := fun hm => hd (List.mem_cons_of_mem _ hm)
      have hs : (step u e).state ≠ .active ∧ (step u e).pc ≠ .last ∧ (step u e).pc ≠ .ended := by
        clear ih hd hd'
        obtain ⟨st, pc, rd, ds⟩ := u
        simp only at h1 h2 h3
        cases e <;> cases pc <;> cases st <;> cases ds <;> first | exact absurd rfl hne | exact absurd rfl h1 | exact absurd rfl h2 | exact absurd rfl h3 | simp [step]
      exact ih (step u e) hs.1 hs.2.1 hs.2.2 hd'
  exact fun hd => key es fresh (by decide) (by decide) (by decide) h hd.2

example : ¬ (steps fresh ([.thread, .destroy] ++ List.replicate 1000 .thread)).destroyed :=
  destructor_hangs_violated _ fun h => by
    rcases List.mem_append.1 h with h | h
    · simp at h
    · exact absurd (List.eq_of_mem_replicate h) (by decide)

/-- **C122 (partial)** If it was shown, and its thread has run, it can be destroyed at once.
Missing: a user interface which was not shown, see `destructor_hangs_violated`; running until `exit`, see `dispay_ends_violated`. -/
theorem destroyed_partial (n : Nat) : (steps fresh ((.dispay :: List.replicate (n + 4) .thread) ++ [.destroy])).destroyed := by
  rw [steps, List.foldl_append]
  change (steps (steps fresh (.dispay :: List.replicate (n + 4) .thread)) [.destroy]).destroyed
  rw [dispay_ends_violated]
  exact ⟨rfl, rfl⟩

example : (steps fresh [.dispay, .thread, .thread, .thread, .thread, .destroy]).destroyed := destroyed_partial 0

/-! ### Instances -/

/-- **C122** At most one user interface exists at any time. -/
theorem at_most_one (os : List Op) : (ops ⟨0, 0⟩ os).alive ≤ 1 := by
  have key : ∀ os s, s.alive ≤ 1 → (s.counter = 0 → s.alive = 0) → (ops s os).alive ≤ 1 := by
    intro os
    induction os with
    | nil => intro s h _; exact h
    | cons o os ih =>
      intro s h1 h2
      refine ih _ ?_ ?_ <;> cases o <;> simp only [op] <;> split <;> simp <;> omega
  exact key os _ (by decide) fun _ => rfl

/-- **C122 violated**: at most one is constructed in the whole life of the process: once one was constructed (or tried), every further construction is refused, even if no user interface exists any more. -/
theorem never_again_violated (os : List Op) (h : .construct ∈ os) : (op (ops ⟨0, 0⟩ os) .construct).2 = false := by
  have mono : ∀ os s, s.counter ≤ (ops s os).counter := by
    intro os
    induction os with
    | nil => intro s; exact Nat.le_refl _
    | cons o os ih =>
      intro s
      refine Nat.le_trans ?_ (ih _)
      cases o <;> simp only [op] <;> split <;> simp
  have key : 1 ≤ (ops ⟨0, 0⟩ os).counter := by
    obtain ⟨a, b, rfl⟩ := List.append_of_mem h
    rw [ops, List.foldl_append, List.foldl_cons]
    refine Nat.le_trans ?_ (mono b _)
    generalize List.foldl _ _ a = s
    show 1 ≤ (op s .construct).1.counter
    simp only [op]
    split <;> simp
  unfold op
  simp only
  rw [if_pos (by omega)]

/-- Constructed, destroyed, and no other one can be constructed. -/
example : (ops ⟨0, 0⟩ [.construct, .destroy]).alive = 0 ∧ (op (ops ⟨0, 0⟩ [.construct, .destroy]) .construct).2 = false :=
  ⟨rfl, never_again_violated _ (by decide)⟩

end Verif.Ui.Curses
