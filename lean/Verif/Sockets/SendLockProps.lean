import Verif.Sockets.SendLock
import Mathlib.Data.List.Induction
/-!
C138: `setSendBuffer` does not wait for the network.
-/
namespace Verif.Sockets.SendLock

theorem run_append (e : Bool) (n : Nat) (s : St) (l m : List Ev) : run e n s (l ++ m) = run e n (run e n s l) m := by simp [run]

theorem run_snoc (e : Bool) (n : Nat) (s : St) (l : List Ev) (a : Ev) : run e n s (l ++ [a]) = step e n (run e n s l) a := by simp [run]

/-- Who holds the lock follows from where the threads are. -/
structure Inv (e : Bool) (n : Nat) (s : St) : Prop where
  ctl : s.owner = some .ctl ↔ s.ctl = .inside
  net : s.owner = some .net ↔ ((∃ k, s.net = .copying k) ∨ (e = false ∧ (s.net = .writing ∨ s.net = .wrote)))
  len : ∀ k, s.net = .copying k → k ≤ n

theorem inv_step (e : Bool) (n : Nat) (s : St) (h : Inv e n s) (a : Ev) : Inv e n (step e n s a) := by
  obtain ⟨net, ctl, owner, ent⟩ := s
  obtain ⟨h1, h2, h3⟩ := h
  simp only at h1 h2 h3
  cases a with
  | net =>
    cases net with
    | sleep => exact ⟨h1, h2, h3⟩
    | writing => exact ⟨h1, h2, h3⟩
    | want =>
      by_cases ho : owner = none
      · subst ho
        simp only [step, if_true]
        refine ⟨?_, ?_, ?_⟩
        · simp only [reduceCtorEq, false_iff] at h1; simp [h1]
        · simp
        · intro k hk; simp only [Net.copying.injEq] at hk; omega
      · simp only [step, if_neg ho]; exact ⟨h1, h2, h3⟩
    | copying k =>
      have hn : owner = some .net := h2.2 (Or.inl ⟨k, rfl⟩)
      subst hn
      have hc : ctl ≠ .inside := by intro hc; exact absurd (h1.2 hc) (by simp)
      cases k with
      | zero => cases e <;> refine ⟨?_, ?_, ?_⟩ <;> simp [step, hc]
      | succ k =>
        refine ⟨by simp [step, hc], by simp [step], ?_⟩
        intro j hj
        simp only [step, Net.copying.injEq] at hj
        have := h3 (k + 1) rfl
        omega
    | wrote =>
      cases e with
      | true =>
        refine ⟨by simpa [step] using h1, ?_, by simp [step]⟩
        simp only [step]
        simp at h2
        simp [h2]
      | false =>
        have hn : owner = some .net := h2.2 (Or.inr ⟨rfl, Or.inr rfl⟩)
        subst hn
        have hc : ctl ≠ .inside := by intro hc; exact absurd (h1.2 hc) (by simp)
        refine ⟨?_, ?_, ?_⟩ <;> simp [step, hc]
  | ctl =>
    cases ctl with
    | outside =>
      refine ⟨?_, h2, h3⟩
      simp only [step]
      simp only [reduceCtorEq, iff_false] at h1 ⊢
      exact h1
    | waiting =>
      by_cases ho : owner = none
      · subst ho
        simp only [step, if_true]
        refine ⟨by simp, ?_, h3⟩
        simp only [reduceCtorEq, false_iff] at h2
        simp only [Option.some.injEq, reduceCtorEq, false_iff]
        exact h2
      · simp only [step, if_neg ho]; exact ⟨h1, h2, h3⟩
    | inside =>
      have hc : owner = some .ctl := h1.2 rfl
      subst hc
      refine ⟨by simp [step], ?_, h3⟩
      simp only [Option.some.injEq, reduceCtorEq, false_iff] at h2
      simp only [step, reduceCtorEq, false_iff]
      exact h2
  | wake =>
    by_cases hs : net = .sleep
    · subst hs
      simp only [step, if_true]
      refine ⟨h1, ?_, by simp⟩
      simp at h2
      simp [h2]
    · simp only [step, if_neg hs]; exact ⟨h1, h2, h3⟩
  | done =>
    by_cases hs : net = .writing
    · subst hs
      simp only [step, if_true]
      refine ⟨h1, ?_, by simp⟩
      simp at h2
      simp [h2]
    · simp only [step, if_neg hs]; exact ⟨h1, h2, h3⟩

theorem inv_run (e : Bool) (n : Nat) (l : List Ev) : Inv e n (run e n new l) := by
  induction l using List.reverseRecOn with
  | nil => exact ⟨by simp [run, new], by simp [run, new], by simp [run, new]⟩
  | append_singleton l a ih => rw [run_snoc]; exact inv_step e n _ ih a

theorem entered_step (e : Bool) (n : Nat) (s : St) (a : Ev) : s.entered ≤ (step e n s a).entered := by
  obtain ⟨net, ctl, owner, ent⟩ := s
  cases a with
  | net => cases net with
    | want => simp only [step]; split <;> simp
    | copying k => cases k with
      | zero => simp only [step]; split <;> simp
      | succ k => simp [step]
    | wrote => simp only [step]; split <;> simp
    | sleep => simp [step]
    | writing => simp [step]
  | ctl => cases ctl with
    | outside => simp [step]
    | waiting => simp only [step]; split <;> simp
    | inside => simp [step]
  | wake => simp only [step]; split <;> simp
  | done => simp only [step]; split <;> simp

theorem entered_run (e : Bool) (n : Nat) (l : List Ev) : ∀ s : St, s.entered ≤ (run e n s l).entered := by
  induction l with
  | nil => intro s; exact Nat.le_refl _
  | cons a l ih => intro s; exact Nat.le_trans (entered_step e n s a) (ih _)

/-- The steps of the thread of the socket until it is asleep or in `write`. -/
def left (n : Nat) : Net → Nat
  | .want => n + 2
  | .copying k => k + 1
  | .wrote => 1
  | .sleep => 0
  | .writing => 0

/-- With the mutex unlocked before `write`, the control loop gets the lock after at most `n + 2` steps of the thread of the socket, though the network takes
nothing (there is no event `done`) and however the steps are interleaved. -/
theorem early_bounded (n : Nat) (l m : List Ev) (hw : (run true n new l).ctl = .waiting) (hm : ∀ a ∈ m, a = .net ∨ a = .ctl) (hc : n + 2 ≤ m.count .net) :
    (run true n new l).entered < (run true n new (l ++ m ++ [.ctl])).entered := by
  have key : ∀ (m : List Ev) (s : St), Inv true n s → s.ctl = .waiting → (∀ a ∈ m, a = .net ∨ a = .ctl) → left n s.net ≤ m.count .net →
      s.entered < (run true n s (m ++ [.ctl])).entered := by
    intro m
    induction m with
    | nil =>
      intro s hi hw _ hl
      have ho : s.owner = none := by
        cases ho : s.owner with
        | none => rfl
        | some w =>
          cases w with
          | ctl => have := hi.ctl.1 ho; rw [hw] at this; simp at this
          | net =>
            rcases hi.net.1 ho with ⟨k, hk⟩ | ⟨h, _⟩
            · rw [hk] at hl; simp [left] at hl
            · simp at h
      simp [run, step, hw, ho]
    | cons a m ih =>
      intro s hi hw hm hl
      have hm' : ∀ a ∈ m, a = .net ∨ a = .ctl := fun x hx => hm x (List.mem_cons_of_mem _ hx)
      show s.entered < (run true n (step true n s a) (m ++ [.ctl])).entered
      rcases hm a (by simp) with rfl | rfl
      · have hi' := inv_step true n s hi .net
        rw [List.count_cons_self] at hl
        obtain ⟨net, ctl, owner, ent⟩ := s
        simp only at hw hl
        subst hw
        have hnc : owner ≠ some .ctl := fun h => by have := hi.ctl.1 h; simp at this
        cases net with
        | want =>
          have ho : owner = none := by
            cases owner with
            | none => rfl
            | some w => cases w with
              | ctl => exact absurd rfl hnc
              | net => have := hi.net.1 rfl; simp at this
          subst ho
          exact ih _ hi' rfl hm' (by simp only [left, step, if_true] at hl ⊢; omega)
        | copying k => cases k with
          | zero => exact ih _ hi' rfl hm' (by simp [left, step])
          | succ k => exact ih _ hi' rfl hm' (by simp only [left, step] at hl ⊢; omega)
        | wrote => exact ih _ hi' rfl hm' (by simp [left, step])
        | sleep => exact ih _ hi' rfl hm' (by simp [left, step])
        | writing => exact ih _ hi' rfl hm' (by simp [left, step])
      · by_cases ho : s.owner = none
        · have : (step true n s .ctl).entered = s.entered + 1 := by simp [step, hw, ho]
          have h2 := entered_run true n (m ++ [.ctl]) (step true n s .ctl)
          omega
        · have hs : step true n s .ctl = s := by simp [step, hw, ho]
          rw [hs]
          rw [List.count_cons_of_ne (by simp)] at hl
          exact ih s hi hw hm' hl
  rw [List.append_assoc, run_append]
  refine key m _ (inv_run true n l) hw hm (Nat.le_trans ?_ hc)
  have := (inv_run true n l).len
  generalize (run true n new l).net = x at *
  cases x with
  | copying k => have := this k rfl; simp only [left]; omega
  | _ => simp [left]

/-- Nobody is in `write` with the lock. -/
theorem early_free (n : Nat) (l : List Ev) (h : (run true n new l).net = .writing) : (run true n new l).owner ≠ some .net := by
  intro ho
  rcases (inv_run true n l).net.1 ho with ⟨k, hk⟩ | ⟨h, _⟩
  · rw [hk] at h; simp at h
  · simp at h

/-- Violated by the client without receiving: once the control loop waits while the thread is in `write`, it waits as long as the network takes nothing. -/
theorem late_violated (n : Nat) : ∃ l, (run false n new l).ctl = .waiting ∧ (run false n new l).net = .writing ∧
    ∀ m : List Ev, .done ∉ m → (run false n new (l ++ m)).ctl = .waiting ∧ (run false n new (l ++ m)).entered = 0 := by
  have hcopy : ∀ k s, s.net = .copying k → run false n s (List.replicate (k + 1) .net) = { s with net := .writing } := by
    intro k
    induction k with
    | zero => intro s h; simp [run, step, h]
    | succ k ih =>
      intro s h
      rw [List.replicate_succ]
      show run false n (step false n s .net) _ = _
      rw [show step false n s .net = { s with net := .copying k } by simp [step, h], ih _ rfl]
  have hl : run false n new ([.wake, .net] ++ List.replicate (n + 1) .net ++ [.ctl]) = ⟨.writing, .waiting, some .net, 0⟩ := by
    rw [run_append, run_append]
    have h1 : run false n new [.wake, .net] = ⟨.copying n, .outside, some .net, 0⟩ := by simp [run, step, new]
    rw [h1, hcopy n _ rfl]
    simp [run, step]
  refine ⟨_, by rw [hl], by rw [hl], ?_⟩
  intro m hm
  rw [run_append, hl]
  have : run false n ⟨.writing, .waiting, some .net, 0⟩ m = ⟨.writing, .waiting, some .net, 0⟩ := by
    induction m with
    | nil => rfl
    | cons a m ih =>
      simp only [List.mem_cons, not_or] at hm
      show run false n (step false n _ a) m = _
      have hs : step false n ⟨.writing, .waiting, some .net, 0⟩ a = ⟨.writing, .waiting, some .net, 0⟩ := by
        cases a with
        | done => exact absurd rfl hm.1
        | net => rfl
        | ctl => rfl
        | wake => rfl
      rw [hs]
      exact ih hm.2
  rw [this]
  exact ⟨rfl, rfl⟩

/-- Case of `early_bounded`: a buffer of two values, the control loop waits while the thread is copying, the network never takes anything. -/
example : (run true 2 new [.wake, .net, .ctl]).ctl = .waiting ∧ (run true 2 new [.wake, .net, .ctl]).entered = 0 ∧
    (run true 2 new ([.wake, .net, .ctl] ++ [.net, .ctl, .net, .ctl, .net, .net] ++ [.ctl])).entered = 1 := by decide

/-- Case of `early_free`. -/
example : (run true 1 new [.wake, .net, .net, .net]).net = .writing := by decide

end Verif.Sockets.SendLock
