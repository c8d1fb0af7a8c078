import Verif.Control.ControlInput
/-!
C136: a control input of the safety system reads the signal of the input it was made for.
-/
namespace Verif.Control.ControlInput

open Verif.Control.Inputs

/-- Connections are kept as long as nothing is disconnected. -/
theorem kept_step (w : World) (op : Op) (hd : ∀ j, op ≠ .disconnect j) (j : Nat) (t : Target) (h : w j = some t) : (step w op).1 j = some t := by
  cases op with
  | disconnect k => exact absurd rfl (hd k)
  | connect k u =>
    unfold step
    by_cases hk : w k ≠ none
    · simp [hk, h]
    · have hne : j ≠ k := by rintro rfl; exact hk (by simp [h])
      simp [hk, World.set, hne, h]
  | connectPtr k u =>
    unfold step
    by_cases hk : w k ≠ none
    · simp [hk, h]
    · have hne : j ≠ k := by rintro rfl; exact hk (by simp [h])
      simp [hk, World.set, hne, h]

theorem kept_exec (ops : List Op) : ∀ (w : World), (∀ j, Op.disconnect j ∉ ops) → ∀ (j : Nat) (t : Target), w j = some t → (exec w ops) j = some t := by
  induction ops with
  | nil => intro w _ j t h; exact h
  | cons op ops ih =>
    intro w hd j t h
    exact ih (step w op).1 (fun j hj => hd j (List.mem_cons_of_mem _ hj)) j t (kept_step w op (fun k hk => hd k (by simp [hk])) j t h)

theorem readF_exec (w : World) (ops : List Op) (hd : ∀ j, Op.disconnect j ∉ ops) (f : Nat) :
    ∀ i o, readF w f i = some (.signal o) → readF (exec w ops) f i = some (.signal o) := by
  induction f with
  | zero => intro i o h; simp [readF] at h
  | succ f ih =>
    intro i o h
    unfold readF at h ⊢
    cases hw : w i with
    | none => rw [hw] at h; simp at h
    | some t =>
      rw [kept_exec ops w hd i t hw]
      rw [hw] at h
      cases t with
      | out o' => exact h
      | sub j => exact ih j o h

/-- As long as no input is disconnected, `get` returns the value of the signal which the input reads, whatever is connected in the meantime and however the
values change. -/
theorem follows_partial {V : Type} (w : World) (i o : Nat) (h : Kept w i o) (ops : List Op) (hd : ∀ j, Op.disconnect j ∉ ops) (val : Nat → V) :
    ∃ o', Reads (exec w ops) i (.signal o') ∧ get val o = val o' := by
  obtain ⟨f, hf⟩ := h
  exact ⟨o, ⟨f, readF_exec w ops hd f i o hf⟩, rfl⟩

example : ∃ o', Reads (exec (exec World.init [.connect 0 (.sub 1), .connect 1 (.out 7)]) [.connect 2 (.out 8), .connect 1 (.out 9)]) 0 (.signal o') ∧
    get (fun o => o * o) 7 = o' * o' :=
  follows_partial _ 0 7 ⟨2, by decide⟩ _ (by simp) (fun o => o * o)

/-- An input can be used exactly if it is connected to the signal of an output: the constructor throws otherwise. -/
theorem kept_iff (w : World) (i o : Nat) : Kept w i o ↔ (w i = some (.out o) ∨ ∃ j, w i = some (.sub j) ∧ Kept w j o) := by
  obtain ⟨h1, h2, h3⟩ := read_spec w i
  unfold Kept
  cases hw : w i with
  | none => rw [h1 hw]; simp
  | some t =>
    cases t with
    | out a => rw [h2 a hw]; simp [eq_comm]
    | sub j => rw [h3 j hw]; simp

/-- Violated: the input is connected to another output; the safety system still reads the old one. -/
theorem reconnected_violated {V : Type} (w : World) (i a b : Nat) (h : w i = some (.out a)) (val : Nat → V) (hv : val a ≠ val b) :
    Kept w i a ∧ (∀ r, Reads (exec w [.disconnect i, .connect i (.out b)]) i r ↔ r = .signal b) ∧ get val a ≠ val b := by
  refine ⟨(kept_iff w i a).2 (Or.inl h), ?_, hv⟩
  refine (read_spec _ i).2.1 b ?_
  simp [exec, step, World.set]

/-- Violated: the input is no longer connected, reading it is a fault; the safety system gets the last value without a fault. -/
theorem disconnected_violated {V : Type} (w : World) (i a : Nat) (h : w i = some (.out a)) (val : Nat → V) :
    Kept w i a ∧ (∀ r, Reads (exec w [.disconnect i]) i r ↔ r = .notConnected) ∧ get val a = val a := by
  refine ⟨(kept_iff w i a).2 (Or.inl h), ?_, rfl⟩
  refine (read_spec _ i).1 ?_
  simp [exec, step, World.set]

/-- Case: an input of a sub block, connected through another one; later a third input is connected. -/
example : Kept (exec World.init [.connect 0 (.sub 1), .connect 1 (.out 7)]) 0 7 ∧
    Reads (exec (exec World.init [.connect 0 (.sub 1), .connect 1 (.out 7)]) [.connect 2 (.out 8), .connect 0 (.out 9)]) 0 (.signal 7) := by
  have h : Kept (exec World.init [.connect 0 (.sub 1), .connect 1 (.out 7)]) 0 7 := ⟨2, by decide⟩
  refine ⟨h, ?_⟩
  obtain ⟨f, hf⟩ := h
  exact ⟨f, readF_exec _ _ (by simp) f 0 7 hf⟩

/-- Case of the violations: input 0 is connected to output 7. -/
example : (exec World.init [.connect 0 (.out 7)]) 0 = some (.out 7) ∧ (fun o => o = 7 : Nat → Prop) 7 ≠ (fun o => o = 7 : Nat → Prop) 8 := by
  refine ⟨by decide, by simp⟩

end Verif.Control.ControlInput
