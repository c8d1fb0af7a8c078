import Verif.Control.Subio
import Mathlib.Tactic.SplitIfs
/-!
Theorems about the ports of subsystems.
-/
namespace Verif.Control.Subio

/-- Specification: the output which was assigned last to the port `i` (history with the oldest call first). -/
def assigned (i : Nat) : List Op → Option Nat
  | [] => none
  | op :: ops => (assigned i ops).or (match op with
    | .setOut a j => if j = i then some a else none
    | _ => none)

theorem run_append (N self : Nat) (s : St) (a b : List Op) : run N self s (a ++ b) = run N self (run N self s a) b := by simp [run]

theorem step_length (N self : Nat) (s : St) (op : Op) : (step N self s op).1.out.length = s.out.length := by
  cases op with
  | getIn i => rfl
  | getOut i => rfl
  | setOut a i => simp only [step]; split_ifs <;> simp

theorem run_spec (N self : Nat) (ops : List Op) (s : St) :
    (run N self s ops).out.length = s.out.length ∧
    ∀ i, i < s.out.length → (run N self s ops).out.getD i none = (assigned i ops).or (s.out.getD i none) := by
  induction ops generalizing s with
  | nil => exact ⟨rfl, fun i _ => by simp [run, assigned]⟩
  | cons op ops ih =>
    obtain ⟨h1, h2⟩ := ih (step N self s op).1
    refine ⟨by rw [← step_length N self s op]; exact h1, fun i hi => ?_⟩
    have := h2 i (by rw [step_length]; exact hi)
    simp only [run, List.foldl_cons] at this ⊢
    rw [this]
    simp only [assigned]
    cases op with
    | getIn j => simp [step]
    | getOut j => simp [step]
    | setOut a j =>
      simp only [step]
      by_cases hj : j < s.out.length
      · simp only [hj, if_true]
        by_cases hji : j = i
        · subst hji
          cases assigned j ops <;> simp [hj]
        · cases assigned i ops <;> simp [hji]
      · have hji : j ≠ i := by omega
        cases assigned i ops <;> simp [hj, hji]

/-- For every history of calls: a port which does not exist is refused by `getIn` and `getOut`; `getIn` returns the input with this index; `getOut`
returns the output which was assigned last. -/
theorem ports_partial (N M self : Nat) (outputs : Nat → Output) (ops : List Op) (i : Nat) :
    let s := run N self (new M outputs) ops
    ((step N self s (.getIn i)).2 = if i < N then .input i else .fault) ∧
    (M ≤ i → (step N self s (.getOut i)).2 = .fault) ∧
    (∀ a, i < M → assigned i ops = some a → (step N self s (.getOut i)).2 = .output a) := by
  intro s
  obtain ⟨h1, h2⟩ := run_spec N self ops (new M outputs)
  have hl : s.out.length = M := by rw [show s.out.length = _ from h1]; simp [new]
  refine ⟨?_, ?_, ?_⟩
  · simp only [step]; split_ifs <;> first | rfl | omega
  · intro h; simp only [step, hl]; rw [if_pos h]
  · intro a hi ha
    have := h2 i (by simpa [new] using hi)
    rw [ha] at this
    simp only [step, hl]
    rw [if_neg (by omega), show s.out.getD i none = some a by rw [show s.out.getD i none = _ from this]; rfl]

/-- A subsystem with two inputs and two outputs, the second of which was assigned twice. -/
example : let s := run 2 7 (new 2 (fun _ => ⟨none, false⟩)) [.setOut 20 0, .setOut 21 1, .setOut 22 1]
    (step 2 7 s (.getOut 1)).2 = .output 22 ∧ (step 2 7 s (.getIn 2)).2 = .fault ∧ (step 2 7 s (.getOut 2)).2 = .fault ∧ (s.outputs 22).owner = some 7 := by
  decide

/-- An output which is assigned to a port belongs to the subsystem and its signal is cleared. -/
theorem assigned_owned (N self : Nat) (s : St) (a i : Nat) (hi : i < s.out.length) :
    (step N self s (.setOut a i)).1.outputs a = ⟨some self, true⟩ ∧ ∀ b, b ≠ a → (step N self s (.setOut a i)).1.outputs b = s.outputs b := by
  simp only [step, hi, if_true]
  exact ⟨trivial, fun b hb => if_neg hb⟩

example : 1 < (new 2 (fun _ => ⟨none, false⟩)).out.length := by decide

/-- Violation: `setOut` does not check the index: for every port which does not exist the call writes beyond the array instead of raising a fault. -/
theorem setOut_violated (N M self : Nat) (outputs : Nat → Output) (ops : List Op) (a i : Nat) (hi : M ≤ i) :
    (step N self (run N self (new M outputs) ops) (.setOut a i)).2 = .undefined := by
  obtain ⟨h1, -⟩ := run_spec N self ops (new M outputs)
  have hl : (run N self (new M outputs) ops).out.length = M := by rw [h1]; simp [new]
  simp only [step, hl]
  rw [if_neg (by omega)]

/-- Violation: an output which was never assigned is not reported as missing: an indeterminate pointer is used. -/
theorem unassigned_violated (N M self : Nat) (outputs : Nat → Output) (ops : List Op) (i : Nat) (hi : i < M) (ha : assigned i ops = none) :
    (step N self (run N self (new M outputs) ops) (.getOut i)).2 = .undefined := by
  obtain ⟨h1, h2⟩ := run_spec N self ops (new M outputs)
  have hl : (run N self (new M outputs) ops).out.length = M := by rw [h1]; simp [new]
  have := h2 i (by simpa [new] using hi)
  rw [ha] at this
  simp only [step, hl]
  rw [if_neg (by omega), this]
  simp [new, hi]

example : assigned 1 [.setOut 20 0, .getOut 0, .setOut 21 0] = none := by decide

end Verif.Control.Subio
