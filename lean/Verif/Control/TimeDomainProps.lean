import Verif.Control.TimeDomain
namespace Verif.Control.TimeDomain

theorem loop_spec (out : Nat → Outcome) (i : Nat) (bs : List Block) :
    ((∀ j, j < bs.length → out (i + j) = .ok) ∧ loop out i bs = (bs, .ok)) ∨
    (∃ k, k < bs.length ∧ (∀ j, j < k → out (i + j) = .ok) ∧ out (i + k) ≠ .ok ∧
      loop out i bs = (bs.take (k+1), out (i + k))) := by
  induction bs generalizing i with
  | nil => left; simp [loop]
  | cons b bs ih =>
    by_cases h0 : out i = .ok
    · rcases ih (i+1) with ⟨h1, h2⟩ | ⟨k, hk, h1, h2, h3⟩
      · left
        refine ⟨?_, by simp [loop, h0, h2]⟩
        intro j hj
        cases j with
        | zero => exact h0
        | succ j =>
          have := h1 j (by simpa using hj)
          rwa [show i + 1 + j = i + (j+1) by omega] at this
      · right
        refine ⟨k+1, by simpa using hk, ?_, ?_, ?_⟩
        · intro j hj
          cases j with
          | zero => exact h0
          | succ j =>
            have := h1 j (by omega)
            rwa [show i + 1 + j = i + (j+1) by omega] at this
        · rwa [show i + (k+1) = i + 1 + k by omega]
        · simp only [loop, h0, h3, List.take_succ_cons]
          rw [show i + (k+1) = i + 1 + k by omega]
    · right
      refine ⟨0, by simp, by simp, by simpa using h0, ?_⟩
      simp [loop]

/-- **C22, stopped.** A stopped time domain runs no block and triggers nothing. -/
theorem stopped_runs_nothing (s : St) (out : Nat → Outcome) (h : s.running = false) :
    run s out = ⟨[], [], .returned⟩ := by simp [run, h]

example : run { blocks := [7, 8, 9], running := false } (fun _ => .ok) = ⟨[], [], .returned⟩ := stopped_runs_nothing _ _ rfl

/-- **C22, undisturbed cycle.** If no block raises an exception all blocks run once, in insertion order. -/
theorem all_blocks_in_order (s : St) (out : Nat → Outcome) (h : s.running = true)
    (hok : ∀ j, j < s.blocks.length → out j = .ok) : run s out = ⟨s.blocks, [], .returned⟩ := by
  rcases loop_spec out 0 s.blocks with ⟨-, h2⟩ | ⟨k, hk, -, h2, -⟩
  · simp [run, h, h2]
  · exact absurd (by simpa using hok k hk) h2

example : run { blocks := [7, 8, 9] } (fun i => if i = 3 then .nanOutput else .ok) = ⟨[7, 8, 9], [], .returned⟩ :=
  all_blocks_in_order _ _ rfl (by intro j hj; have : j < 3 := hj; simp; omega)

/-- **C22, fault.** If block number `k` is the first to raise an exception, exactly the blocks `0..k` were run.  For a not-connected or
NaN-output fault the registered event is triggered exactly once and the call returns, or a `Fault` is thrown if none is registered;
any other exception passes through and no event is triggered. -/
theorem first_fault (s : St) (out : Nat → Outcome) (h : s.running = true) (k : Nat)
    (hk : k < s.blocks.length) (hok : ∀ j, j < k → out j = .ok) (hf : out k ≠ .ok) :
    run s out = ⟨s.blocks.take (k+1),
      if out k = .other then [] else s.event.toList,
      if out k = .other then .other else if s.event = none then .fault else .returned⟩ := by
  rcases loop_spec out 0 s.blocks with ⟨h1, -⟩ | ⟨k', hk', h1, h2, h3⟩
  · exact absurd (by simpa using h1 k hk) hf
  · have : k' = k := by
      rcases Nat.lt_trichotomy k' k with hlt | he | hgt
      · exact absurd (hok k' hlt) (by simpa using h2)
      · exact he
      · exact absurd (by simpa using h1 k hgt) hf
    subst this
    simp only [Nat.zero_add] at h3
    simp only [run, h, h3]
    cases ho : out k' with
    | ok => exact absurd ho hf
    | notConnected => cases s.event <;> simp
    | nanOutput => cases s.event <;> simp
    | other => simp

/-- **C22, history.** The blocks run are determined by the add/remove history alone and `running` by the last start/stop; `run` changes neither. -/
theorem run_keeps_configuration (s : St) (out : Nat → Outcome) : (step s (.run out)).1 = s := rfl

/-- The block list a history of calls asks for: added blocks in order, without those removed later. -/
def wanted : List Op → List Block → List Block
  | [], l => l
  | .add b :: ops, l => wanted ops (l ++ [b])
  | .remove b :: ops, l => wanted ops (l.filter (· ≠ b))
  | _ :: ops, l => wanted ops l

def active : List Op → Bool → Bool
  | [], r => r
  | .start :: ops, _ => active ops true
  | .stop :: ops, _ => active ops false
  | _ :: ops, r => active ops r

theorem configuration_of_history (ops : List Op) :
    (exec {} ops).blocks = wanted ops [] ∧ (exec {} ops).running = active ops true := by
  suffices H : ∀ (ops : List Op) (s : St), (exec s ops).blocks = wanted ops s.blocks ∧
      (exec s ops).running = active ops s.running from H ops {}
  intro ops
  induction ops with
  | nil => intro s; exact ⟨rfl, rfl⟩
  | cons op ops ih => intro s; cases op <;> exact ih _

/-- Non-vacuity: three blocks, the second is not connected. -/
example : run { blocks := [7, 8, 9], event := some 3 } (fun i => if i = 1 then .notConnected else .ok) =
    ⟨[7, 8], [3], .returned⟩ := by decide
example : run { blocks := [7, 8, 9] } (fun i => if i = 1 then .nanOutput else .ok) = ⟨[7, 8], [], .fault⟩ := by decide
example : (exec {} [.add 1, .add 2, .add 1, .remove 1, .stop]).blocks = [2] := by decide

end Verif.Control.TimeDomain
