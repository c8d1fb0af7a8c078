import Verif.Control.PeripheralOutput
import Verif.Control.TimeDomainProps
namespace Verif.Control.PeripheralOutput
open TimeDomain (Outcome)
variable {K : Type}

/-- The value is an ordinary number. -/
def Finite (v : XVal K) : Prop := ∃ q, v = .fin q

/-- **C44** (one run) A connected block writes exactly one value: the input if it is a number, the
configured safe value if it is NaN or infinite.  In the second case, and only then, the NaN output fault
is raised.  An unconnected block writes nothing. -/
theorem run_writes (s : St K) (v : XVal K) :
    (run s (some v)).1.written = s.written ++ [(run s (some v)).1.val] ∧
    (Finite v → (run s (some v)).1.val = v ∧ (run s (some v)).2 = .ok) ∧
    (¬ Finite v → (run s (some v)).1.val = s.safe ∧ (run s (some v)).2 = .nanOutput) ∧
    run s none = (s, .notConnected) := by
  refine ⟨rfl, ?_, ?_, rfl⟩
  · rintro ⟨q, rfl⟩; exact ⟨rfl, rfl⟩
  · intro h
    cases v with
    | fin q => exact absurd ⟨q, rfl⟩ h
    | pinf => exact ⟨rfl, rfl⟩
    | ninf => exact ⟨rfl, rfl⟩
    | nan => exact ⟨rfl, rfl⟩

theorem runs_safe (s : St K) (is : List (Option (XVal K))) : (runs s is).safe = s.safe := by
  induction is generalizing s with
  | nil => rfl
  | cons i is ih => rw [runs, ih]; cases i <;> rfl

/-- **C44** (history) With a finite safe value, whatever the inputs are over any number of cycles, every
value ever written to the hardware is a finite number: an input of some cycle or the safe value. -/
theorem only_finite_written (s : St K) (hs : Finite s.safe) (h0 : s.written = [])
    (is : List (Option (XVal K))) (v : XVal K) (hv : v ∈ (runs s is).written) :
    Finite v ∧ (v = s.safe ∨ some v ∈ is) := by
  have key : ∀ (is : List (Option (XVal K))) (s : St K), Finite s.safe → ∀ v ∈ (runs s is).written,
      v ∈ s.written ∨ (Finite v ∧ (v = s.safe ∨ some v ∈ is)) := by
    intro is
    induction is with
    | nil => intro s _ v hv; exact Or.inl hv
    | cons i is ih =>
      intro s hs v hv
      have hsafe : (run s i).1.safe = s.safe := by cases i <;> rfl
      rcases ih (run s i).1 (by rw [hsafe]; exact hs) v hv with h | ⟨h1, h2⟩
      · cases i with
        | none => exact Or.inl h
        | some u =>
          rw [(run_writes s u).1, List.mem_append, List.mem_singleton] at h
          rcases h with h | h
          · exact Or.inl h
          · right
            by_cases hu : Finite u
            · rw [((run_writes s u).2.1 hu).1] at h
              exact ⟨h ▸ hu, Or.inr (by rw [h]; exact List.mem_cons_self ..)⟩
            · rw [((run_writes s u).2.2.1 hu).1] at h
              exact ⟨h ▸ hs, Or.inl h⟩
      · right
        refine ⟨h1, h2.imp (fun h => by rw [h, hsafe]) (fun h => List.mem_cons_of_mem _ h)⟩
  rcases key is s hs v hv with h | h
  · rw [h0] at h; simp at h
  · exact h

/-- **C44** (safety reaction) If in a running time domain with a registered safety event the blocks before
block `k` run without exception and block `k` is a peripheral output whose input is NaN or infinite, then
the cycle writes the safe value to that output and triggers the safety event exactly once. -/
theorem nan_triggers_safety_event (td : TimeDomain.St) (out : Nat → Outcome) (e : Nat)
    (hrun : td.running = true) (hev : td.event = some e) (k : Nat) (hk : k < td.blocks.length)
    (hok : ∀ j, j < k → out j = .ok) (s : St K) (v : XVal K) (hv : ¬ Finite v)
    (hout : out k = (run s (some v)).2) :
    (TimeDomain.run td out).events = [e] ∧ (TimeDomain.run td out).ending = .returned ∧
    (run s (some v)).1.written = s.written ++ [s.safe] := by
  have h := (run_writes s v).2.2.1 hv
  rw [h.2] at hout
  have hf := TimeDomain.first_fault td out hrun k hk hok (by rw [hout]; simp)
  rw [hf, hout, hev, (run_writes s v).1, h.1]
  simp

/-- **C44** (unregistered) Without a registered event the cycle ends with a fault, so the NaN never passes
unnoticed. -/
theorem nan_without_event_faults (td : TimeDomain.St) (out : Nat → Outcome)
    (hrun : td.running = true) (hev : td.event = none) (k : Nat) (hk : k < td.blocks.length)
    (hok : ∀ j, j < k → out j = .ok) (s : St K) (v : XVal K) (hv : ¬ Finite v)
    (hout : out k = (run s (some v)).2) : (TimeDomain.run td out).ending = .fault := by
  rw [((run_writes s v).2.2.1 hv).2] at hout
  rw [TimeDomain.first_fault td out hrun k hk hok (by rw [hout]; simp), hout, hev]
  simp


/-- The second of three blocks gets a value which is not finite, and no event is registered. -/
example : (TimeDomain.run ⟨true, [1, 2, 3], none⟩ (fun i => if i = 1 then (run (K := Int) ⟨.fin 1, .fin 0, []⟩ (some .nan)).2 else .ok)).ending = .fault :=
  nan_without_event_faults _ _ rfl rfl 1 (by decide) (by intro j hj; simp [show j ≠ 1 by omega]) ⟨.fin 1, .fin 0, []⟩ .nan (by simp [Finite]) rfl

/-- **C44** (several outputs in one time domain) With finite safe values every value any of them has
written stays finite over a cycle, even though the outputs after the faulty one are skipped. -/
theorem cycle_only_finite (bs : List (St K × Option (XVal K)))
    (hs : ∀ b ∈ bs, Finite b.1.safe ∧ ∀ v ∈ b.1.written, Finite v) :
    ∀ s ∈ cycle bs, ∀ v ∈ s.written, Finite v := by
  induction bs with
  | nil => intro s h; simp [cycle] at h
  | cons b bs ih =>
    obtain ⟨s0, i⟩ := b
    have hb := hs (s0, i) (List.mem_cons_self ..)
    have ih := ih (fun b h => hs b (List.mem_cons_of_mem _ h))
    have hhead : ∀ v ∈ (run s0 i).1.written, Finite v := by
      intro v hv
      cases i with
      | none => exact hb.2 v hv
      | some u =>
        rw [(run_writes s0 u).1, List.mem_append, List.mem_singleton] at hv
        rcases hv with hv | hv
        · exact hb.2 v hv
        · by_cases hu : Finite u
          · rw [((run_writes s0 u).2.1 hu).1] at hv; exact hv ▸ hu
          · rw [((run_writes s0 u).2.2.1 hu).1] at hv; exact hv ▸ hb.1
    intro s hmem
    simp only [cycle] at hmem
    split at hmem <;> rename_i h <;> rw [List.mem_cons] at hmem
    · rcases hmem with rfl | hmem
      · rw [h] at hhead; exact hhead
      · exact ih s hmem
    · rcases hmem with rfl | hmem
      · rw [h] at hhead; exact hhead
      · rw [List.mem_map] at hmem
        obtain ⟨b, hb', rfl⟩ := hmem
        exact (hs b (List.mem_cons_of_mem _ hb')).2

/-- Outside the claim (no safe value configured): the default safe value is NaN and is written. -/
theorem default_safe_writes_nan :
    (run (K := Int) ⟨.fin 0, .nan, []⟩ (some .pinf)).1.written = [.nan] := rfl

/-- Finding: a NaN at one output leaves the following outputs of the same time domain at their previous
value instead of their safe value. -/
theorem later_outputs_keep_value :
    (cycle (K := Int) [(⟨.fin 5, .fin 0, [.fin 5]⟩, some .nan), (⟨.fin 7, .fin 0, [.fin 7]⟩, some (.fin 3))]).map
      (·.written) = [[.fin 5, .fin 0], [.fin 7]] := rfl

/-- Non-vacuity of `only_finite_written`. -/
example : (runs (K := Int) ⟨.nan, .fin 0, []⟩ [some (.fin 3), some .nan, none, some .ninf]).written =
    [.fin 3, .fin 0, .fin 0] := rfl

/-- Non-vacuity of `nan_triggers_safety_event`: a domain with two blocks, the second is the output. -/
example : (TimeDomain.run ⟨true, [1, 2, 3], some 9⟩ (fun i => if i = 1 then
    (run (K := Int) ⟨.fin 1, .fin 0, []⟩ (some .nan)).2 else .ok)) = ⟨[1, 2], [9], .returned⟩ := by
  decide +kernel

end Verif.Control.PeripheralOutput
