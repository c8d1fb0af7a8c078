import Verif.Core.RingBuffer
namespace Verif.Core.RingBuffer
variable {T : Type}

/-- The queue represented by the state. -/
def Repr (N : Nat) (s : St T) (q : List T) : Prop :=
  s.len = q.length ∧ s.len ≤ N ∧ s.tail < N ∧
  ∀ i, i < q.length → s.items ((s.tail + i) % N) = q[i]?

theorem mod_inj {N a i j : Nat} (hi : i < N) (hj : j < N) (h : (a + i) % N = (a + j) % N) : i = j := by
  have h1 : a + i = N * ((a+i)/N) + (a+i)%N := (Nat.div_add_mod _ _).symm
  have h2 : a + j = N * ((a+j)/N) + (a+j)%N := (Nat.div_add_mod _ _).symm
  rw [h] at h1
  rcases Nat.lt_trichotomy ((a+i)/N) ((a+j)/N) with hlt | heq | hgt
  · have : N * ((a+i)/N) + N ≤ N * ((a+j)/N) := by
      have := Nat.mul_le_mul_left N (Nat.succ_le_of_lt hlt); rw [Nat.mul_succ] at this; exact this
    omega
  · rw [heq] at h1; omega
  · have : N * ((a+j)/N) + N ≤ N * ((a+i)/N) := by
      have := Nat.mul_le_mul_left N (Nat.succ_le_of_lt hgt); rw [Nat.mul_succ] at this; exact this
    omega

theorem step_refines (N : Nat) (hN : 1 ≤ N) (s : St T) (q : List T) (h : Repr N s q) (op : Op T) :
    (step N s op).2 = (specStep N q op).2 ∧ Repr N (step N s op).1 (specStep N q op).1 := by
  obtain ⟨h1, h2, h3, h4⟩ := h
  cases op with
  | push v =>
    simp only [step, specStep]
    by_cases hf : s.len = N
    · have : ¬ q.length < N := by omega
      simp [hf, this]
      exact ⟨h1, h2, h3, h4⟩
    · have : q.length < N := by omega
      simp only [hf, this, if_true, if_false, true_and]
      refine ⟨by simp [h1], by simp; omega, h3, ?_⟩
      intro i hi
      simp at hi
      simp only
      by_cases hq : i < q.length
      · rw [if_neg, h4 i hq, List.getElem?_append_left hq]
        intro hc
        have := mod_inj (by omega) (by omega) hc
        omega
      · have : i = q.length := by omega
        subst this
        simp [h1]
  | pop =>
    cases q with
    | nil => simp at h1; simp [step, specStep, h1]; exact ⟨h1, h2, h3, h4⟩
    | cons v q =>
      have h0 := h4 0 (by simp)
      simp only [Nat.add_zero, Nat.mod_eq_of_lt h3, List.getElem?_cons_zero] at h0
      simp only [List.length_cons] at h1
      have hne : ¬ s.len = 0 := by omega
      simp only [step, specStep, hne, if_false, h0, true_and]
      refine ⟨by simp; omega, by simp; omega, Nat.mod_lt _ (by omega), ?_⟩
      intro i hi
      have := h4 (i+1) (by simp; omega)
      simp only [List.getElem?_cons_succ] at this
      rw [← this]
      show s.items (((s.tail + 1) % N + i) % N) = _
      rw [Nat.mod_add_mod, show s.tail + 1 + i = s.tail + (i + 1) by omega]
  | length => simp only [step, specStep]; exact ⟨by rw [h1], h1, h2, h3, h4⟩

/-- **C15.** For every capacity and every history the ring buffer returns exactly the results of a bounded FIFO queue
(in particular no uninitialised element is ever read). -/
theorem ring_is_fifo (N : Nat) (hN : 1 ≤ N) (ops : List (Op T)) :
    exec N init ops = specExec N [] ops := by
  suffices H : ∀ (s : St T) (q : List T), Repr N s q → exec N s ops = specExec N q ops from
    H init [] ⟨rfl, by simp [init], by simp [init]; omega, by simp⟩
  induction ops with
  | nil => intros; rfl
  | cons op ops ih =>
    intro s q h
    obtain ⟨a, b⟩ := step_refines N hN s q h op
    simp only [exec, specExec, a, ih _ _ b]

/-! Consequences on the level of the queue specification, so that its meaning need not be trusted. -/

/-- The values successfully pushed in a history, given its results. -/
def pushedVals : List (Op T) → List (Res T) → List T
  | .push v :: ops, .pushed true :: rs => v :: pushedVals ops rs
  | _ :: ops, _ :: rs => pushedVals ops rs
  | _, _ => []

/-- The values popped in a history, given its results. -/
def poppedVals : List (Res T) → List T
  | .popped v :: rs => v :: poppedVals rs
  | _ :: rs => poppedVals rs
  | [] => []

/-- **C15, FIFO order.** The popped values are a prefix of the pushed values, in the same order: what is still buffered is the rest. -/
theorem popped_prefix_of_pushed (N : Nat) (hN : 1 ≤ N) (ops : List (Op T)) :
    ∃ rest, pushedVals ops (exec N init ops) = poppedVals (exec N init ops) ++ rest ∧
      rest.length ≤ N := by
  rw [ring_is_fifo N hN]
  suffices H : ∀ (q : List T), q.length ≤ N → ∃ rest,
      q ++ pushedVals ops (specExec N q ops) = poppedVals (specExec N q ops) ++ rest ∧ rest.length ≤ N by
    simpa using H [] (by simp)
  induction ops with
  | nil => intro q hq; exact ⟨q, by simp [specExec, pushedVals, poppedVals], hq⟩
  | cons op ops ih =>
    intro q hq
    cases op with
    | push v =>
      simp only [specExec, specStep]
      split
      · obtain ⟨rest, h, hl⟩ := ih (q ++ [v]) (by simp; omega)
        exact ⟨rest, by simpa [pushedVals, poppedVals] using h, hl⟩
      · obtain ⟨rest, h, hl⟩ := ih q hq
        exact ⟨rest, by simpa [pushedVals, poppedVals] using h, hl⟩
    | pop =>
      cases q with
      | nil =>
        obtain ⟨rest, h, hl⟩ := ih [] (by simp)
        exact ⟨rest, by simpa [specExec, specStep, pushedVals, poppedVals] using h, hl⟩
      | cons v q =>
        obtain ⟨rest, h, hl⟩ := ih q (by simp at hq; omega)
        exact ⟨rest, by simpa [specExec, specStep, pushedVals, poppedVals] using h, hl⟩
    | length =>
      obtain ⟨rest, h, hl⟩ := ih q hq
      exact ⟨rest, by simpa [specExec, specStep, pushedVals, poppedVals] using h, hl⟩

/-- Non-vacuity: a capacity 2 buffer that wraps around. -/
example : exec 2 (init : St Nat) [.push 1, .push 2, .push 3, .pop, .push 4, .pop, .pop, .pop, .length] =
    [.pushed true, .pushed true, .pushed false, .popped 1, .pushed true, .popped 2, .popped 4, .empty, .length 0] := by
  decide

end Verif.Core.RingBuffer
