import Verif.Control.SignalChecker
import Mathlib.Data.Rat.Cast.Order
import Mathlib.Tactic.NormNum
namespace Verif.Control.SignalChecker
variable {K : Type} [LinearOrder K]

/-- The value is a number strictly between the limits. -/
def StrictlyInside (l u : K) (v : XVal K) : Prop := ∃ x, v = .fin x ∧ l < x ∧ x < u

theorem within_iff (s : St K) (v : XVal K) : within s v = true ↔ StrictlyInside s.lower s.upper v := by
  unfold within StrictlyInside
  cases v <;> simp [XVal.lt]

/-- A run at which the checker has to fire, apart from having fired before. -/
def Violation (s : St K) (v : XVal K) (reached : Bool) : Prop :=
  s.registered = true ∧ (s.hasLevel = true → reached = true) ∧
  (if s.offRange then StrictlyInside s.lower s.upper v else ¬ StrictlyInside s.lower s.upper v)

/-- **C32, one run.** The event is triggered iff the checker has not fired since the last reset, an event is registered, the level is
reached and the value is not strictly inside (normal mode; NaN and infinities are outside) or strictly inside (off-range mode). -/
theorem fires_iff (s : St K) (v : XVal K) (reached : Bool) :
    ((run s v reached).2 = true ↔ s.fired = false ∧ Violation s v reached) ∧
    (run s v reached).1 = { s with fired := s.fired || (run s v reached).2 } := by
  unfold Violation
  rw [← within_iff]
  have he : exceeded s v = !within s v := rfl
  unfold run
  rw [he]
  obtain ⟨l, u, f, r, h, o⟩ := s
  cases f <;> cases r <;> cases h <;> cases o <;> cases reached <;> (generalize within _ v = w; cases w) <;> simp

def resets : List (Op K) → Nat
  | [] => 0
  | .reset :: ops => resets ops + 1
  | _ :: ops => resets ops

def count (l : List Bool) : Nat := (l.filter (· = true)).length

/-- **C32, at most once per reset.** In every history the event is triggered at most once more often than the checker is reset. -/
theorem at_most_once_per_reset (s : St K) (ops : List (Op K)) :
    count (trace s ops) + s.fired.toNat ≤ 1 + resets ops := by
  induction ops generalizing s with
  | nil => simp [trace, count, resets]; exact Bool.toNat_le _
  | cons op ops ih =>
    have key := ih (step s op).1
    cases op with
    | run v r =>
      obtain ⟨h1, h2⟩ := fires_iff s v r
      simp only [trace, step, resets] at *
      have hf2 : (run s v r).1.fired = (s.fired || (run s v r).2) := by rw [h2]
      rw [hf2] at key
      cases hb : (run s v r).2 with
      | false =>
        rw [hb] at key
        simpa [count] using key
      | true =>
        have hf := (h1.1 hb).1
        rw [hb] at key
        simp [count, hf] at key ⊢
        omega
    | setLimits l u => simpa [trace, step, resets, count] using key
    | reset =>
      simp [trace, step, resets, count] at key ⊢
      have := Bool.toNat_le s.fired
      omega
    | register => simpa [trace, step, resets, count] using key
    | setActiveLevel => simpa [trace, step, resets, count] using key

/-- **C32, never without event.** Without a registered event nothing is ever triggered. -/
theorem never_unregistered (s : St K) (hs : s.registered = false) (ops : List (Op K)) (h : Op.register ∉ ops) :
    ∀ b ∈ trace s ops, b = false := by
  induction ops generalizing s with
  | nil => simp [trace]
  | cons op ops ih =>
    have h' : Op.register ∉ ops := fun hm => h (List.mem_cons_of_mem _ hm)
    intro b hb
    rw [trace, List.mem_cons] at hb
    cases op with
    | run v r =>
      obtain ⟨h1, h2⟩ := fires_iff s v r
      rcases hb with rfl | hb
      · by_contra hc
        have := (h1.1 (by simpa [step] using hc)).2.1
        simp [hs] at this
      · refine ih _ ?_ h' b hb
        simp only [step]; rw [h2]; exact hs
    | setLimits l u => rcases hb with rfl | hb; exacts [rfl, ih { s with lower := l, upper := u } hs h' b hb]
    | reset => rcases hb with rfl | hb; exacts [rfl, ih { s with fired := false } hs h' b hb]
    | register => exact absurd (by simp) h
    | setActiveLevel => rcases hb with rfl | hb; exacts [rfl, ih { s with hasLevel := true } hs h' b hb]


example : trace (new (0 : ℚ) 10 false) [.run (.fin 5) false, .run .nan false, .reset, .run (.fin 20) false] = [false, false, false, false] := by
  decide +kernel

/-- **C32, exactly at the first violation.** In a sequence of runs of a checker that has not fired, run `k` triggers the event iff it is
the first violating one. -/
theorem first_violation_fires (s : St K) (hs : s.fired = false) (ins : List (XVal K × Bool)) (k : Nat) (hk : k < ins.length) :
    (trace s (ins.map (fun p => Op.run p.1 p.2)))[k]? = some true ↔
      (Violation s ins[k].1 ins[k].2 ∧ ∀ j, (hj : j < k) → ¬ Violation s ins[j].1 ins[j].2) := by
  induction ins generalizing s k with
  | nil => simp at hk
  | cons p l ih =>
    obtain ⟨v, r⟩ := p
    obtain ⟨h1, h2⟩ := fires_iff s v r
    cases k with
    | zero =>
      simp [trace, step, h1, hs]
    | succ k =>
      have hk' : k < l.length := by simpa using hk
      simp only [List.map_cons, trace, List.getElem?_cons_succ, step]
      by_cases hv : Violation s v r
      · -- fired in the first run: never again
        have hb := h1.2 ⟨hs, hv⟩
        have hf : (run s v r).1.fired = true := by rw [h2, hb]; simp
        have hnever : ∀ (l : List (XVal K × Bool)) (s : St K), s.fired = true →
            ∀ k : Nat, (trace s (l.map (fun p => Op.run p.1 p.2)))[k]? ≠ some true := by
          intro l
          induction l with
          | nil => intro s _ k; simp [trace]
          | cons q l ih' =>
            intro s hs k
            obtain ⟨g1, g2⟩ := fires_iff s q.1 q.2
            have hno : (run s q.1 q.2).2 = false := by
              by_contra hc
              have := (g1.1 (by simpa using hc)).1
              simp [hs] at this
            cases k with
            | zero => simp [trace, step, hno]
            | succ k =>
              simp only [List.map_cons, trace, List.getElem?_cons_succ, step]
              refine ih' _ ?_ k
              rw [g2]; simp [hs]
        constructor
        · intro h; exact absurd h (hnever l _ hf k)
        · rintro ⟨-, h⟩; exact absurd hv (h 0 (by omega))
      · have hb : (run s v r).2 = false := by
          by_contra hc
          exact hv (h1.1 (by simpa using hc)).2
        have hsame : (run s v r).1 = s := by
          rw [h2, hb]; cases s; simp
        rw [hsame, ih s hs k hk']
        simp only [List.getElem_cons_succ]
        constructor
        · rintro ⟨a, b⟩
          refine ⟨a, ?_⟩
          intro j hj
          cases j with
          | zero => exact hv
          | succ j => exact b j (by omega)
        · rintro ⟨a, b⟩
          exact ⟨a, fun j hj => b (j+1) (by omega)⟩

/-- **C32, a new checker.** Until an event is registered a new checker triggers nothing.  Once an event is registered, and no level is
set, its first run triggers the event exactly if the value is not strictly inside (off-range: strictly inside), at every level. -/
theorem new_spec (l u : K) (off : Bool) :
    (∀ ops : List (Op K), Op.register ∉ ops → ∀ b ∈ trace (new l u off) ops, b = false) ∧
    ∀ (v : XVal K) (reached : Bool), trace (new l u off) [.register, .run v reached] = [false, true] ↔
      (if off then StrictlyInside l u v else ¬ StrictlyInside l u v) := by
  refine ⟨fun ops h => never_unregistered _ rfl ops h, fun v reached => ?_⟩
  have hf := (fires_iff (⟨l, u, false, true, false, off⟩ : St K) v reached).1
  have ht : trace (new l u off) [.register, .run v reached] =
      [false, (run (⟨l, u, false, true, false, off⟩ : St K) v reached).2] := rfl
  rw [ht]
  simp only [List.cons.injEq, true_and, and_true]
  rw [hf]
  simp [Violation]

/-- Registered, the level not reached (no level is set). -/
example : trace (new (0 : ℚ) 10 true) [.register, .run (.fin 5) false] = [false, true] :=
  ((new_spec 0 10 true).2 _ _).2 ⟨5, rfl, by norm_num, by norm_num⟩

/-- Non-vacuity: limits 0..10; NaN fires, the next violation does not until reset. -/
example : trace { (new (0 : ℚ) 10 false) with registered := true }
    [.run (.fin 5) false, .run .nan false, .run (.fin 20) false, .reset, .run (.fin 10) false] =
    [false, true, false, false, true] := by decide +kernel

end Verif.Control.SignalChecker
