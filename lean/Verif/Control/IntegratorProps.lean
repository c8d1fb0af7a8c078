import Verif.Control.Integrator
import Mathlib.Data.Rat.Cast.Order
import Mathlib.Tactic.Linarith
import Mathlib.Tactic.NormNum
import Mathlib.Tactic.Ring
namespace Verif.Control.Integrator
variable {K : Type} [Field K] [LinearOrder K] [IsStrictOrderedRing K]

/-- Specification: the rectangle sum of samples `(value, time stamp)` after time `t0`. -/
def area : Nat → List (K × Nat) → K
  | _, [] => 0
  | t0, (v, t) :: l => v * (((t : K) - t0) / 1000000000) + area t l

/-- All partial sums stay strictly inside the limits. -/
def Inside (lower upper : K) : K → Nat → List (K × Nat) → Prop
  | _, _, [] => True
  | c, t0, (v, t) :: l =>
    lower < c + v * (((t : K) - t0) / 1000000000) ∧ c + v * (((t : K) - t0) / 1000000000) < upper ∧
      Inside lower upper (c + v * (((t : K) - t0) / 1000000000)) t l

/-- **C26, exact integration.** While an enabled integrator with value `c` at time `t0` stays strictly inside its limits, its output is
`c` plus the sum of input times elapsed time, for every input sequence. -/
theorem integrates_exactly (s : St K) (hl : s.hasLevel = false) (he : s.enabled = true) (hf : s.first = false)
    (c : K) (hc : s.prev = some c) (samples : List (K × Nat)) (hne : samples ≠ [])
    (hin : Inside s.lower s.upper c s.prevTs samples) :
    (exec s (samples.map (fun p => Op.run (some p.1) p.2 false))).out = some (c + area s.prevTs samples) := by
  induction samples generalizing s c with
  | nil => exact absurd rfl hne
  | cons p l ih =>
    obtain ⟨v, t⟩ := p
    obtain ⟨h1, h2, h3⟩ := hin
    set c' := c + v * (((t : K) - s.prevTs) / 1000000000) with hc'
    have hsec : (seconds s.prevTs t : K) = ((t : K) - s.prevTs) / 1000000000 := by unfold seconds; ring
    have hrun : run s (some v) t false = { s with out := some c', prev := some c', prevTs := t } := by
      have hn : next s (some c) (some v) (((t : K) - s.prevTs) / 1000000000) = some c' := by
        simp only [next]
        rw [if_pos ⟨h2, h1⟩]
      simp [run, hl, he, hf, hc, hsec, hn]
    change (exec (run s (some v) t false) (l.map _)).out = _
    rw [hrun]
    by_cases hl0 : l = []
    · subst hl0; simp [exec, area, hc']
    · rw [ih { s with out := some c', prev := some c', prevTs := t } hl he hf c' rfl hl0 h3]
      simp only [area, hc']; rw [add_assoc]


/-- From 1/2 with the inputs 2 for a second and -1 for two seconds. -/
example : (exec { (new (1000 : ℚ)) with prev := some (1/2), first := false, upper := 3, lower := -3, enabled := true }
    ([(2, 1000000000), (-1, 3000000000)].map (fun p => Op.run (some p.1) p.2 false))).out = some (1/2) := by
  rw [integrates_exactly _ (by rfl) (by rfl) (by rfl) (1/2) (by rfl) _ (by simp) (by norm_num [Inside, new])]
  norm_num [area, new]

/-- In its very first run an enabled integrator with an initial condition strictly inside the limits outputs exactly this value, whatever
the input. -/
theorem first_run (s : St K) (hf : s.first = true) (c : K) (hc : s.prev = some c) (v : Option K) (t : Nat) (lr : Bool) :
    (run s v t lr).out = some c := by
  have hn : next s (some c) v 0 = some c := by
    unfold next
    cases v with
    | none => rfl
    | some x => simp
  simp only [run, hf, if_true, hc, hn, ite_self]


example : (run { (new (1000 : ℚ)) with prev := some (1/2) } (some 7) 3 true).out = some (1/2) := first_run _ rfl _ rfl _ _ _

/-- **C26, disabled.** A disabled integrator keeps its value, whatever the input. -/
theorem disabled_keeps (s : St K) (he : (if s.hasLevel then lr else s.enabled) = false) (v : Option K) (t : Nat) :
    (run s v t lr).out = s.prev ∧ (run s v t lr).prev = s.prev := by
  simp [run, he]

/-- **C26, hold.** If the new value would not be strictly inside the limits the output keeps its previous value.  The documentation says
that it stays at the limit: see `limit_not_reached`. -/
theorem outside_holds (s : St K) (hf : s.first = false) (c x : K) (hc : s.prev = some c) (t : Nat) (lr : Bool)
    (hout : c + x * seconds s.prevTs t ≤ s.lower ∨ s.upper ≤ c + x * seconds s.prevTs t) :
    (run s (some x) t lr).out = some c := by
  have hn : next s (some c) (some x) (seconds s.prevTs t) = some c := by
    simp only [next]
    rw [if_neg]
    rintro ⟨h1, h2⟩
    rcases hout with h | h <;> linarith
  simp only [run, hf, hc, Bool.false_eq_true, if_false, hn, ite_self]


/-- From 2 with the input 2 for a second: the upper limit 3 would be exceeded. -/
example : (run { (new (1000 : ℚ)) with prev := some 2, first := false, upper := 3, lower := -3, enabled := true } (some 2) 1000000000 false).out = some 2 :=
  outside_holds _ rfl 2 2 rfl _ _ (.inr (by norm_num [seconds, new]))

/-- Calls that respect the limits: limits are ordered and initial conditions lie within the current limits. -/
def Sane : St K → List (Op K) → Prop
  | _, [] => True
  | s, op :: ops => (match op with
      | .setInit v => s.lower ≤ v ∧ v ≤ s.upper
      | .setLimit u l => l ≤ u
      | _ => True) ∧ Sane (step s op) ops

def InLimits (s : St K) : Prop := ∀ v, s.prev = some v → s.lower ≤ v ∧ v ≤ s.upper

theorem step_inLimits (s : St K) (op : Op K) (ops : List (Op K)) (h : InLimits s) (hs : Sane s (op :: ops)) :
    InLimits (step s op) := by
  obtain ⟨hs, -⟩ := hs
  intro v hv
  cases op with
  | enable => exact h v hv
  | disable => exact h v hv
  | setActiveLevel => exact h v hv
  | setInit w =>
    simp only [step, Option.some.injEq] at hv
    subst hv; exact hs
  | setLimit u l =>
    simp only [step, setLimit] at hv ⊢
    cases hp : s.prev with
    | none => simp [hp] at hv
    | some w =>
      simp only [hp] at hv ⊢
      by_cases h1 : u < w
      · have h2 : ¬ w < l := not_lt.2 (le_trans hs h1.le)
        simp [h1, h2] at hv ⊢
        subst hv; exact ⟨hs, le_refl _⟩
      · by_cases h2 : w < l
        · simp [h1, h2] at hv ⊢
          subst hv; exact ⟨le_refl _, hs⟩
        · simp only [h1, h2, if_false] at hv ⊢
          simp only [hp, Option.some.injEq] at hv
          subst hv; exact ⟨not_lt.1 h2, not_lt.1 h1⟩
  | run x t lr =>
    have hn : ∀ w dt, next s s.prev x dt = some w → s.lower ≤ w ∧ w ≤ s.upper := by
      intro w dt hw
      unfold next at hw
      split at hw
      · rename_i hp
        dsimp only at hw
        split at hw
        · rename_i hcond
          simp only [Option.some.injEq] at hw
          subst hw; exact ⟨hcond.2.le, hcond.1.le⟩
        · simp only [Option.some.injEq] at hw
          subst hw; exact h _ hp
      · exact h _ hw
    simp only [step, run] at hv ⊢
    generalize (if s.hasLevel = true then lr else s.enabled) = e at hv
    cases e with
    | true => exact hn _ _ hv
    | false => exact h v hv

/-- **C26, limits.** For every history of runs, enabling, disabling, limit changes and initial conditions (limits ordered, initial
conditions within the limits) and every input including NaN and infinity, the value the next run starts from is NaN or within the current
limits. -/
theorem stays_in_limits (M : K) (ops : List (Op K)) (hs : Sane (new M) ops) : InLimits (exec (new M) ops) := by
  suffices H : ∀ (ops : List (Op K)) (s : St K), InLimits s → Sane s ops → InLimits (exec s ops) from
    H ops (new M) (by intro v hv; simp [new] at hv) hs
  intro ops
  induction ops with
  | nil => intro s h _; exact h
  | cons op ops ih => intro s h hs; exact ih _ (step_inLimits s op ops h hs) hs.2

example : InLimits (exec (new (1000 : ℚ)) [.setLimit 3 (-3), .setInit (1/2), .enable, .run (some 7) 0 true, .run (some 7) 1000000000 true]) :=
  stays_in_limits _ _ (by norm_num [Sane, step, setLimit, new])

/-- The output after a run is the value the next run starts from. -/
theorem out_is_prev (s : St K) (v : Option K) (t : Nat) (lr : Bool) : (run s v t lr).out = (run s v t lr).prev := rfl

/-- Consequence for the output of a run at the end of any such history. -/
theorem output_in_limits (M : K) (ops : List (Op K)) (x : Option K) (t : Nat) (lr : Bool)
    (hs : Sane (new M) (ops ++ [.run x t lr])) (v : K)
    (hv : (exec (new M) (ops ++ [.run x t lr])).out = some v) :
    (exec (new M) (ops ++ [.run x t lr])).lower ≤ v ∧ v ≤ (exec (new M) (ops ++ [.run x t lr])).upper := by
  have h := stays_in_limits M _ hs
  apply h v
  simp only [exec, List.foldl_append, List.foldl_cons, List.foldl_nil, step] at hv ⊢
  rw [← out_is_prev]; exact hv

/-- An integrator without initial condition outputs NaN for ever. -/
theorem nan_without_initial_condition (M : K) (ops : List (Op K)) (h : ∀ v, Op.setInit v ∉ ops) :
    (exec (new M) ops).prev = none ∧ (exec (new M) ops).out = none := by
  suffices H : ∀ (ops : List (Op K)) (s : St K), s.prev = none → s.out = none → (∀ v, Op.setInit v ∉ ops) →
      (exec s ops).prev = none ∧ (exec s ops).out = none from H ops _ rfl rfl h
  intro ops
  induction ops with
  | nil => intro s h1 h2 _; exact ⟨h1, h2⟩
  | cons op ops ih =>
    intro s h1 h2 hn
    have hn' : ∀ v, Op.setInit v ∉ ops := fun v hv => hn v (List.mem_cons_of_mem _ hv)
    cases op with
    | run x t lr =>
      refine ih _ ?_ ?_ hn' <;> simp [step, run, h1, next]
    | enable => exact ih _ h1 h2 hn'
    | disable => exact ih _ h1 h2 hn'
    | setInit v => exact absurd (by simp) (hn v)
    | setLimit u l =>
      refine ih _ ?_ ?_ hn' <;> simp [step, setLimit, h1, h2]
    | setActiveLevel => exact ih _ h1 h2 hn'


example : (exec (new (1000 : ℚ)) [.enable, .run (some 3) 5 true, .run (some 3) 10 true]).out = none :=
  (nan_without_initial_condition _ _ (by simp)).2

/-- The clause "with an input driving it beyond a limit the output stays at this limiting value" of C26 fails: limit 1, value 9/10, one
second at rate 3/10; the output stays at 9/10 for ever instead of reaching 1. -/
theorem limit_not_reached :
    (exec (new (1000 : ℚ)) [.setInit (9/10), .setLimit 1 (-1), .enable, .run (some (3/10)) 0 false,
      .run (some (3/10)) 1000000000 false, .run (some (3/10)) 2000000000 false]).out = some (9/10) := by
  norm_num [exec, step, new, setLimit, run, next, seconds]

/-- Initial conditions are not checked: an initial condition outside the limits is output. -/
theorem initial_condition_unchecked :
    (exec (new (1000 : ℚ)) [.setLimit 1 (-1), .setInit 5, .enable, .run (some 1) 0 false,
      .run (some 1) 1000000000 false]).out = some 5 := by
  norm_num [exec, step, new, setLimit, run, next, seconds]

/-- Non-vacuity: 2 for one second from 1/2 within limits ±3 gives 5/2. -/
example : (exec (new (1000 : ℚ)) [.setInit (1/2), .setLimit 3 (-3), .enable, .run (some 7) 0 false,
      .run (some 2) 1000000000 false]).out = some (5/2) := by
  norm_num [exec, step, new, setLimit, run, next, seconds]
example : Inside (-3 : ℚ) 3 (1/2) 0 [(2, 1000000000)] := by norm_num [Inside]
example : Sane (new (1000 : ℚ)) [.setLimit 3 (-3), .setInit (1/2), .run none 3 true] := by
  norm_num [Sane, step, setLimit, new]

end Verif.Control.Integrator
