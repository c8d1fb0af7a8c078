import Verif.Control.IntegratorProps
import Verif.Control.SwitchProps
import Verif.Control.RosBlocksProps
import Verif.Safety.Props
/-!
Violations of C02, C26, C30 and C104 which hold for all values and histories (the models are in `Control/Integrator.lean`, `Control/Switch.lean`,
`Control/RosBlocks.lean` and `Safety/Model.lean`).
-/
namespace Verif.Control.Integrator
variable {K : Type} [Field K] [LinearOrder K] [IsStrictOrderedRing K]

/-- Specification: each sample, taken from the value `c`, would lead to or beyond one of the limits. -/
def Leaves (lower upper c : K) : Nat → List (K × Nat) → Prop
  | _, [] => True
  | t0, (x, t) :: r => (c + x * seconds t0 t ≤ lower ∨ upper ≤ c + x * seconds t0 t) ∧ Leaves lower upper c t r

omit [IsStrictOrderedRing K] in
/-- **C26 violated**, for every value, all limits and any number of samples: as long as every step would reach a limit or go beyond, the output stays where it is,
however far from the limit, and also outside of the limits (where an initial condition may be). -/
theorem stays_short_violated (s : St K) (hl : s.hasLevel = false) (he : s.enabled = true) (hf : s.first = false) (c : K) (hc : s.prev = some c)
    (samples : List (K × Nat)) (hne : samples ≠ []) (hs : Leaves s.lower s.upper c s.prevTs samples) :
    (exec s (samples.map fun p => Op.run (some p.1) p.2 false)).out = some c := by
  induction samples generalizing s with
  | nil => exact absurd rfl hne
  | cons p r ih =>
    obtain ⟨x, t⟩ := p
    obtain ⟨h1, h2⟩ := hs
    have hn : next s (some c) (some x) (seconds s.prevTs t) = some c := by
      simp only [next]
      rw [if_neg]
      rintro ⟨ha, hb⟩
      rcases h1 with h1 | h1
      · exact absurd hb (not_lt.2 h1)
      · exact absurd ha (not_lt.2 h1)
    have hr : run s (some x) t false = { s with first := false, out := some c, prev := some c, prevTs := t } := by
      simp [run, hl, he, hf, hc, hn]
    simp only [List.map_cons, exec, List.foldl_cons, step, hr]
    cases r with
    | nil => rfl
    | cons q r => exact ih { s with first := false, out := some c, prev := some c, prevTs := t } hl he rfl rfl (by simp) h2

/-- Limits ±1: from 1/10, 2 per second never gets to 1 with a period of one second; and 5 is outside and is kept. -/
example : Leaves (-1 : ℚ) 1 (1/10) 0 [(2, 1000000000), (2, 2000000000)] ∧ Leaves (-1 : ℚ) 1 5 0 [(-1, 1000000000)] := by
  norm_num [Leaves, seconds]

end Verif.Control.Integrator

namespace Verif.Control.Switch
variable {K : Type} [Field K] [LinearOrder K] [IsStrictOrderedRing K]

omit [IsStrictOrderedRing K] in
/-- **C30 violated**, for every state, all inputs and every target which does not exist: when the condition is met, the event is triggered and `triggered()` reports
a switch, while the selection stays. -/
theorem invalid_condition_violated (N : Nat) (s : St K) (ins : Nat → Option (XVal K)) (reached : Bool) (nxt : Nat) (h : Switches N s ins reached nxt) (hn : N ≤ nxt) :
    (run N s ins reached).st.cur = s.cur ∧ (run N s ins reached).st.switched = true ∧ (run N s ins reached).event = s.registered := by
  obtain ⟨h1, h2⟩ := (switches_iff N s ins reached).1 nxt h
  rw [h1, if_neg (not_lt.2 hn)]
  exact ⟨rfl, rfl, h2⟩

example : Switches 2 ⟨0, some ((0 : ℚ), 1, 7), true, false, true, false⟩ (fun i => some (.fin (i : ℚ))) false 7 :=
  ⟨by decide, rfl, rfl, by simp, 0, 1, .fin 0, rfl, by simp, 0, rfl, by norm_num, by norm_num⟩

omit [IsStrictOrderedRing K] in
/-- **C30 violated**, for every number of inputs and every initial position which does not exist: every run before a successful `switchToInput` is undefined. -/
theorem unchecked_position_violated (N i : Nat) (hi : N ≤ i) (ops : List (Op K)) (hno : ∀ op ∈ ops, ∀ j, op = .switchTo j → N ≤ j)
    (ins : Nat → Option (XVal K)) (reached : Bool) : (run N (exec N (new i) ops) ins reached).res = .ub := by
  have hr : ∀ (s : St K) ins reached, N ≤ s.cur → (run N s ins reached).st = s ∧ (run N s ins reached).res = .ub := by
    intro s ins reached hs
    unfold run
    rw [if_neg (by omega)]
    exact ⟨rfl, rfl⟩
  have hc : ∀ (ops : List (Op K)) (s : St K), N ≤ s.cur → (∀ op ∈ ops, ∀ j, op = .switchTo j → N ≤ j) → N ≤ (exec N s ops).cur := by
    intro ops
    induction ops with
    | nil => intro s hs _; exact hs
    | cons op ops ih =>
      intro s hs hno
      refine ih _ ?_ fun o ho => hno o (List.mem_cons_of_mem _ ho)
      cases op with
      | run a b => simp only [step]; rw [(hr s a b hs).1]; exact hs
      | switchTo j => simp only [step]; rw [(manual_switch N s j).2 (hno _ (by simp) j rfl)]; exact hs
      | _ => exact hs
  exact (hr _ ins reached (hc ops (new i) hi hno)).2

example : (run 2 (exec 2 (new 5 : St ℚ) [.arm, .switchTo 3, .run (fun _ => some (.fin 0)) false]) (fun _ => some (.fin 0)) false).res = .ub :=
  unchecked_position_violated 2 5 (by decide) _ (by simp) _ _

end Verif.Control.Switch

namespace Verif.Control.RosBlocks.Sub2

/-- **C104 violated**, in every state in which two messages wait for the mutex, whatever happened before: the block can publish the newer one and go back to the older
one. -/
theorem overtaken_violated (s : St) (i j : Nat) (hi : i ∈ s.waiting) (hj : j ∈ s.waiting) (hij : i < j) :
    (run s [.push j, .run]).out = some j ∧ (run s [.push j, .run, .push i, .run]).out = some i := by
  have h : i ∈ s.waiting.erase j := (List.mem_erase_of_ne (by omega)).2 hi
  constructor <;> simp [run, step, hj, h]

example : 0 ∈ (run init [.receive, .receive, .run]).waiting ∧ 1 ∈ (run init [.receive, .receive, .run]).waiting := by decide

end Verif.Control.RosBlocks.Sub2

namespace Verif.Safety
variable {V : Type}

/-- **C02 violated**, for all safety properties: if the current level `c` has a transition to itself, the request for a higher level `d` is forgotten once that event comes,
and the level entered is the one requested next, `f`, even if it is higher than `d`. -/
theorem higher_request_forgotten_violated [CppVal V] (p : Properties V) (s : Sys) (c d f : LevelRef) (hc : s.cur = some c) (hn : s.next = some c)
    (e1 e2 e3 : EventId) (h1 : Registered p c ⟨e1, false⟩ d) (h2 : Registered p c ⟨e2, false⟩ c) (h3 : Registered p c ⟨e3, false⟩ f)
    (hcd : (p.lvl c).id < (p.lvl d).id) :
    ∃ s' tr, exec p s [.trigger e1, .trigger e2, .trigger e3] = .ok (s', tr) ∧ s'.next = some f := by
  have d1 := dest_eq_some.2 h1
  have d2 := dest_eq_some.2 h2
  have d3 := dest_eq_some.2 h3
  have hne : d ≠ c := by rintro rfl; exact lt_irrefl _ hcd
  simp only at d1 d2 d3
  refine ⟨⟨some c, some f, fun r' => if r' = f then 0 else if r' = c then 0 else if r' = d then 0 else s.nofAct r'⟩,
    [.trig ⟨e1, false⟩, .trig ⟨e2, false⟩, .trig ⟨e3, false⟩], ?_, rfl⟩
  simp [exec, step, triggers, trigger, hc, hn, d1, d2, d3, hne, hcd, Sys.setAct, bind, Except.bind, Pure.pure, Except.pure]

/-- Level 2 with transitions to 3, to itself and to 5. -/
def forgetful : Properties Bool :=
  { lvl := fun r => if r = 2 then { id := 2, transitions := [(1, (3, .pub)), (2, (2, .pub)), (3, (5, .pub))] } else { id := (r : Int) } }

example : ∃ s' tr, exec forgetful ⟨some 2, some 2, fun _ => 0⟩ [.trigger 1, .trigger 2, .trigger 3] = .ok (s', tr) ∧ s'.next = some 5 :=
  higher_request_forgotten_violated forgetful _ 2 3 5 rfl rfl 1 2 3 ⟨_, rfl, .inl rfl⟩ ⟨_, rfl, .inl rfl⟩ ⟨_, rfl, .inl rfl⟩ (by decide)

end Verif.Safety
