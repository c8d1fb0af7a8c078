import Verif.Control.Switch
import Mathlib.Data.Rat.Cast.Order
import Mathlib.Tactic.NormNum
import Mathlib.Tactic.Linarith
namespace Verif.Control.Switch
variable {K : Type} [Field K] [LinearOrder K]

/-- The value is a number strictly inside the configured window. -/
def Inside (level delta : K) (v : XVal K) : Prop := ∃ x, v = .fin x ∧ level - delta < x ∧ x < level + delta

theorem inWindow_iff (l d : K) (v : XVal K) : inWindow l d v = true ↔ Inside l d v := by
  unfold inWindow Inside
  cases v <;> simp [XVal.lt, and_comm]

/-- The condition under which a run switches. -/
def Switches (N : Nat) (s : St K) (ins : Nat → Option (XVal K)) (reached : Bool) (nxt : Nat) : Prop :=
  s.cur < N ∧ s.armed = true ∧ s.switched = false ∧ (s.hasLevel = true → reached = true) ∧
  ∃ l d v, s.cond = some (l, d, nxt) ∧ ins s.cur = some v ∧ Inside l d v

theorem publish_spec (N : Nat) (ins : Nat → Option (XVal K)) (s : St K) (e : Bool) :
    (publish N ins s e).st = s ∧ (publish N ins s e).event = e ∧
    ∀ v, (publish N ins s e).res = .out v → ins s.cur = some v := by
  unfold publish
  split
  · cases h : ins s.cur with
    | none => simp
    | some v => simp
  · simp

theorem run_cases (N : Nat) (s : St K) (ins : Nat → Option (XVal K)) (reached : Bool) :
    (∃ s' e, run N s ins reached = publish N ins s' e) ∨ ∀ v, (run N s ins reached).res ≠ .out v := by
  unfold run
  split
  · split
    · right; simp
    · split
      · split
        · right; simp
        · split <;> exact Or.inl ⟨_, _, rfl⟩
      · exact Or.inl ⟨_, _, rfl⟩
  · right; simp

/-- **C30, output.** Whenever a run publishes a value it is the value of the input selected after the run. -/
theorem outputs_selected (N : Nat) (s : St K) (ins : Nat → Option (XVal K)) (reached : Bool) (v : XVal K)
    (h : (run N s ins reached).res = .out v) : ins (run N s ins reached).st.cur = some v := by
  rcases run_cases N s ins reached with ⟨s', e, h'⟩ | h'
  · rw [h'] at h ⊢
    rw [(publish_spec _ _ _ _).1]; exact (publish_spec _ _ _ _).2.2 v h
  · exact absurd h (h' v)


/-- The switch is at input 1. -/
example : (run 2 (new 1 : St ℚ) (fun i => some (.fin (i + 10 : ℚ))) false).res = .out (.fin 11) := by decide +kernel

/-- With the selected input connected and existing a run always publishes. -/
theorem always_publishes (N : Nat) (s : St K) (hc : s.cur < N) (ins : Nat → Option (XVal K)) (reached : Bool)
    (hall : ∀ i, i < N → ∃ v, ins i = some v) (hcond : s.armed = true → s.cond ≠ none) :
    ∃ v, (run N s ins reached).res = .out v := by
  obtain ⟨v, hv⟩ := hall s.cur hc
  have hp : ∀ (s' : St K) (e : Bool), s'.cur < N → ∃ v, (publish N ins s' e).res = .out v := by
    intro s' e hs'
    obtain ⟨w, hw⟩ := hall s'.cur hs'
    exact ⟨w, by simp [publish, hs', hw]⟩
  have hsw : ∀ i, ((switchTo N s i).1).cur < N := by
    intro i; unfold switchTo; split <;> assumption
  unfold run
  rw [if_pos hc, hv]
  dsimp only
  split
  · rename_i ha
    have harm : s.armed = true := by simp at ha; exact ha.1
    cases hcd : s.cond with
    | none => exact absurd hcd (hcond harm)
    | some c =>
      obtain ⟨l, d, nxt⟩ := c
      dsimp only
      split
      · exact hp _ _ (hsw nxt)
      · exact hp _ _ hc
  · exact hp _ _ hc


example : ∃ v, (run 2 (new 1 : St ℚ) (fun i => some (.fin (i + 10 : ℚ))) false).res = .out v :=
  always_publishes 2 _ (by decide) _ _ (fun i _ => ⟨_, rfl⟩) (by simp [new])

/-- **C30, automatic switching.** A run switches exactly under the condition `Switches`; then the configured input is selected (if it
exists), the switch is disarmed and reports triggered, and the registered event is triggered once.  In every other case nothing changes
and no event is triggered. -/
theorem switches_iff (N : Nat) (s : St K) (ins : Nat → Option (XVal K)) (reached : Bool) :
    (∀ nxt, Switches N s ins reached nxt →
      (run N s ins reached).st = { s with cur := (if nxt < N then nxt else s.cur), switched := true, armed := false } ∧
      (run N s ins reached).event = s.registered) ∧
    ((∀ nxt, ¬ Switches N s ins reached nxt) → (run N s ins reached).st = s ∧ (run N s ins reached).event = false) := by
  constructor
  · rintro nxt ⟨hc, ha, hs, hl, l, d, v, hcond, hv, hin⟩
    have hw := (inWindow_iff l d v).2 hin
    have hlev : (!s.hasLevel || (s.hasLevel && reached)) = true := by
      cases hh : s.hasLevel with
      | false => rfl
      | true => simp [hl hh]
    unfold run
    rw [if_pos hc, hv]
    simp only [ha, hs, Bool.not_false, Bool.and_true, if_true, hcond, hw, hlev]
    rw [(publish_spec _ _ _ _).1, (publish_spec _ _ _ _).2.1]
    refine ⟨?_, rfl⟩
    unfold switchTo; split <;> simp [hcond]
  · intro hn
    unfold run
    split
    · rename_i hc
      cases hv : ins s.cur with
      | none => simp
      | some v =>
        dsimp only
        split
        · rename_i ha
          simp only [Bool.and_eq_true, Bool.not_eq_true'] at ha
          cases hcond : s.cond with
          | none => simp
          | some c =>
            obtain ⟨l, d, nxt⟩ := c
            dsimp only
            split
            · rename_i hw
              exfalso
              simp only [Bool.and_eq_true, Bool.or_eq_true, Bool.not_eq_true'] at hw
              refine hn nxt ⟨hc, ha.1, ha.2, ?_, l, d, v, hcond, hv, (inWindow_iff l d v).1 hw.1⟩
              intro hh
              rcases hw.2 with h | h
              · simp [hh] at h
              · exact h.2
            · exact ⟨(publish_spec _ _ _ _).1, (publish_spec _ _ _ _).2.1⟩
        · exact ⟨(publish_spec _ _ _ _).1, (publish_spec _ _ _ _).2.1⟩
    · simp

def count (l : List Bool) : Nat := (l.filter (· = true)).length
def arms : List (Op K) → Nat
  | [] => 0
  | .arm :: ops => arms ops + 1
  | _ :: ops => arms ops

/-- **C30, once per arming.** In every history the event is triggered at most as often as the switch was armed (plus once if it is
already armed); unarmed it never switches automatically. -/
theorem once_per_arming (N : Nat) (s : St K) (ops : List (Op K)) :
    count (trace N s ops) ≤ arms ops + (s.armed && !s.switched).toNat := by
  induction ops generalizing s with
  | nil => simp [trace, count]
  | cons op ops ih =>
    have key := ih (step N s op).1
    cases op with
    | run ins r =>
      simp only [trace, step, arms] at key ⊢
      by_cases h : ∃ nxt, Switches N s ins r nxt
      · obtain ⟨nxt, h⟩ := h
        obtain ⟨h1, h2⟩ := (switches_iff N s ins r).1 nxt h
        rw [h1] at key ⊢
        rw [h2]
        simp only [count, h.2.1, h.2.2.1, List.filter_cons] at key ⊢
        split <;> simp at key ⊢ <;> omega
      · obtain ⟨h1, h2⟩ := (switches_iff N s ins r).2 (fun nxt hn => h ⟨nxt, hn⟩)
        rw [h1] at key ⊢
        rw [h2]
        simpa [count] using key
    | switchTo i =>
      simp only [trace, step, arms] at key ⊢
      have : ((switchTo N s i).1).armed = s.armed ∧ ((switchTo N s i).1).switched = s.switched := by
        unfold switchTo; split <;> exact ⟨rfl, rfl⟩
      rw [this.1, this.2] at key
      simpa [count] using key
    | setCondition l d i => simpa [trace, step, arms, count] using key
    | arm =>
      simp [trace, step, arms, count] at key ⊢
      omega
    | register => simpa [trace, step, arms, count] using key
    | setActiveLevel => simpa [trace, step, arms, count] using key

/-- **C30, manual switching.** -/
theorem manual_switch (N : Nat) (s : St K) (i : Nat) :
    (i < N → switchTo N s i = ({ s with cur := i }, true)) ∧ (N ≤ i → switchTo N s i = (s, false)) := by
  constructor
  · intro h; simp [switchTo, h]
  · intro h; simp [switchTo, Nat.not_lt.2 h]

/-- A switch constructed with an existing position always selects an existing input, after any history. -/
theorem selects_existing (N : Nat) (i : Nat) (hi : i < N) (ops : List (Op K)) : (exec N (new i) ops).cur < N := by
  suffices H : ∀ (ops : List (Op K)) (s : St K), s.cur < N → (exec N s ops).cur < N from H ops (new i) hi
  intro ops
  induction ops with
  | nil => intro s h; exact h
  | cons op ops ih =>
    intro s h
    refine ih _ ?_
    cases op with
    | run ins r =>
      simp only [step]
      by_cases hs : ∃ nxt, Switches N s ins r nxt
      · obtain ⟨nxt, hs⟩ := hs
        rw [((switches_iff N s ins r).1 nxt hs).1]
        dsimp only; split <;> assumption
      · rw [((switches_iff N s ins r).2 (fun nxt hn => hs ⟨nxt, hn⟩)).1]; exact h
    | switchTo j => simp only [step, switchTo]; split <;> assumption
    | setCondition l d j => exact h
    | arm => exact h
    | register => exact h
    | setActiveLevel => exact h


def isRegister : Op K → Bool
  | .register => true
  | _ => false
def isLevel : Op K → Bool
  | .setActiveLevel => true
  | _ => false
/-- The last condition set in a history. -/
def lastCond (c : Option (K × K × Nat)) : List (Op K) → Option (K × K × Nat)
  | [] => c
  | .setCondition l d i :: ops => lastCond (some (l, d, i)) ops
  | _ :: ops => lastCond c ops

/-- **C30, configuration.** After every history the event is registered, the safety level is asked for and the condition is the one
which was set last, exactly as configured; nothing else changes the configuration. -/
theorem configured (N : Nat) (ops : List (Op K)) (s : St K) :
    (exec N s ops).registered = (s.registered || ops.any isRegister) ∧ (exec N s ops).hasLevel = (s.hasLevel || ops.any isLevel) ∧
      (exec N s ops).cond = lastCond s.cond ops := by
  induction ops generalizing s with
  | nil => simp [exec, lastCond]
  | cons op ops ih =>
    have key := ih (step N s op).1
    change (exec N (step N s op).1 ops).registered = _ ∧ _ at key
    have he : exec N s (op :: ops) = exec N (step N s op).1 ops := rfl
    rw [he]
    have same : ∀ s' : St K, s'.registered = s.registered → s'.hasLevel = s.hasLevel → s'.cond = s.cond → (step N s op).1 = s' →
        isRegister op = false → isLevel op = false → lastCond s.cond (op :: ops) = lastCond s.cond ops →
        (exec N (step N s op).1 ops).registered = (s.registered || (op :: ops).any isRegister) ∧
        (exec N (step N s op).1 ops).hasLevel = (s.hasLevel || (op :: ops).any isLevel) ∧
        (exec N (step N s op).1 ops).cond = lastCond s.cond (op :: ops) := by
      intro s' h1 h2 h3 h4 h5 h6 h7
      rw [h7, key.1, key.2.1, key.2.2, h4, h1, h2, h3]
      simp [h5, h6]
    cases op with
    | run ins r =>
      refine same (step N s (.run ins r)).1 ?_ ?_ ?_ rfl rfl rfl rfl <;>
      · simp only [step]
        by_cases hs : ∃ nxt, Switches N s ins r nxt
        · obtain ⟨nxt, hs⟩ := hs
          rw [((switches_iff N s ins r).1 nxt hs).1]
        · rw [((switches_iff N s ins r).2 (fun nxt hn => hs ⟨nxt, hn⟩)).1]
    | switchTo j =>
      refine same (step N s (.switchTo j)).1 ?_ ?_ ?_ rfl rfl rfl rfl <;> simp only [step, switchTo] <;> split <;> rfl
    | setCondition l d j => simpa [step, lastCond, isRegister, isLevel] using key
    | arm => simpa [step, lastCond, isRegister, isLevel] using key
    | register => simpa [step, lastCond, isRegister, isLevel] using key
    | setActiveLevel => simpa [step, lastCond, isRegister, isLevel] using key

/-- An event and a level registered, the condition set twice. -/
example : let s := exec 2 (new 0 : St ℚ) [.register, .setCondition 1 2 0, .arm, .setActiveLevel, .setCondition 3 4 1]
    s.registered = true ∧ s.hasLevel = true ∧ s.cond = some (3, 4, 1) := by decide +kernel

/-- A switch with three inputs, told to go to input 2 and to an input which does not exist. -/
example : (exec 3 (new 0 : St ℚ) [.switchTo 2, .switchTo 7]).cur < 3 := selects_existing 3 0 (by decide) _

/-- The input selected last by hand. -/
def lastManual (N cur : Nat) : List (Op K) → Nat
  | [] => cur
  | .switchTo i :: ops => lastManual N (if i < N then i else cur) ops
  | _ :: ops => lastManual N cur ops

/-- **C30, a new switch.** Until it is armed a new switch never switches by itself and triggers nothing, whatever condition is set: the
selected input is the one chosen by hand last. -/
theorem new_unarmed (N i : Nat) (ops : List (Op K)) (h : arms ops = 0) :
    (exec N (new i) ops).cur = lastManual N i ops ∧ count (trace N (new i) ops) = 0 := by
  refine ⟨?_, ?_⟩
  · suffices H : ∀ (ops : List (Op K)) (s : St K), arms ops = 0 → s.armed = false → (exec N s ops).cur = lastManual N s.cur ops from
      H ops (new i) h rfl
    intro ops
    induction ops with
    | nil => intro s _ _; rfl
    | cons op ops ih =>
      intro s ha hs
      have he : exec N s (op :: ops) = exec N (step N s op).1 ops := rfl
      rw [he]
      cases op with
      | run ins r =>
        have hn : (step N s (.run ins r)).1 = s :=
          ((switches_iff N s ins r).2 (fun nxt hn => by have h2 := hn.2.1; rw [hs] at h2; exact absurd h2 (by simp))).1
        rw [hn]; exact ih s ha hs
      | switchTo j =>
        have := ih (switchTo N s j).1 ha (by unfold switchTo; split <;> exact hs)
        simp only [step, lastManual]
        rw [this]
        unfold switchTo; split <;> rfl
      | setCondition l d j => exact ih _ ha hs
      | arm => simp [arms] at ha
      | register => exact ih _ ha hs
      | setActiveLevel => exact ih _ ha hs
  · have := once_per_arming N (new i : St K) ops
    rw [h] at this
    simpa [new] using this

/-- A condition is set and an event registered, but the switch is not armed. -/
example : (exec 3 (new 0 : St ℚ) [.setCondition 0 1 1, .register, .switchTo 2, .run (fun _ => some (.fin 0)) true]).cur = 2 :=
  (new_unarmed 3 0 [.setCondition 0 1 1, .register, .switchTo 2, .run (fun _ => some (.fin 0)) true] rfl).1

/-- A condition naming a non-existing input: the event is triggered and `triggered()` reports true although nothing was switched. -/
theorem invalid_condition_reports_switch :
    let r := run 2 ⟨0, some ((0 : ℚ), 1, 7), true, false, true, false⟩ (fun _ => some (.fin 0)) false
    r.event = true ∧ r.st.switched = true ∧ r.st.cur = 0 := by decide +kernel
/-- The constructor does not check the position: the first run reads outside the input array. -/
theorem unchecked_initial_position : (run 2 (new 5 : St ℚ) (fun _ => some (.fin 0)) false).res = .ub := by decide +kernel

/-- Non-vacuity: a run that switches from input 0 to input 1. -/
example : Switches 2 ⟨0, some ((0 : ℚ), 1, 1), true, false, true, false⟩ (fun i => some (.fin (i : ℚ))) false 1 :=
  ⟨by decide, rfl, rfl, by simp, 0, 1, .fin 0, rfl, by simp, 0, rfl, by norm_num, by norm_num⟩

namespace Combined

/-- Switch `j` is combined to switch `i`, directly or through others. -/
inductive Reach (cs : Nat → List Nat) : Nat → Nat → Prop
  | refl (i) : Reach cs i i
  | step {i j k} : j ∈ cs i → Reach cs j k → Reach cs i k

theorem switchTo_spec (N : Nat) (fuel : Nat) : ∀ (w : World) (i p : Nat) (w' : World) (b : Bool),
    switchTo N fuel w i p = some (w', b) → p < N →
    b = true ∧ w'.cs = w.cs ∧ (∀ k, Reach w.cs i k → w'.pos k = p) ∧
    (∀ k, w'.pos k = p ∨ w'.pos k = w.pos k) ∧ (∀ k, ¬ Reach w.cs i k → w'.pos k = w.pos k) := by
  induction fuel with
  | zero => intro w i p w' b h; simp [switchTo] at h
  | succ fuel ih =>
    intro w i p w' b h hp
    simp only [switchTo, hp, if_true] at h
    rw [Option.map_eq_some_iff] at h
    obtain ⟨w1, h1, h2⟩ := h
    obtain ⟨rfl, rfl⟩ : w1 = w' ∧ true = b := by simpa using h2
    -- the fold over the combined switches
    have fold : ∀ (l : List Nat) (v v' : World), l.foldlM (fun w j => (switchTo N fuel w j p).map (·.1)) v = some v' →
        v.cs = w.cs →
        v'.cs = w.cs ∧ (∀ j ∈ l, ∀ k, Reach w.cs j k → v'.pos k = p) ∧
        (∀ k, v'.pos k = p ∨ v'.pos k = v.pos k) ∧
        (∀ k, (∀ j ∈ l, ¬ Reach w.cs j k) → v'.pos k = v.pos k) := by
      intro l
      induction l with
      | nil =>
        intro v v' hv hcs
        simp at hv; subst hv
        exact ⟨hcs, by simp, fun k => Or.inr rfl, fun k _ => rfl⟩
      | cons j l ihl =>
        intro v v' hv hcs
        rw [List.foldlM_cons] at hv
        cases hj : switchTo N fuel v j p with
        | none => simp [hj] at hv
        | some r =>
          obtain ⟨u, bu⟩ := r
          obtain ⟨-, g1, g2, g3, g4⟩ := ih v j p u bu hj hp
          simp only [hj, Option.map_some, Option.bind_eq_bind, Option.bind_some] at hv
          obtain ⟨f1, f2, f3, f4⟩ := ihl u v' hv (by rw [g1, hcs])
          rw [hcs] at g2 g4
          refine ⟨f1, ?_, ?_, ?_⟩
          · intro j' hj' k hk
            rcases List.mem_cons.1 hj' with rfl | hj'
            · rcases f3 k with h | h
              · exact h
              · rw [h]; exact g2 k hk
            · exact f2 j' hj' k hk
          · intro k
            rcases f3 k with h | h
            · exact Or.inl h
            · rw [h]; exact g3 k
          · intro k hk
            rw [f4 k (fun j' hj' => hk j' (List.mem_cons_of_mem _ hj')), g4 k (hk j (by simp))]
    obtain ⟨f1, f2, f3, f4⟩ := fold (w.cs i) (w.setPos i p) w1 h1 rfl
    refine ⟨rfl, f1, ?_, ?_, ?_⟩
    · intro k hk
      cases hk with
      | refl =>
        rcases f3 i with h | h
        · exact h
        · rw [h]; simp [World.setPos]
      | step hj hr => exact f2 _ hj k hr
    · intro k
      rcases f3 k with h | h
      · exact Or.inl h
      · rw [h]
        simp only [World.setPos]
        split
        · exact Or.inl rfl
        · exact Or.inr rfl
    · intro k hk
      have hki : k ≠ i := by rintro rfl; exact hk (.refl k)
      rw [f4 k (fun j hj hr => hk (.step hj hr))]
      simp [World.setPos, hki]

/-- **C63.** Switching a switch puts exactly the switches combined to it, directly or through any number of others, to the same existing
position and leaves all others alone; a non-existing position changes nothing. -/
theorem combined_follow (N fuel : Nat) (w w' : World) (i p : Nat) (b : Bool) (h : switchTo N fuel w i p = some (w', b)) :
    (p < N → b = true ∧ (∀ k, Reach w.cs i k → w'.pos k = p) ∧ (∀ k, ¬ Reach w.cs i k → w'.pos k = w.pos k)) ∧
    (N ≤ p → b = false ∧ w' = w) := by
  constructor
  · intro hp
    obtain ⟨h1, -, h3, -, h5⟩ := switchTo_spec N fuel w i p w' b h hp
    exact ⟨h1, h3, h5⟩
  · intro hp
    cases fuel with
    | zero => simp [switchTo] at h
    | succ f =>
      simp [switchTo, Nat.not_lt.2 hp] at h
      exact ⟨h.2, h.1.symm⟩

/-- **C63, combining.** A switch that is combined to another takes over its position at once, with everything combined to it, is remembered
in addition to those combined before, and nothing else moves. -/
theorem combine_follows (N fuel : Nat) (w w' : World) (i j : Nat) (hi : w.pos i < N) (h : combine N fuel w i j = some w') :
    w'.cs i = w.cs i ++ [j] ∧ (∀ k, k ≠ i → w'.cs k = w.cs k) ∧
    (∀ k, Reach w'.cs j k → w'.pos k = w.pos i) ∧ (∀ k, ¬ Reach w'.cs j k → w'.pos k = w.pos k) := by
  unfold combine at h
  rw [Option.map_eq_some_iff] at h
  obtain ⟨⟨v, b⟩, h1, rfl⟩ := h
  obtain ⟨-, g1, g2, -, g4⟩ := switchTo_spec N fuel _ _ _ _ _ h1 hi
  refine ⟨by simp [g1], fun k hk => by simp [g1, hk], ?_, ?_⟩
  · intro k hk
    rw [g1] at hk
    exact g2 k hk
  · intro k hk
    rw [g1] at hk
    exact g4 k hk

/-- Switch 0 is at position 2; switch 1, which has switch 2 combined to it, is combined to it. -/
example : (combine 3 5 ⟨fun i => if i = 0 then 2 else 0, fun i => if i = 1 then [2] else []⟩ 0 1).map
    (fun w => ([0,1,2,3].map w.pos, w.cs 0)) = some ([2, 2, 2, 0], [1]) := by decide

/-- If the combinations contain no cycle (`rank` decreases along them) the call returns. -/
theorem acyclic_returns (N : Nat) (w : World) (rank : Nat → Nat) (hr : ∀ i, ∀ j ∈ w.cs i, rank j < rank i) (i p : Nat) :
    ∃ r, switchTo N (rank i + 1) w i p = some r := by
  suffices H : ∀ n (v : World) (i : Nat), v.cs = w.cs → rank i < n → ∃ r, switchTo N n v i p = some r from
    H _ w i rfl (Nat.lt_succ_self _)
  intro n
  induction n with
  | zero => intro v i _ h; omega
  | succ n ih =>
    intro v i hv hi
    by_cases hp : p < N
    · have fold : ∀ (l : List Nat) (u : World), u.cs = w.cs → (∀ j ∈ l, rank j < n) →
          ∃ u', l.foldlM (fun w j => (switchTo N n w j p).map (·.1)) u = some u' := by
        intro l
        induction l with
        | nil => intro u _ _; exact ⟨u, by simp⟩
        | cons j l ihl =>
          intro u hu hl
          obtain ⟨⟨u1, b1⟩, h1⟩ := ih u j hu (hl j (by simp))
          have hcs := (switchTo_spec N n u j p u1 b1 h1 hp).2.1
          obtain ⟨u', h2⟩ := ihl u1 (by rw [hcs, hu]) (fun j' hj' => hl j' (List.mem_cons_of_mem _ hj'))
          exact ⟨u', by simp [List.foldlM_cons, h1, h2]⟩
      obtain ⟨u', hu'⟩ := fold (v.cs i) (v.setPos i p) hv (by
        intro j hj; rw [hv] at hj; have := hr i j hj; omega)
      exact ⟨(u', true), by simp [switchTo, hp, hu']⟩
    · exact ⟨(v, false), by simp [switchTo, hp]⟩


/-- Three switches in a row. -/
example : ∃ r, switchTo 3 3 ⟨fun _ => 0, fun i => if i < 2 then [i+1] else []⟩ 0 2 = some r :=
  acyclic_returns 3 ⟨fun _ => 0, fun i => if i < 2 then [i+1] else []⟩ (fun i => 2 - i) (by intro i j hj; dsimp at hj; split_ifs at hj with h <;> simp at hj; omega) 0 2

/-- Two switches combined with each other: switching never returns. -/
theorem mutual_combination_diverges (fuel : Nat) (pos : Nat → Nat) :
    switchTo 2 fuel ⟨pos, fun i => if i = 0 then [1] else if i = 1 then [0] else []⟩ 0 1 = none := by
  suffices H : ∀ fuel (pos : Nat → Nat),
      switchTo 2 fuel ⟨pos, fun i => if i = 0 then [1] else if i = 1 then [0] else []⟩ 0 1 = none ∧
      switchTo 2 fuel ⟨pos, fun i => if i = 0 then [1] else if i = 1 then [0] else []⟩ 1 1 = none from (H fuel pos).1
  intro fuel
  induction fuel with
  | zero => intro pos; exact ⟨rfl, rfl⟩
  | succ f ih =>
    intro pos
    constructor
    · simp [switchTo, World.setPos, (ih _).2]
    · simp [switchTo, World.setPos, (ih _).1]

/-- Non-vacuity: 0 → 1 → 2, switch 3 is independent. -/
example : (switchTo 3 3 ⟨fun _ => 0, fun i => if i < 2 then [i+1] else []⟩ 0 2).map (fun r => [0,1,2,3].map r.1.pos) =
    some [2, 2, 2, 0] := by decide

end Combined
end Verif.Control.Switch
