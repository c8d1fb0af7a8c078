import Verif.Common.Monitor
import Verif.Control.SignalCheckerProps
import Mathlib.Algebra.Order.Ring.Rat
/-!
`SignalChecker` (includes/eeros/control/SignalChecker.hpp) reconfigured by other threads while it runs, access by access.
All methods hold the mutex (84, 124, 134, 146, 158).  The triggering of the event (95, 107) is the result of `run`.
-/
namespace Verif.Control.CheckerConc
open Verif.Common.Monitor Verif.Control.SignalChecker

/-- Local variables: `done`, nothing more is to be done in `run`; `above`, the comparison with the lower limit; `fires`, the
event was triggered. -/
structure Loc where
  done : Bool
  above : Bool
  fires : Bool

variable {K : Type} [LinearOrder K]

/-- The accesses of `run` (83-114, with 174-192), `setLimits` (123-127), `reset` (133-136), `registerSafetyEvent` (145-149)
and `setActiveLevel` (157-160). -/
def checker (K : Type) [LinearOrder K] : Obj (St K) (Op K) Loc Bool where
  enter _ := ⟨false, false, false⟩
  body
    | .run v reached => [
        -- if (!fired)
        fun x => (x.1, { x.2 with done := x.1.fired }),
        -- value > lowerLimit
        fun x => (x.1, { x.2 with above := XVal.lt (.fin x.1.lower) v }),
        -- && value < upperLimit
        fun x => if (x.2.above && XVal.lt v (.fin x.1.upper)) = x.1.offRange then x else (x.1, { x.2 with done := true }),
        -- if (safetySystem != nullptr && safetyEvent != nullptr)
        fun x => if x.1.registered then x else (x.1, { x.2 with done := true }),
        -- if (activeLevel == nullptr || safetySystem->getCurrentLevel() >= *activeLevel)
        fun x => if x.1.hasLevel && !reached then (x.1, { x.2 with done := true }) else x,
        -- safetySystem->triggerEvent(*safetyEvent); fired = true;
        fun x => if x.2.done then x else (x.1, { x.2 with fires := true }),
        fun x => if x.2.done then x else ({ x.1 with fired := true }, x.2)]
    | .setLimits l u => [fun x => ({ x.1 with lower := l }, x.2), fun x => ({ x.1 with upper := u }, x.2)]
    | .reset => [fun x => ({ x.1 with fired := false }, x.2)]
    | .register => [fun x => ({ x.1 with registered := true }, x.2)]
    | .setActiveLevel => [fun x => ({ x.1 with hasLevel := true }, x.2)]
  result _ l := l.fires

/-- A call without interruption is the step of the sequential model. -/
theorem call_eq (s : St K) (op : Op K) : (checker K).call s op = step s op := by
  cases op with
  | run v reached =>
    obtain ⟨l, u, f, r, h, o⟩ := s
    simp only [Obj.call, steps, checker, List.foldl_cons, List.foldl_nil, step, run, within, exceeded]
    generalize XVal.lt (.fin l) v = a
    generalize XVal.lt v (.fin u) = b
    cases a <;> cases b <;> cases f <;> cases r <;> cases h <;> cases o <;> cases reached <;> rfl
  | setLimits l u => rfl
  | reset => rfl
  | register => rfl
  | setActiveLevel => rfl

/-- **The signal checker may be reconfigured by any number of threads while it runs**: in every execution its calls take
effect one after the other, each between its call and its return, and every run decides with limits which were set together. -/
theorem checker_linearizable {Thr : Type} [DecidableEq Thr] (s₀ : St K) (h : List (Ev (Op K) Bool Thr))
    (s : Common.Monitor.St (St K) (Op K) Loc Bool Thr) (e : Exec (checker K) s₀ h s) : Linearizable step s₀ h :=
  linearizable_spec (checker K) step (fun a b => a = b) (fun s q op hq => by subst hq; rw [call_eq]; exact ⟨rfl, rfl⟩)
    s₀ s₀ rfl h s e

/-- The runs which triggered the event. -/
def fired (l : List (Op K × Bool)) : Nat := (l.filter (·.2)).length

/-- The resets. -/
def resets (l : List (Op K × Bool)) : Nat := SignalChecker.resets (l.map (·.1))

omit [LinearOrder K] in
theorem legal_trace (f : St K → Op K → St K × Bool) (s : St K) (a : List (Op K × Bool)) (h : Legal f s a) :
    a.map (·.2) = (a.map (·.1)).foldr (fun op k (s : St K) => (f s op).2 :: k (f s op).1) (fun _ => []) s := by
  induction a generalizing s with
  | nil => rfl
  | cons x a ih =>
    obtain ⟨op, r⟩ := x
    simp only [List.map_cons, List.foldr_cons, List.cons.injEq]
    exact ⟨h.1.symm, ih _ h.2⟩

theorem trace_fold (s : St K) (ops : List (Op K)) :
    ops.foldr (fun op k (s : St K) => (step s op).2 :: k (step s op).1) (fun _ => []) s = trace s ops := by
  induction ops generalizing s with
  | nil => rfl
  | cons op ops ih => simp only [List.foldr_cons, trace, ih]

/-- **However many threads use it, the checker triggers at most once more often than it is reset.** -/
theorem once_per_reset {Thr : Type} [DecidableEq Thr] (s₀ : St K) (h : List (Ev (Op K) Bool Thr))
    (s : Common.Monitor.St (St K) (Op K) Loc Bool Thr) (e : Exec (checker K) s₀ h s) :
    ∃ l : List (Pt (Op K) Bool Thr), observed l = h ∧ (∀ t, ∃ d, Proper t .nothing l d) ∧
      fired (effects l) ≤ 1 + resets (effects l) := by
  obtain ⟨l, h1, h2, h3⟩ := checker_linearizable s₀ h s e
  refine ⟨l, h1, h3, ?_⟩
  have k1 := legal_trace step s₀ (effects l) h2
  rw [trace_fold] at k1
  have k2 := at_most_once_per_reset s₀ ((effects l).map (·.1))
  rw [← k1] at k2
  have k3 : count ((effects l).map (·.2)) = fired (effects l) := by
    simp only [count, fired, List.filter_map, List.length_map]
    congr 1
    apply List.filter_congr
    intro x _
    simp
  rw [k3] at k2
  unfold resets
  omega

/-- While thread 0 runs the checker with the limits 0 and 1, thread 1 moves them to 10 and 11: the value 5 is outside of
both, and the checker fires. -/
example : ∃ s, Exec (T := Nat) (checker Rat) ⟨0, 1, false, true, false, false⟩
    [.call 0 (.run (.fin 5) true), .call 1 (.setLimits 10 11), .ret 0 (.run (.fin 5) true) true] s := by
  have e := Exec.init (T := Nat) (o := checker Rat) (s₀ := ⟨0, 1, false, true, false, false⟩)
  have e := e.call 0 (.run (.fin 5) true) rfl
  have e := e.lock 0 _ rfl rfl
  have e := e.step 0 _ _ _ _ rfl
  have e := e.call 1 (.setLimits 10 11) rfl
  have e := e.step 0 _ _ _ _ rfl
  have e := e.step 0 _ _ _ _ rfl
  have e := e.step 0 _ _ _ _ rfl
  have e := e.step 0 _ _ _ _ rfl
  have e := e.step 0 _ _ _ _ rfl
  have e := e.step 0 _ _ _ _ rfl
  have e := e.unlock 0 _ _ rfl
  have k : XVal.lt (.fin (5 : Rat)) (.fin 1) = false := by decide +kernel
  have e := e.ret 0 (.run (.fin 5) true) true (by simp [checker, k])
  exact ⟨_, e⟩

end Verif.Control.CheckerConc
