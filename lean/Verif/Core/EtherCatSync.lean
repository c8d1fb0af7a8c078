import Mathlib.Tactic.SplitIfs
/-!
Model of the loop of `Executor::run` which is synchronised with the EtherCAT stack (src/core/Executor.cpp:276-291), of the assignment of `running` before it (276) and of
`Executor::stop` (195-200) with `USE_ETHERCAT`.

Simplified: a cycle (`counter.tick`, task list, main task, `counter.tock`) is one step; `running` is read and written atomically (Executor.hpp:182 declares a plain `bool`).  The stack
is a library outside of the repository: `sync` returns when a bus cycle ends while the executor waits in it; whether it also returns once the stack has been stopped is
the parameter `wake`.
-/
namespace Verif.Core.EtherCatSync

inductive Pc where
  /-- before line 276: threads are created -/
  | starting
  /-- 283: about to test `running` -/
  | test
  /-- 284: in `etherCATStack->sync()` -/
  | sync
  /-- 285-289 -/
  | cycle
  /-- the loop has been left -/
  | done
deriving DecidableEq, Repr

structure St where
  running : Bool
  pc : Pc
  /-- number of cycles which have been run -/
  cycles : Nat
  /-- the stack has not been stopped -/
  stack : Bool
deriving DecidableEq, Repr

/-- Executor.hpp:182: `running` is true from the beginning. -/
def init : St := ⟨true, .starting, 0, true⟩

inductive Step where
  /-- the thread of the executor makes a step -/
  | exec
  /-- a cycle of the bus ends -/
  | bus
  /-- `stop`, 197 -/
  | stopFlag
  /-- `stop`, 199: `etherCATStack->stop()` -/
  | stopStack
deriving DecidableEq, Repr

def step (wake : Bool) (s : St) : Step → St
  | .exec => match s.pc with
    | .starting => { s with running := true, pc := .test }
    | .test => if s.running then { s with pc := .sync } else { s with pc := .done }
    | .sync => if !s.stack && wake then { s with pc := .cycle } else s
    | .cycle => { s with pc := .test, cycles := s.cycles + 1 }
    | .done => s
  | .bus => if s.stack ∧ s.pc = .sync then { s with pc := .cycle } else s
  | .stopFlag => { s with running := false }
  | .stopStack => { s with stack := false }

def run (wake : Bool) (s : St) (l : List Step) : St := l.foldl (step wake) s

theorem run_append (w : Bool) (s : St) (a b : List Step) : run w s (a ++ b) = run w (run w s a) b := by simp [run]
theorem run_cons (w : Bool) (s : St) (a : Step) (b : List Step) : run w s (a :: b) = run w (step w s a) b := rfl

/-! ### C275 -/

/-- **C275.** As long as the stack is not stopped there is never more than one cycle per cycle of the bus, whatever else happens. -/
theorem cycles_le_bus (w : Bool) (l : List Step) (h : .stopStack ∉ l) : (run w init l).cycles ≤ l.count .bus := by
  suffices ∀ (l : List Step) (s : St), .stopStack ∉ l → s.stack = true →
      (run w s l).cycles + (if (run w s l).pc = .cycle then 1 else 0) ≤ s.cycles + (if s.pc = .cycle then 1 else 0) + l.count .bus by
    have := this l init h rfl
    simp only [init, reduceCtorEq, if_false] at this
    simp only [init]
    omega
  intro l
  induction l with
  | nil => intro s _ _; exact Nat.le_refl _
  | cons a l ih =>
    intro s hl hs
    have hs' : (step w s a).stack = true := by
      cases a with
      | exec => obtain ⟨r, pc, c, st⟩ := s; cases pc <;> cases r <;> simp_all [step]
      | bus => simp only [step]; split_ifs <;> simp [hs]
      | stopFlag => simp [step, hs]
      | stopStack => simp at hl
    have := ih (step w s a) (fun h => hl (by simp [h])) hs'
    rw [run_cons]
    refine Nat.le_trans this ?_
    obtain ⟨r, pc, c, st⟩ := s
    simp only at hs
    subst hs
    cases a <;> cases pc <;> cases r <;> simp [step] <;> omega

/-- **C275** (one cycle) A cycle of the bus which ends while the executor waits for it is followed by exactly one cycle of the executor, which then waits again. -/
theorem bus_runs (w : Bool) (s : St) (hr : s.running = true) (hs : s.stack = true) (hp : s.pc = .sync) :
    run w s [.bus, .exec, .exec] = { s with cycles := s.cycles + 1 } := by
  obtain ⟨r, pc, c, st⟩ := s
  simp only at hr hs hp
  subst hr hs hp
  simp [run, step]

example : run true init [.exec, .exec] = ⟨true, .sync, 0, true⟩ := by decide
example : (run true init [.exec, .exec, .bus, .exec, .exec, .bus, .exec, .exec]).cycles = 2 := by decide

/-- Steps which are still to be made after `stop`. -/
def left : Pc → Nat
  | .starting => 0
  | .sync => 3
  | .cycle => 2
  | .test => 1
  | .done => 0

theorem stopped_aux (l : List Step) (s : St) (hr : s.running = false) (hs : s.stack = false) (hp : s.pc ≠ .starting) :
    (run true s l).pc ≠ .starting ∧ (run true s l).running = false ∧ left (run true s l).pc = left s.pc - l.count .exec ∧
      (run true s l).cycles ≤ s.cycles + (if 2 ≤ left s.pc then 1 else 0) := by
  induction l generalizing s with
  | nil => simp [run, hp, hr]
  | cons a l ih =>
    rw [run_cons]
    obtain ⟨r, pc, c, st⟩ := s
    simp only at hr hs hp
    subst hr hs
    have key : (step true ⟨false, pc, c, false⟩ a).running = false ∧ (step true ⟨false, pc, c, false⟩ a).stack = false ∧ (step true ⟨false, pc, c, false⟩ a).pc ≠ .starting ∧
        left (step true ⟨false, pc, c, false⟩ a).pc = left pc - (if a = .exec then 1 else 0) ∧
        (step true ⟨false, pc, c, false⟩ a).cycles + (if 2 ≤ left (step true ⟨false, pc, c, false⟩ a).pc then 1 else 0) ≤ c + (if 2 ≤ left pc then 1 else 0) := by
      cases a <;> cases pc <;> simp_all [step, left]
    obtain ⟨k1, k2, k3, k4, k5⟩ := key
    obtain ⟨h1, h2, h3, h4⟩ := ih _ k1 k2 k3
    refine ⟨h1, h2, ?_, Nat.le_trans h4 k5⟩
    rw [h3, k4, List.count_cons]
    cases a <;> simp <;> omega

/-- **C275, partial.** If `sync` returns once the stack has been stopped: after a call of `stop` during the loop the executor makes at most one more cycle and leaves the loop
after three steps, whatever else happens meanwhile.
Missing: calls of `stop` before line 276 (`stop_lost_violated`), and stacks whose `sync` does not return (`never_returns`). -/
theorem stop_ends_partial (s : St) (hp : s.pc ≠ .starting) (l : List Step) :
    let t := run true (run true s [.stopFlag, .stopStack]) l
    t.cycles ≤ s.cycles + 1 ∧ (3 ≤ l.count .exec → t.pc = .done) := by
  have h := stopped_aux l (run true s [.stopFlag, .stopStack]) rfl rfl (by simpa [run, step] using hp)
  simp only
  obtain ⟨h1, -, h3, h4⟩ := h
  have hc : (run true s [.stopFlag, .stopStack]).cycles = s.cycles := rfl
  refine ⟨by rw [hc] at h4; split_ifs at h4 <;> omega, fun h => ?_⟩
  have hl : left (run true s [.stopFlag, .stopStack]).pc ≤ 3 := by cases (run true s [.stopFlag, .stopStack]).pc <;> simp [left]
  have h0 : left (run true (run true s [.stopFlag, .stopStack]) l).pc = 0 := by omega
  revert h0 h1
  cases (run true (run true s [.stopFlag, .stopStack]) l).pc <;> simp [left]

example : (run true init [.exec, .exec, .stopFlag, .stopStack, .exec, .exec, .exec]).pc = .done := by decide

/-- **C275** (requirement on the stack) If `sync` does not return after the stack was stopped, an executor which waits in it never ends. -/
theorem never_returns (s : St) (hs : s.stack = false) (hp : s.pc = .sync) (l : List Step) : (run false s l).pc = .sync ∧ (run false s l).cycles = s.cycles := by
  induction l generalizing s with
  | nil => exact ⟨hp, rfl⟩
  | cons a l ih =>
    obtain ⟨r, pc, c, st⟩ := s
    simp only at hs hp
    subst hs hp
    rw [run_cons]
    cases a <;> exact ih _ (by simp [step]) (by simp [step])

example : (run false init [.exec, .exec, .stopFlag, .stopStack]).pc = .sync := by decide

/-- **C275, violated.** A call of `stop` while the executor starts is forgotten: line 276 sets `running` again.  The stack is stopped, so if its `sync` returns, the executor runs any
number of cycles without a single cycle of the bus, and if it does not return, the executor waits for ever. -/
theorem stop_lost_violated (s : St) (hp : s.pc = .starting) (n : Nat) :
    (run true s ([.stopFlag, .stopStack, .exec] ++ (List.replicate n [Step.exec, .exec, .exec]).flatten)) = ⟨true, .test, s.cycles + n, false⟩ ∧
    ∀ l : List Step, (run false s ([.stopFlag, .stopStack, .exec, .exec] ++ l)).pc = .sync := by
  obtain ⟨r, pc, c, st⟩ := s
  simp only at hp
  subst hp
  constructor
  · rw [run_append]
    have h0 : run true ⟨r, .starting, c, st⟩ [.stopFlag, .stopStack, .exec] = ⟨true, .test, c, false⟩ := by simp [run, step]
    rw [h0]
    clear h0
    induction n generalizing c with
    | zero => simp [run]
    | succ n ih =>
      rw [List.replicate_succ, List.flatten_cons, run_append]
      have h1 : run true ⟨true, .test, c, false⟩ [.exec, .exec, .exec] = ⟨true, .test, c + 1, false⟩ := by simp [run, step]
      rw [h1, ih (c + 1)]
      simp only [St.mk.injEq, true_and, and_true]
      omega
  · intro l
    rw [run_append]
    have h0 : run false ⟨r, .starting, c, st⟩ [.stopFlag, .stopStack, .exec, .exec] = ⟨true, .sync, c, false⟩ := by simp [run, step]
    rw [h0]
    exact (never_returns _ rfl rfl l).1

example : init.pc = .starting := rfl

end Verif.Core.EtherCatSync
