import Mathlib.Algebra.Order.Field.Basic
/-!
Model of the dynamic part of `src/core/Executor.cpp`: `setMainTask` (116-122), `setExecutorPeriod` (129-134), `stop`
(195-208) and `run` (244-381), in the build without EtherCAT and ROS (the branch 360-373).

Simplified: `running` is read and written atomically (Executor.hpp:182 declares a plain `bool`); the calls which set the
priority and lock the memory have no effect; the task list and the main task are single steps which take the time given
by the clock; the creation of the threads (258) is modelled in `Executor.lean`.
-/
namespace Verif.Core.ExecutorRun

variable {K : Type} [Field K] [LinearOrder K]

/-! ### Configuration -/

/-- The main task: the one of the user, or the one with an empty runnable which `setExecutorPeriod` creates (132-133). -/
inductive Main where
  | user (id : Nat)
  | default
deriving DecidableEq, Repr

/-- The members `period` and `mainTask`. -/
structure Cfg (K : Type) where
  period : K
  main : Option Main
deriving DecidableEq

/-- Constructor, 95-98. -/
def Cfg.init : Cfg K := ⟨0, none⟩

inductive CfgOp (K : Type) where
  | setMainTask (id : Nat) (period : K)
  | setExecutorPeriod (period : K)
deriving DecidableEq

/-- 116-122 and 129-134: the new configuration, and whether the call throws. -/
def cfgStep (c : Cfg K) : CfgOp K → Cfg K × Bool
  | .setMainTask id p => match c.main with
    | some _ => (c, true)
    | none => (⟨p, some (.user id)⟩, false)
  | .setExecutorPeriod p => match c.main with
    | some _ => (c, true)
    | none => (⟨p, some .default⟩, false)

/-- Any sequence of configuration calls (exceptions are caught by the caller): final configuration and which threw. -/
def cfgRun : Cfg K → List (CfgOp K) → Cfg K × List Bool
  | c, [] => (c, [])
  | c, op :: ops => ((cfgRun (cfgStep c op).1 ops).1, (cfgStep c op).2 :: (cfgRun (cfgStep c op).1 ops).2)

inductive Start where
  /-- "period of executor not set" (246) -/
  | noPeriod
  /-- line 257 dereferences `this->mainTask` although it is null -/
  | nullDereference
  | starts (m : Main)
deriving DecidableEq, Repr

/-- `run`, 244-257. -/
def start (c : Cfg K) : Start :=
  if c.period = 0 then .noPeriod
  else match c.main with
    | none => .nullDereference
    | some m => .starts m

/-! ### The loop -/

/-- What `run` does, with the time at which it does it. -/
inductive Act where
  /-- `sleep_until` returns (365) -/
  | wake
  /-- `taskList.run()` (367) -/
  | taskList
  /-- `mainTask->run()` (368-369) -/
  | mainTask
  /-- `async.stop()` of thread `i` (377) -/
  | stopThread (i : Nat)
  /-- `async.join()` of thread `i` returns (379) -/
  | joinThread (i : Nat)
deriving DecidableEq, Repr

/-- Position in `run`. -/
inductive Pc where
  /-- 244-276: everything up to `running = true` -/
  | starting
  /-- 363: about to compute the first `nextCycle` -/
  | arm
  /-- 364: about to test `running` -/
  | test
  /-- 365: in `sleep_until(nextCycle)` -/
  | sleep
  /-- 366-367 -/
  | list
  /-- 368-371 -/
  | main
  /-- 377: `n` threads are still to be stopped -/
  | stopping (n : Nat)
  /-- 379: `n` threads are still to be joined -/
  | joining (n : Nat)
  /-- `run` has returned -/
  | done
deriving DecidableEq, Repr

structure St (K : Type) where
  now : K
  running : Bool
  pc : Pc
  next : K
  /-- the time read in line 363 -/
  t0 : K
  /-- which threads have left `run_thread` -/
  ended : Nat → Bool
  /-- everything done so far, newest first -/
  log : List (K × Act)

/-- `running` has whatever value it had before. -/
def init (now : K) (running : Bool) : St K :=
  { now := now, running := running, pc := .starting, next := 0, t0 := 0, ended := fun _ => false, log := [] }

/-- One step of the thread in `run`, for an executor with the given period and `n` threads; a blocked thread does nothing. -/
def exec (period : K) (n : Nat) (s : St K) : St K :=
  match s.pc with
  | .starting => { s with running := true, pc := .arm }
  | .arm => { s with t0 := s.now, next := s.now + period, pc := .test }
  | .test => if s.running then { s with pc := .sleep } else { s with pc := .stopping n }
  | .sleep => if s.next ≤ s.now then { s with pc := .list, log := (s.now, .wake) :: s.log } else s
  | .list => { s with pc := .main, log := (s.now, .taskList) :: s.log }
  | .main => { s with pc := .test, next := s.next + period, log := (s.now, .mainTask) :: s.log }
  | .stopping 0 => { s with pc := .joining n }
  | .stopping (k+1) => { s with pc := .stopping k, log := (s.now, .stopThread (n - (k+1))) :: s.log }
  | .joining 0 => { s with pc := .done }
  | .joining (k+1) =>
    if s.ended (n - (k+1)) then { s with pc := .joining k, log := (s.now, .joinThread (n - (k+1))) :: s.log } else s
  | .done => s

inductive Op (K : Type) where
  /-- the clock advances -/
  | advance (d : K)
  /-- some thread or signal handler calls `Executor::stop()` (195-197) -/
  | stop
  /-- a thread of the executor leaves its loop -/
  | threadEnds (i : Nat)
  /-- the thread in `run` makes a step -/
  | exec

def step (period : K) (n : Nat) (s : St K) : Op K → St K
  | .advance d => { s with now := s.now + d }
  | .stop => { s with running := false }
  | .threadEnds i => { s with ended := fun j => if j = i then true else s.ended j }
  | .exec => exec period n s

def run (period : K) (n : Nat) (s : St K) (ops : List (Op K)) : St K := ops.foldl (step period n) s

end Verif.Core.ExecutorRun
