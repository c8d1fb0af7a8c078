import Verif.Core.ExecutorRun
import Mathlib.Tactic.Linarith
import Mathlib.Tactic.Ring
import Mathlib.Data.Rat.Cast.Order
set_option linter.unusedSectionVars false
namespace Verif.Core.ExecutorRun

variable {K : Type} [Field K] [LinearOrder K] [IsStrictOrderedRing K]

/-! ### C81: configuration -/

/-- Specification: the configuration a single call asks for. -/
def CfgOp.asked : CfgOp K → Cfg K
  | .setMainTask id p => ⟨p, some (.user id)⟩
  | .setExecutorPeriod p => ⟨p, some .default⟩

theorem cfgRun_set (c : Cfg K) (m : Main) (hm : c.main = some m) (ops : List (CfgOp K)) :
    cfgRun c ops = (c, ops.map (fun _ => true)) := by
  induction ops with
  | nil => rfl
  | cons op ops ih =>
    have h1 : cfgStep c op = (c, true) := by cases op <;> simp [cfgStep, hm]
    simp [cfgRun, h1, ih]

/-- **C81.** Whatever configuration calls are made in whatever order, the first one decides, and all others throw without
changing anything. -/
theorem first_call_decides (op : CfgOp K) (ops : List (CfgOp K)) :
    cfgRun Cfg.init (op :: ops) = (op.asked, false :: ops.map (fun _ => true)) := by
  have h1 : cfgStep Cfg.init op = (op.asked, false) := by cases op <;> rfl
  simp only [cfgRun, h1]
  cases op with
  | setMainTask id p => rw [cfgRun_set (CfgOp.asked (.setMainTask id p)) (.user id) rfl]
  | setExecutorPeriod p => rw [cfgRun_set (CfgOp.asked (.setExecutorPeriod p)) .default rfl]

/-- **C81.** `run` never dereferences a missing main task; it starts with the main task of the first call, unless there was
none or its period is zero. -/
theorem run_starts_iff (ops : List (CfgOp K)) :
    start (cfgRun Cfg.init ops).1 ≠ .nullDereference ∧
    (start (cfgRun Cfg.init ops).1 = .noPeriod ↔ ∀ op, ops.head? = some op → op.asked.period = 0) ∧
    (∀ m, start (cfgRun Cfg.init ops).1 = .starts m ↔
      ∃ op, ops.head? = some op ∧ op.asked.period ≠ 0 ∧ op.asked.main = some m) := by
  cases ops with
  | nil => simp [cfgRun, start, Cfg.init]
  | cons op ops =>
    rw [first_call_decides]
    cases op with
    | setMainTask id p => by_cases hp : p = 0 <;> simp [start, CfgOp.asked, hp]
    | setExecutorPeriod p => by_cases hp : p = 0 <;> simp [start, CfgOp.asked, hp]

/-- Non-vacuity: a main task with period 1/100, then two refused calls. -/
example : cfgRun (Cfg.init : Cfg ℚ) [.setMainTask 7 (1/100), .setExecutorPeriod 1, .setMainTask 8 2] =
    (⟨1/100, some (.user 7)⟩, [false, true, true]) := by decide +kernel

/-! ### C82: pacing -/

/-- Times at which cycles began, oldest first. -/
def wakes (l : List (K × Act)) : List K := (l.filter (fun e => e.2 = .wake)).map Prod.fst |>.reverse

/-- Specification: what is executed in `c` complete cycles, oldest first. -/
def cycles : Nat → List Act
  | 0 => []
  | c+1 => cycles c ++ [.wake, .taskList, .mainTask]

/-- The activities so far, oldest first. -/
def acts (s : St K) : List Act := (s.log.map Prod.snd).reverse

/-- Specification: what the current cycle has done so far. -/
def begun : Pc → List Act
  | .list => [.wake]
  | .main => [.wake, .taskList]
  | _ => []

def isLoop : Pc → Prop
  | .test | .sleep | .list | .main => True
  | _ => False

/-- What `stopThread`/`joinThread` calls were made when `run` is at `pc`, oldest first. -/
def ending (n : Nat) : Pc → List Act
  | .stopping k => (List.range (n - k)).map .stopThread
  | .joining k => (List.range n).map .stopThread ++ (List.range (n - k)).map .joinThread
  | .done => (List.range n).map .stopThread ++ (List.range n).map .joinThread
  | _ => []

/-- Invariant: `c` cycles are complete. -/
structure Inv (period : K) (n : Nat) (s : St K) (c : Nat) : Prop where
  acts : acts s = cycles c ++ begun s.pc ++ ending n s.pc
  next : isLoop s.pc → s.next = s.t0 + (c + 1) * period
  early : s.pc = .starting ∨ s.pc = .arm → c = 0
  count : (wakes s.log).length = c + (if begun s.pc = [] then 0 else 1)
  paced : ∀ k (h : k < (wakes s.log).length), s.t0 + (k + 1) * period ≤ (wakes s.log)[k]
  kstop : ∀ k, s.pc = .stopping k → k ≤ n
  kjoin : ∀ k, s.pc = .joining k → k ≤ n

theorem wakes_cons_other (t : K) (a : Act) (l : List (K × Act)) (h : a ≠ .wake) : wakes ((t, a) :: l) = wakes l := by
  simp [wakes, h]

theorem wakes_cons_wake (t : K) (l : List (K × Act)) : wakes ((t, .wake) :: l) = wakes l ++ [t] := by
  simp [wakes]

theorem range_step (n k : Nat) (h : k + 1 ≤ n) (f : Nat → Act) :
    (List.range (n - k)).map f = (List.range (n - (k+1))).map f ++ [f (n - (k+1))] := by
  have : n - k = (n - (k+1)) + 1 := by omega
  rw [this, List.range_succ]; simp

theorem inv_exec (period : K) (n : Nat) (s : St K) (c : Nat) (h : Inv period n s c) :
    ∃ c', Inv period n (exec period n s) c' := by
  obtain ⟨now, running, pc, next, t0, ended, log⟩ := s
  obtain ⟨ha, hn, he, hc, hp, hs, hj⟩ := h
  simp only [acts, begun, ending, isLoop] at ha hn he hc hp hs hj
  cases pc with
  | starting =>
    obtain rfl := he (Or.inl rfl)
    exact ⟨0, by simpa [acts, exec, begun, ending, cycles] using ha, by simp [exec, isLoop], by simp [exec],
      by simpa [exec, begun] using hc, by simpa [exec] using hp, by simp [exec], by simp [exec]⟩
  | arm =>
    obtain rfl := he (Or.inr rfl)
    have hw : wakes log = [] := List.eq_nil_of_length_eq_zero (by simpa [begun] using hc)
    exact ⟨0, by simpa [acts, exec, begun, ending, cycles] using ha, by simp [exec, isLoop], by simp [exec],
      by simp [exec, begun, hw], by simp [exec, hw], by simp [exec], by simp [exec]⟩
  | test =>
    by_cases hr : running = true
    · exact ⟨c, by simpa [acts, exec, begun, ending, hr] using ha, by simpa [exec, isLoop, hr] using hn,
        by simp [exec, hr], by simpa [exec, begun, hr] using hc, by simpa [exec, hr] using hp, by simp [exec, hr],
        by simp [exec, hr]⟩
    · have hr : running = false := by simpa using hr
      exact ⟨c, by simpa [acts, exec, begun, ending, hr] using ha, by simp [exec, isLoop, hr],
        by simp [exec, hr], by simpa [exec, begun, hr] using hc, by simpa [exec, hr] using hp, by simp [exec, hr],
        by simp [exec, hr]⟩
  | sleep =>
    by_cases hle : next ≤ now
    · refine ⟨c, by simpa [acts, exec, begun, ending, hle] using ha, by simpa [exec, isLoop, hle] using hn,
        by simp [exec, hle], ?_, ?_, by simp [exec, hle], by simp [exec, hle]⟩
      · simpa [exec, begun, hle, wakes_cons_wake] using hc
      · intro k hk
        simp only [exec, hle, if_true, wakes_cons_wake, List.length_append, List.length_singleton] at hk ⊢
        rw [List.getElem_append]
        split
        · exact hp k ‹_›
        · have hl : (wakes log).length = c := by simpa [begun] using hc
          have : k = c := by omega
          subst this
          have := hn trivial
          simp only [List.getElem_singleton]
          linarith
    · exact ⟨c, by simpa [acts, exec, begun, ending, hle] using ha, by simpa [exec, isLoop, hle] using hn,
        by simp [exec, hle], by simpa [exec, begun, hle] using hc, by simpa [exec, hle] using hp, by simp [exec, hle],
        by simp [exec, hle]⟩
  | list =>
    exact ⟨c, by simp only [acts, exec, List.map_cons, List.reverse_cons, ha]; simp [begun, ending],
      by simpa [exec, isLoop] using hn, by simp [exec], by simpa [exec, begun, wakes_cons_other] using hc,
      by simpa [exec, wakes_cons_other] using hp, by simp [exec], by simp [exec]⟩
  | main =>
    refine ⟨c + 1, by simp only [acts, exec, List.map_cons, List.reverse_cons, ha]; simp [begun, ending, cycles], ?_, by simp [exec], ?_, ?_,
      by simp [exec], by simp [exec]⟩
    · intro _
      have := hn trivial
      simp only [exec]; push_cast; rw [this]; ring
    · simpa [exec, begun, wakes_cons_other] using hc
    · simpa [exec, wakes_cons_other] using hp
  | stopping k =>
    have hk := hs k rfl
    cases k with
    | zero =>
      exact ⟨c, by simpa [acts, exec, begun, ending] using ha, by simp [exec, isLoop], by simp [exec],
        by simpa [exec, begun] using hc, by simpa [exec] using hp, by simp [exec], by simp [exec]⟩
    | succ k =>
      refine ⟨c, ?_, by simp [exec, isLoop], by simp [exec],
        by simpa [exec, begun, wakes_cons_other] using hc, by simpa [exec, wakes_cons_other] using hp, ?_, by simp [exec]⟩
      · simp only [acts, exec, List.map_cons, List.reverse_cons, ha, begun, ending, range_step n k hk]
        simp
      · intro j hj; simp [exec] at hj; omega
  | joining k =>
    have hk := hj k rfl
    cases k with
    | zero =>
      exact ⟨c, by simpa [acts, exec, begun, ending] using ha, by simp [exec, isLoop], by simp [exec],
        by simpa [exec, begun] using hc, by simpa [exec] using hp, by simp [exec], by simp [exec]⟩
    | succ k =>
      by_cases hen : ended (n - (k+1)) = true
      · refine ⟨c, ?_, by simp [exec, isLoop, hen], by simp [exec, hen],
          by simpa [exec, begun, hen, wakes_cons_other] using hc, by simpa [exec, hen, wakes_cons_other] using hp,
          by simp [exec, hen], ?_⟩
        · simp only [acts, exec, hen, if_true, List.map_cons, List.reverse_cons, ha, begun, ending, range_step n k hk]
          simp
        · intro j hj; simp [exec, hen] at hj; omega
      · have hen : ended (n - (k+1)) = false := by simpa using hen
        refine ⟨c, by simpa [acts, exec, begun, ending, hen] using ha, by simp [exec, isLoop, hen],
          by simp [exec, hen], by simpa [exec, begun, hen] using hc, by simpa [exec, hen] using hp, by simp [exec, hen], ?_⟩
        intro j hj; simp [exec, hen] at hj; omega
  | done =>
    exact ⟨c, by simpa [acts, exec, begun, ending] using ha, by simp [exec, isLoop], by simp [exec],
      by simpa [exec, begun] using hc, by simpa [exec] using hp, by simp [exec], by simp [exec]⟩

theorem inv_step (period : K) (n : Nat) (s : St K) (c : Nat) (h : Inv period n s c) (op : Op K) :
    ∃ c', Inv period n (step period n s op) c' := by
  cases op with
  | exec => exact inv_exec period n s c h
  | advance d => exact ⟨c, h.acts, h.next, h.early, h.count, h.paced, h.kstop, h.kjoin⟩
  | stop => exact ⟨c, h.acts, h.next, h.early, h.count, h.paced, h.kstop, h.kjoin⟩
  | threadEnds i => exact ⟨c, h.acts, h.next, h.early, h.count, h.paced, h.kstop, h.kjoin⟩

theorem inv_run (period : K) (n : Nat) (ops : List (Op K)) (s : St K) (c : Nat) (h : Inv period n s c) :
    ∃ c', Inv period n (run period n s ops) c' := by
  induction ops generalizing s c with
  | nil => exact ⟨c, h⟩
  | cons op ops ih =>
    obtain ⟨c', h'⟩ := inv_step period n s c h op
    exact ih _ _ h'

theorem inv_init (period : K) (n : Nat) (now : K) (r : Bool) : Inv period n (init now r) 0 :=
  ⟨rfl, by simp [init, isLoop], by simp, by simp [init, wakes, begun], by simp [init, wakes], by simp [init], by simp [init]⟩

/-- **C82, pacing.** In every execution, with any behaviour of the clock and any calls of `stop`, the k-th cycle (counted from
zero) does not begin before `t0 + (k+1)·period`, where `t0` is the time at which the loop was entered: late cycles do not
shift the ones which follow. -/
theorem cycle_not_early (period : K) (n : Nat) (now : K) (r : Bool) (ops : List (Op K)) (k : Nat)
    (hk : k < (wakes (run period n (init now r) ops).log).length) :
    (run period n (init now r) ops).t0 + (k + 1) * period ≤ (wakes (run period n (init now r) ops).log)[k] := by
  obtain ⟨c, h⟩ := inv_run period n ops _ _ (inv_init period n now r)
  exact h.paced k hk

/-- **C82, order.** In every execution the activities are complete cycles (wake, task list, main task), then at most one
incomplete cycle, and after the loop only calls which stop and join the threads. -/
theorem cycles_in_order (period : K) (n : Nat) (now : K) (r : Bool) (ops : List (Op K)) :
    let s := run period n (init now r) ops
    ∃ c, acts s = cycles c ++ begun s.pc ++ ending n s.pc := by
  obtain ⟨c, h⟩ := inv_run period n ops _ _ (inv_init period n now r)
  exact ⟨c, h.acts⟩

/-- **C82, no drift.** When the loop sleeps after `c` complete cycles it wakes as soon as the clock shows `t0 + (c+1)·period`. -/
theorem wakes_on_grid (period : K) (n : Nat) (now : K) (r : Bool) (ops : List (Op K)) (c : Nat)
    (hpc : (run period n (init now r) ops).pc = .sleep)
    (hc : (wakes (run period n (init now r) ops).log).length = c) :
    let s := run period n (init now r) ops
    ((exec period n s).pc = .list ↔ s.t0 + (c + 1) * period ≤ s.now) := by
  obtain ⟨c', h⟩ := inv_run period n ops _ _ (inv_init period n now r)
  intro s
  have h1 := h.count
  have h2 := h.next
  rw [hpc] at h1 h2
  simp only [begun, if_true, isLoop] at h1 h2
  have hcc : c' = c := by omega
  subst hcc
  have h2 := h2 trivial
  have hpc' : s.pc = .sleep := hpc
  have h2' : s.next = s.t0 + (c' + 1) * period := h2
  simp only [exec, hpc', h2']
  split <;> simp_all

/-! ### C83: stop -/

/-- **C83.** When `run` has returned, every thread was stopped and joined once, all of them stopped before the first is joined. -/
theorem all_joined (period : K) (n : Nat) (now : K) (r : Bool) (ops : List (Op K))
    (hd : (run period n (init now r) ops).pc = .done) :
    ∃ c, acts (run period n (init now r) ops) =
      cycles c ++ (List.range n).map .stopThread ++ (List.range n).map .joinThread := by
  obtain ⟨c, h⟩ := inv_run period n ops _ _ (inv_init period n now r)
  refine ⟨c, ?_⟩
  rw [h.acts, hd]; simp [begun, ending]

/-- How many cycles may still begin, and how many steps `run` still has to make, once `running` is false. -/
def remaining (n : Nat) : Pc → Nat
  | .sleep => 2 * n + 6
  | .list => 2 * n + 5
  | .main => 2 * n + 4
  | .test => 2 * n + 3
  | .stopping k => n + k + 2
  | .joining k => k + 1
  | .done => 0
  | .arm => 2 * n + 4
  | .starting => 0

def mayWake : Pc → Nat
  | .sleep => 1
  | _ => 0

/-- The invariant after a stop: the flag is down and line 276 has been passed. -/
def Stopped (s : St K) : Prop := s.running = false ∧ s.pc ≠ .starting

theorem stopped_exec (period : K) (n : Nat) (s : St K) (h : Stopped s) :
    Stopped (exec period n s) ∧
    ((wakes (exec period n s).log).length + mayWake (exec period n s).pc ≤ (wakes s.log).length + mayWake s.pc) ∧
    (exec period n s = s ∨ remaining n (exec period n s).pc < remaining n s.pc) := by
  obtain ⟨now, running, pc, next, t0, ended, log⟩ := s
  obtain ⟨hr, h1⟩ := h
  simp only at hr h1
  subst hr
  cases pc with
  | starting => exact absurd rfl h1
  | arm => simp [exec, Stopped, remaining, mayWake]
  | test => simp [exec, Stopped, remaining, mayWake]; omega
  | sleep =>
    by_cases hle : next ≤ now
    · simp [exec, hle, Stopped, remaining, mayWake, wakes_cons_wake]
    · simp [exec, hle, Stopped, mayWake]
  | list => simp [exec, Stopped, remaining, mayWake, wakes_cons_other]
  | main => simp [exec, Stopped, remaining, mayWake, wakes_cons_other]
  | stopping k => cases k with
    | zero => simp [exec, Stopped, remaining, mayWake]
    | succ k => simp [exec, Stopped, remaining, mayWake, wakes_cons_other]
  | joining k => cases k with
    | zero => simp [exec, Stopped, remaining, mayWake]
    | succ k => by_cases hen : ended (n - (k+1)) = true
                · simp [exec, hen, Stopped, remaining, mayWake, wakes_cons_other]
                · simp [exec, hen, Stopped, mayWake]
  | done => simp [exec, Stopped, mayWake]

theorem stopped_run (period : K) (n : Nat) (ops : List (Op K)) (s : St K) (h : Stopped s) :
    Stopped (run period n s ops) ∧
    (wakes (run period n s ops).log).length + mayWake (run period n s ops).pc ≤ (wakes s.log).length + mayWake s.pc := by
  induction ops generalizing s with
  | nil => exact ⟨h, le_rfl⟩
  | cons op ops ih =>
    cases op with
    | exec =>
      obtain ⟨g1, g2, _⟩ := stopped_exec period n s h
      obtain ⟨i1, i2⟩ := ih _ g1
      exact ⟨i1, le_trans i2 g2⟩
    | advance d => exact ih { s with now := s.now + d } h
    | stop => exact ih { s with running := false } ⟨rfl, h.2⟩
    | threadEnds i => exact ih { s with ended := fun j => if j = i then true else s.ended j } h

/-- **C83 (partial).** If `stop` is called after `running = true` (line 276), at most one more cycle begins, whatever happens
afterwards.  Missing: calls during the start of the executor, see `stop_lost`. -/
theorem stop_one_more_partial (period : K) (n : Nat) (s : St K) (ops : List (Op K))
    (h1 : s.pc ≠ .starting) :
    (wakes (run period n (step period n s .stop) ops).log).length ≤ (wakes s.log).length + 1 := by
  obtain ⟨_, g⟩ := stopped_run period n ops (step period n s .stop) ⟨rfl, h1⟩
  have : mayWake (step period n s .stop).pc ≤ 1 := by
    cases hpc : (step period n s .stop).pc <;> simp [mayWake]
  have e : (wakes (step period n s .stop).log).length = (wakes s.log).length := rfl
  omega

example : (wakes (run (1 : ℚ) 0 (step 1 0 (run 1 0 (init 10 true) [.exec, .exec, .exec, .advance 5]) .stop) (List.replicate 50 .exec)).log).length ≤
    (wakes (run (1 : ℚ) 0 (init 10 true) [.exec, .exec, .exec, .advance 5]).log).length + 1 :=
  stop_one_more_partial _ _ _ _ (by decide +kernel)

/-- Steps in which the thread in `run` is not blocked. -/
def effective (period : K) (n : Nat) : St K → List (Op K) → Nat
  | _, [] => 0
  | s, .exec :: ops =>
    (if (exec period n s).pc = s.pc then 0 else 1) + effective period n (exec period n s) ops
  | s, op :: ops => effective period n (step period n s op) ops

theorem effective_bound (period : K) (n : Nat) (ops : List (Op K)) (s : St K) (h : Stopped s) :
    effective period n s ops + remaining n (run period n s ops).pc ≤ remaining n s.pc := by
  induction ops generalizing s with
  | nil => simp [effective, run]
  | cons op ops ih =>
    cases op with
    | exec =>
      obtain ⟨g1, _, g3⟩ := stopped_exec period n s h
      have := ih _ g1
      have e : run period n s (.exec :: ops) = run period n (exec period n s) ops := rfl
      rw [e]
      simp only [effective]
      rcases g3 with g3 | g3
      · rw [g3] at this ⊢; simpa using this
      · split <;> omega
    | advance d => exact ih { s with now := s.now + d } h
    | stop => exact ih { s with running := false } ⟨rfl, h.2⟩
    | threadEnds i => exact ih { s with ended := fun j => if j = i then true else s.ended j } h

/-- **C83 (partial).** After such a call `run` returns after at most `2n + 6` steps in which it is not waiting for the clock or
for a thread to end; and as long as it has not returned it is waiting for one of these or can make a step. -/
theorem stop_terminates_partial (period : K) (n : Nat) (now : K) (r : Bool) (before ops : List (Op K)) (s : St K)
    (hrun : s = run period n (init now r) before) (h1 : s.pc ≠ .starting) :
    effective period n (step period n s .stop) ops ≤ 2 * n + 6 ∧
    (let f := run period n (step period n s .stop) ops
     f.pc ≠ .done → (exec period n f).pc ≠ f.pc ∨ (f.pc = .sleep ∧ f.now < f.next) ∨
       (∃ k, f.pc = .joining (k+1) ∧ f.ended (n - (k+1)) = false)) := by
  obtain ⟨c, hinv⟩ := inv_run period n before _ _ (inv_init period n now r)
  rw [← hrun] at hinv
  have hks := hinv.kstop
  have hkj := hinv.kjoin
  have hs : Stopped (step period n s .stop) := ⟨rfl, h1⟩
  constructor
  · have := effective_bound period n ops _ hs
    have e : (step period n s .stop).pc = s.pc := rfl
    rw [e] at this
    revert this hks hkj
    cases s.pc <;> simp [remaining] <;> omega
  · intro f hf
    obtain ⟨⟨hr, g1⟩, _⟩ := stopped_run period n ops _ hs
    change f.running = false at hr
    change f.pc ≠ .starting at g1
    obtain ⟨now, running, pc, next, t0, ended, log⟩ := f
    simp only at hr g1 hf ⊢
    subst hr
    cases pc with
    | starting => exact absurd rfl g1
    | arm => left; simp [exec]
    | test => left; simp [exec]
    | sleep => by_cases hle : next ≤ now
               · left; simp [exec, hle]
               · right; left; exact ⟨rfl, not_le.1 hle⟩
    | list => left; simp [exec]
    | main => left; simp [exec]
    | stopping k => cases k <;> (left; simp [exec])
    | joining k => cases k with
      | zero => left; simp [exec]
      | succ k => cases hen : ended (n - (k+1)) with
        | true => left; simp [exec, hen]
        | false => right; right; exact ⟨k, rfl, hen⟩
    | done => exact absurd rfl hf

/-- In the loop, or before it, with no stop pending that will be seen. -/
def Lost (s : St K) : Prop := s.pc = .starting ∨ (s.running = true ∧ (s.pc = .arm ∨ isLoop s.pc))

theorem lost_exec (period : K) (n : Nat) (s : St K) (h : Lost s) : Lost (exec period n s) := by
  obtain ⟨now, running, pc, next, t0, ended, log⟩ := s
  rcases h with h | ⟨hr, h⟩
  · simp only at h; subst h; simp [exec, Lost]
  · simp only at hr h
    subst hr
    cases pc <;> simp [isLoop] at h <;> simp [exec, Lost, isLoop]
    split <;> simp

/-- **C83, violated.** A call of `stop` before `running = true` (line 276, at least one second after `run` was called) is
forgotten: however often it was called by then, `run` goes on for ever if it is not called again. -/
theorem stop_lost (period : K) (n : Nat) (now : K) (r : Bool) (early late : List (Op K))
    (hearly : ∀ op ∈ early, match op with | .exec => False | _ => True)
    (hlate : ∀ op ∈ late, match op with | .stop => False | _ => True) :
    let s := run period n (init now r) (early ++ late)
    s.pc = .starting ∨ s.pc = .arm ∨ isLoop s.pc := by
  intro s
  have h1 : ∀ (ops : List (Op K)) (s : St K), s.pc = .starting →
      (∀ op ∈ ops, match op with | .exec => False | _ => True) → (run period n s ops).pc = .starting := by
    intro ops
    induction ops with
    | nil => intro s h _; exact h
    | cons op ops ih =>
      intro s h hops
      have ho := hops op (by simp)
      have hr : ∀ o ∈ ops, match o with | .exec => False | _ => True := fun o ho => hops o (by simp [ho])
      cases op with
      | exec => exact absurd ho id
      | advance d => exact ih { s with now := s.now + d } h hr
      | stop => exact ih { s with running := false } h hr
      | threadEnds i => exact ih { s with ended := fun j => if j = i then true else s.ended j } h hr
  have h2 : ∀ (ops : List (Op K)) (s : St K), Lost s →
      (∀ op ∈ ops, match op with | .stop => False | _ => True) → Lost (run period n s ops) := by
    intro ops
    induction ops with
    | nil => intro s h _; exact h
    | cons op ops ih =>
      intro s h hops
      have ho := hops op (by simp)
      have hr : ∀ o ∈ ops, match o with | .stop => False | _ => True := fun o ho => hops o (by simp [ho])
      cases op with
      | exec => exact ih _ (lost_exec period n s h) hr
      | advance d => exact ih { s with now := s.now + d } h hr
      | stop => exact absurd ho id
      | threadEnds i => exact ih { s with ended := fun j => if j = i then true else s.ended j } h hr
  have e : s = run period n (run period n (init now r) early) late := by simp [s, run, List.foldl_append]
  have := h2 late _ (Or.inl (h1 early (init now r) rfl hearly)) hlate
  rw [← e] at this
  rcases this with h | ⟨_, h | h⟩
  · exact Or.inl h
  · exact Or.inr (Or.inl h)
  · exact Or.inr (Or.inr h)

/-- Non-vacuity: period 1, one thread.  The first cycle is two units late, the second follows at once, then a stop: the thread
is stopped and joined and `run` returns. -/
example :
    let s := run (1 : ℚ) 1 (init 10 true)
      [.exec, .exec, .exec, .exec, .advance 3, .exec, .exec, .exec, .exec, .exec, .stop, .exec, .exec, .exec, .exec, .exec,
       .exec, .threadEnds 0, .exec, .exec]
    s.pc = .done ∧ wakes s.log = [13, 13] ∧
      acts s = [.wake, .taskList, .mainTask, .wake, .taskList, .mainTask, .stopThread 0, .joinThread 0] := by
  decide +kernel

/-- Non-vacuity of `stop_lost`: two stops during the start, then the loop runs its cycles. -/
example :
    let s := run (1 : ℚ) 1 (init 10 true)
      ([.stop, .advance 1, .stop] ++ [.exec, .exec, .exec, .advance 1, .exec, .exec, .exec, .exec])
    s.pc = .sleep ∧ wakes s.log = [12] := by
  decide +kernel

/-- A history of one thread, two late cycles and a stop. -/
def late : List (Op ℚ) := [.exec, .exec, .exec, .exec, .advance 3, .exec, .exec, .exec, .exec, .exec, .stop, .exec, .exec, .exec, .exec, .exec,
  .exec, .threadEnds 0, .exec, .exec]

/-- Cases of `cycle_not_early`, `all_joined` and `wakes_on_grid`. -/
example := cycle_not_early (1 : ℚ) 1 10 true late 1 (by decide +kernel)
example := all_joined (1 : ℚ) 1 10 true late (by decide +kernel)
example := wakes_on_grid (1 : ℚ) 1 10 true ([.stop, .advance 1, .stop] ++ [.exec, .exec, .exec, .advance 1, .exec, .exec, .exec, .exec]) 1 (by decide +kernel) (by decide +kernel)

end Verif.Core.ExecutorRun
