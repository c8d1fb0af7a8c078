import Verif.Core.Tasks
namespace Verif.Core

namespace Harmonic

/-- **C16.** With divisor `n ≥ 1` the task is run exactly in the calls number `n, 2n, 3n, ...` (call `i+1` is the `i`-th entry). -/
theorem harmonic_every_nth (n : Nat) (hn : 1 ≤ n) (m i : Nat) (hi : i < m) :
    (runs m (init n))[i]? = some (decide ((i + 1) % n = 0)) := by
  suffices H : ∀ m i (k : Nat), k < n → i < m →
      (runs m ⟨n, k⟩)[i]? = some (decide ((k + i + 1) % n = 0)) by
    simpa [init] using H m i 0 (by omega) hi
  intro m
  induction m with
  | zero => intro i k _ h; omega
  | succ m ih =>
    intro i k hk h
    simp only [runs, run]
    by_cases hc : (k : Int) + 1 ≥ n
    · have hkn : k + 1 = n := by omega
      simp only [hc, if_true]
      cases i with
      | zero => simp [hkn]
      | succ i =>
        simp only [List.getElem?_cons_succ]
        have := ih i 0 (by omega) (by omega)
        simp only [Int.natCast_zero] at this
        rw [this]
        congr 2
        rw [show k + (i + 1) + 1 = (0 + i + 1) + n by omega, Nat.add_mod_right]
    · simp only [hc, if_false]
      cases i with
      | zero =>
        have h1 : k + 1 < n := by omega
        simp only [List.getElem?_cons_zero, Nat.add_zero, Nat.mod_eq_of_lt h1]
        simp
      | succ i =>
        simp only [List.getElem?_cons_succ]
        have := ih i (k+1) (by omega) (by omega)
        rw [show ((k:Int)+1) = ((k+1 : Nat):Int) by omega, this]
        rw [show k + 1 + i + 1 = k + (i + 1) + 1 by omega]

/-- **C16, count.** After `m` calls the task was executed `m / n` times. -/
theorem harmonic_count (n : Nat) (hn : 1 ≤ n) (m : Nat) :
    ((runs m (init n)).count true) = m / n := by
  suffices H : ∀ m (k : Nat), k < n → (runs m ⟨n, k⟩).count true = (k + m) / n by
    simpa [init] using H m 0 (by omega)
  intro m
  induction m with
  | zero => intro k hk; simp [runs, Nat.div_eq_of_lt hk]
  | succ m ih =>
    intro k hk
    simp only [runs, run]
    by_cases hc : (k : Int) + 1 ≥ n
    · have hkn : k + 1 = n := by omega
      have := ih 0 (by omega)
      simp only [Int.natCast_zero] at this
      simp only [hc, if_true, List.count_cons_self]
      rw [this, show k + (m + 1) = (0 + m) + n by omega, Nat.add_div_right _ (by omega)]
    · have := ih (k+1) (by omega)
      simp only [hc, if_false]
      rw [List.count_cons_of_ne (by simp), show ((k:Int)+1) = ((k+1 : Nat):Int) by omega, this]
      congr 1; omega

/-- **C16, degenerate divisors.** With `n ≤ 1` the task runs in every call. -/
theorem harmonic_le_one (n : Int) (hn : n ≤ 1) (m : Nat) :
    runs m (init n) = List.replicate m true := by
  induction m with
  | zero => rfl
  | succ m ih =>
    have : run (init n) = (init n, true) := by simp [run, init, hn]
    simp [runs, this, ih, List.replicate_succ]

/-- Non-vacuity. -/
example : runs 7 (init 3) = [false, false, true, false, false, true, false] := by decide

end Harmonic

namespace Semaphore

def posts (ops : List Op) : Nat := ops.count .post
def waits (ops : List Op) : Nat := ops.count .wait + ops.count (.waitTimed true)

/-- **C20, conservation.** In every possible execution the counter is the initial value plus the posts minus the completed waits; a
timed wait that returned false is not counted, it consumes nothing. -/
theorem semaphore_conserves (ops : List Op) (v c : Int) (h : exec v ops = some c) :
    c = v + posts ops - waits ops := by
  induction ops generalizing v with
  | nil => simp [exec] at h; simp [posts, waits, h]
  | cons op ops ih =>
    simp only [exec] at h
    cases op with
    | post =>
      simp [step] at h
      have := ih _ h
      simp [posts, waits] at *; omega
    | wait =>
      simp only [step] at h
      split at h
      · have := ih _ h
        simp [posts, waits] at *; omega
      · simp at h
    | waitTimed r =>
      cases r with
      | true =>
        simp only [step] at h
        split at h
        · have := ih _ h
          simp [posts, waits] at *; omega
        · simp at h
      | false =>
        simp only [step] at h
        split at h
        · simp at h
        · have := ih _ h
          simp [posts, waits] at *; omega

/-- **C20, no permit out of nothing.** Starting with `v ≥ 0`, completed waits never exceed `v` plus the posts, in every prefix. -/
theorem waits_le_posts (ops : List Op) (v c : Int) (hv : 0 ≤ v) (h : exec v ops = some c) :
    (waits ops : Int) ≤ v + posts ops ∧ 0 ≤ c := by
  have hc : 0 ≤ c := by
    induction ops generalizing v with
    | nil => simp [exec] at h; omega
    | cons op ops ih =>
      simp only [exec] at h
      rcases op with _ | _ | (_ | _)
      · simp [step] at h; exact ih _ (by omega) h
      · simp only [step] at h; split at h
        · exact ih _ (by omega) h
        · simp at h
      · simp only [step] at h; split at h
        · simp at h
        · exact ih _ hv h
      · simp only [step] at h; split at h
        · exact ih _ (by omega) h
        · simp at h
  have := semaphore_conserves ops v c h
  omega

/-- **C20, a permit is given to a waiter.** After every execution a wait can return exactly if the initial value and the posts exceed the
waits which returned; a timed wait fails exactly otherwise. -/
theorem waits_iff (ops : List Op) (v c : Int) (h : exec v ops = some c) :
    ((exec v (ops ++ [.wait])).isSome = true ↔ (waits ops : Int) < v + posts ops) ∧
    ((exec v (ops ++ [.waitTimed true])).isSome = true ↔ (waits ops : Int) < v + posts ops) ∧
    ((exec v (ops ++ [.waitTimed false])).isSome = true ↔ v + posts ops ≤ (waits ops : Int)) := by
  have hc := semaphore_conserves ops v c h
  have app : ∀ (l : List Op) (w : Int) (op : Op), exec w (l ++ [op]) = (exec w l).bind (fun c => step c op) := by
    intro l
    induction l with
    | nil => intro w op; cases hs : step w op <;> simp [exec, hs]
    | cons o l ih => intro w op; cases hs : step w o <;> simp [exec, hs, ih]
  rw [app, app, app, h]
  simp only [Option.bind_some, step]
  refine ⟨?_, ?_, ?_⟩ <;> split <;> simp <;> omega

/-- Two posts and one wait: one more wait can return. -/
example : (exec 0 ([.post, .post, .wait] ++ [.wait])).isSome = true :=
  ((waits_iff [.post, .post, .wait] 0 1 (by decide)).1).2 (by decide)

/-- Non-vacuity. -/
example : exec 1 [.wait, .post, .waitTimed true, .waitTimed false] = some 0 := by decide
/-- A wait without a permit blocks. -/
example : exec 0 [.wait] = none := by decide

end Semaphore

namespace Async

def starts (obs : List Obs) : Nat := obs.count .taskStarts

/-- Executions of the task that the state still owes to posts: permits, plus one if the worker holds one. -/
def held : Pc → Nat
  | .testing => 1
  | .about => 1
  | _ => 0

/-- 1 if the worker has passed its test of `finished` but not yet started the task. -/
def passed : Pc → Nat
  | .about => 1
  | _ => 0

/-- **C20, Async: at most one execution per `run()`.** In every interleaving of clients and worker the task is started at most as often as
`run()` was called. -/
theorem async_at_most_once_per_run (ops : List Op) (hwf : WellFormed false ops) :
    starts (exec init ops).2 ≤ ops.count .run := by
  suffices H : ∀ (ops : List Op) (s : St) (f : Bool), WellFormed f ops → (f = true → s.finished = true) →
      (s.finished = true →
        starts (exec s ops).2 ≤ passed s.pc) ∧
      (s.finished = false →
        starts (exec s ops).2 ≤ ops.count .run + s.counter + held s.pc) by
    have := (H ops init false hwf (by simp)).2 rfl
    simpa [init, held] using this
  intro ops
  induction ops with
  | nil => intro s f _ _; simp [exec, starts]
  | cons op ops ih =>
    intro s f hw hf
    cases op with
    | run =>
      simp only [WellFormed] at hw
      obtain ⟨a, b⟩ := ih (step s .run).1 f hw (by simpa [step] using hf)
      constructor
      · intro h; have := a (by simpa [step] using h)
        simpa [exec, starts, step] using this
      · intro h; have := b (by simpa [step] using h)
        simp [exec, starts, step] at this ⊢; omega
    | stopFlag =>
      simp only [WellFormed] at hw
      obtain ⟨a, b⟩ := ih (step s .stopFlag).1 true hw (by simp [step])
      have a' := a (by simp [step])
      simp [step, starts] at a'
      constructor
      · intro h; simpa [exec, starts, step] using a'
      · intro h; simp [exec, starts, step]
        have : passed s.pc ≤ held s.pc := by cases s.pc <;> simp [held, passed]
        omega
    | stopPost =>
      simp only [WellFormed] at hw
      have hfin := hf hw.1
      obtain ⟨a, -⟩ := ih (step s .stopPost).1 f hw.2 (by simpa [step] using hf)
      constructor
      · intro h; have := a (by simpa [step] using h)
        simpa [exec, starts, step] using this
      · intro h; simp [hfin] at h
    | worker =>
      simp only [WellFormed] at hw
      obtain ⟨c, fin, pc⟩ := s
      cases pc with
      | waiting =>
        by_cases hc : c > 0
        · have hs : step ⟨c, fin, .waiting⟩ .worker = (⟨c-1, fin, .testing⟩, .none) := by simp [step, hc]
          obtain ⟨a, b⟩ := ih ⟨c-1, fin, .testing⟩ f hw (by simpa using hf)
          constructor
          · intro h; have := a h; simpa [exec, hs, starts, passed] using this
          · intro h; have := b h; simp [exec, hs, starts, held] at this ⊢; omega
        · have hs : step ⟨c, fin, .waiting⟩ .worker = (⟨c, fin, .waiting⟩, .none) := by simp [step, hc]
          obtain ⟨a, b⟩ := ih ⟨c, fin, .waiting⟩ f hw (by simpa using hf)
          constructor
          · intro h; have := a h; simpa [exec, hs, starts, passed] using this
          · intro h; have := b h; simp [exec, hs, starts, held] at this ⊢; omega
      | testing =>
        cases fin with
        | true =>
          obtain ⟨a, b⟩ := ih ⟨c, true, .ended⟩ f hw (by simp)
          constructor
          · intro h; have := a rfl; simpa [exec, step, starts, passed] using this
          · intro h; simp at h
        | false =>
          obtain ⟨a, b⟩ := ih ⟨c, false, .about⟩ f hw (by simpa using hf)
          constructor
          · intro h; simp at h
          · intro h; have := b rfl; simp [exec, step, starts, held] at this ⊢; omega
      | about =>
        obtain ⟨a, b⟩ := ih ⟨c, fin, .running⟩ f hw (by simpa using hf)
        constructor
        · intro h; have := a h; simp [exec, step, starts, passed] at this ⊢; omega
        · intro h; have := b h; simp [exec, step, starts, held] at this ⊢; omega
      | running =>
        obtain ⟨a, b⟩ := ih ⟨c, fin, .waiting⟩ f hw (by simpa using hf)
        constructor
        · intro h; have := a h; simpa [exec, step, starts, passed] using this
        · intro h; have := b h; simp [exec, step, starts, held] at this ⊢; omega
      | ended =>
        obtain ⟨a, b⟩ := ih ⟨c, fin, .ended⟩ f hw (by simpa using hf)
        constructor
        · intro h; have := a h; simpa [exec, step, starts, passed] using this
        · intro h; have := b h; simp [exec, step, starts, held] at this ⊢; omega

/-- **C20, Async after stop (partial).** Once `finished` is set, the task is started at most once more, and not at all unless the worker had already
passed its test of the flag.  Missing: "never after stop" in the strict sense, which is false (`one_start_after_stop`). -/
theorem async_after_stop_partial (ops : List Op) (s : St) (h : s.finished = true) :
    starts (exec s ops).2 ≤ passed s.pc := by
  induction ops generalizing s with
  | nil => simp [exec, starts]
  | cons op ops ih =>
    obtain ⟨c, fin, pc⟩ := s
    simp at h; subst h
    cases op with
    | run => have := ih ⟨c+1, true, pc⟩ rfl; simpa [exec, step, starts, passed] using this
    | stopFlag => have := ih ⟨c, true, pc⟩ rfl; simpa [exec, step, starts, passed] using this
    | stopPost => have := ih ⟨c+1, true, pc⟩ rfl; simpa [exec, step, starts, passed] using this
    | worker =>
      cases pc with
      | waiting =>
        by_cases hc : c > 0
        · have := ih ⟨c-1, true, .testing⟩ rfl; simpa [exec, step, hc, starts, passed] using this
        · have := ih ⟨c, true, .waiting⟩ rfl; simpa [exec, step, hc, starts, passed] using this
      | testing => have := ih ⟨c, true, .ended⟩ rfl; simpa [exec, step, starts, passed] using this
      | about => have := ih ⟨c, true, .running⟩ rfl; simpa [exec, step, starts, passed] using this
      | running => have := ih ⟨c, true, .waiting⟩ rfl; simpa [exec, step, starts, passed] using this
      | ended => have := ih ⟨c, true, .ended⟩ rfl; simpa [exec, step, starts, passed] using this


example : (exec init [.run, .worker, .stopFlag, .stopPost, .worker, .worker]).1.finished = true := by decide

/-- The task can start after `stop()` returned: the worker had tested the flag before. -/
theorem one_start_after_stop :
    (exec init [.run, .worker, .worker, .stopFlag, .stopPost, .worker]).2 =
      [.none, .none, .none, .none, .none, .taskStarts] := by decide

/-- Own steps the worker needs at most until it ends once `finished` is set and a permit is there. -/
def rank : Pc → Nat
  | .about => 4
  | .running => 3
  | .waiting => 2
  | .testing => 1
  | .ended => 0

/-- **C20, Async terminates after stop.** Once `finished` is set and the permit of `stop()` is posted, the worker has left its loop after
at most four of its own steps (task execution counted as two), in every interleaving with clients. -/
theorem async_ends (ops : List Op) (s : St) (h : s.finished = true)
    (hp : s.counter > 0 ∨ s.pc = .testing ∨ s.pc = .ended)
    (hw : rank s.pc ≤ ops.count .worker) :
    (exec s ops).1.pc = .ended := by
  induction ops generalizing s with
  | nil =>
    obtain ⟨c, fin, pc⟩ := s
    cases pc <;> simp [rank] at hw
    rfl
  | cons op ops ih =>
    obtain ⟨c, fin, pc⟩ := s
    simp at h; subst h
    cases op with
    | run => exact ih ⟨c+1, true, pc⟩ rfl (by simp) (by simpa using hw)
    | stopFlag => exact ih ⟨c, true, pc⟩ rfl hp (by simpa using hw)
    | stopPost => exact ih ⟨c+1, true, pc⟩ rfl (by simp) (by simpa using hw)
    | worker =>
      simp only [List.count_cons_self] at hw
      cases pc with
      | waiting =>
        have hc : c > 0 := by simpa using hp
        have := ih ⟨c-1, true, .testing⟩ rfl (by simp) (by simp [rank] at hw ⊢; omega)
        simpa [exec, step, hc] using this
      | testing =>
        have := ih ⟨c, true, .ended⟩ rfl (by simp) (by simp [rank])
        simpa [exec, step] using this
      | about =>
        have := ih ⟨c, true, .running⟩ rfl (by simpa using hp) (by simp [rank] at hw ⊢; omega)
        simpa [exec, step] using this
      | running =>
        have := ih ⟨c, true, .waiting⟩ rfl (by simpa using hp) (by simp [rank] at hw ⊢; omega)
        simpa [exec, step] using this
      | ended =>
        have := ih ⟨c, true, .ended⟩ rfl (by simp) (by simp [rank])
        simpa [exec, step] using this

/-- Non-vacuity: two `run()` calls lead to two executions. -/
example : WellFormed false [.run, .run, .worker, .worker, .worker, .worker, .worker, .worker, .worker] ∧
    starts (exec init [.run, .run, .worker, .worker, .worker, .worker, .worker, .worker, .worker]).2 = 2 := by
  refine ⟨by simp [WellFormed], by decide⟩

end Async
end Verif.Core
