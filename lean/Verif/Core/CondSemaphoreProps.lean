import Verif.Core.CondSemaphore
import Mathlib.Tactic.SplitIfs
namespace Verif.Core.CondSemaphore

/-! ### C99: the counting semaphore -/

/-- Calls of `post` and of `wait` in an execution. -/
def posts (l : List Step) : Nat := l.count .post
def waits (l : List Step) : Nat := l.count .wait

theorem invariant_of {P : List Step → St → Prop} (value : Int) (h0 : P [] (init value))
    (hs : ∀ l s a, P l s → P (l ++ [a]) (step s a)) (l : List Step) : P l (run value l) := by
  suffices ∀ (l pre : List Step) (s : St), P pre s → P (pre ++ l) (l.foldl step s) by
    exact this l [] (init value) h0
  intro l
  induction l with
  | nil => intro pre s h; simpa using h
  | cons a l ih =>
    intro pre s h
    have := ih (pre ++ [a]) (step s a) (hs pre s a h)
    simpa using this

/-- **C99.** Conservation: in every execution the counter is its initial value plus the number of posts minus the number of waits which
have returned. -/
theorem conservation (value : Int) (l : List Step) : (run value l).counter = value + posts l - (run value l).acquired := by
  refine invariant_of (P := fun l s => s.counter = value + posts l - s.acquired) value (by simp [init, posts]) ?_ l
  intro l s a h
  have hp : (posts (l ++ [a]) : Int) = posts l + (if a = .post then 1 else 0) := by
    unfold posts
    cases a <;> simp
  rw [hp]
  obtain ⟨c, as, wo, no, ac, ti⟩ := s
  have : (decide (c > 0) = true) = (0 < c) := by simp
  cases a <;> simp only [step, take, ready, this] <;> (try split_ifs) <;> (try dsimp only at *) <;> (try simp at *) <;> omega

/-- **C99.** Mutual exclusion: the counter does not become negative; a semaphore with the initial value `n` lets at most `n` more threads
through than there were posts. -/
theorem bounded (n : Nat) (l : List Step) : 0 ≤ (run n l).counter ∧ (run n l).acquired ≤ n + posts l := by
  have h : 0 ≤ (run n l).counter := by
    refine invariant_of (P := fun _ s => 0 ≤ s.counter) n (by simp [init]) ?_ l
    intro l s a h
    obtain ⟨c, as, wo, no, ac, ti⟩ := s
    have : (decide (c > 0) = true) = (0 < c) := by simp
    cases a <;> simp only [step, take, ready, this] <;> (try split_ifs) <;> (try dsimp only at *) <;> (try simp at *) <;> omega
  have := conservation n l
  exact ⟨h, by omega⟩

/-- **C99.** No call of `wait` is lost: it has returned, timed out, sleeps or has been woken up. -/
theorem waits_accounted (value : Int) (l : List Step) :
    let s := run value l
    s.acquired + s.timedOut + s.asleep + s.woken = waits l := by
  refine invariant_of (P := fun l s => s.acquired + s.timedOut + s.asleep + s.woken = waits l) value (by simp [init, waits]) ?_ l
  intro l s a h
  have hp : waits (l ++ [a]) = waits l + (if a = .wait then 1 else 0) := by
    unfold waits
    cases a <;> simp
  rw [hp]
  obtain ⟨c, as, wo, no, ac, ti⟩ := s
  have : (decide (c > 0) = true) = (0 < c) := by simp
  cases a <;> simp only [step, take, ready, this] <;> (try split_ifs) <;> (try dsimp only at *) <;> (try simp at *) <;> omega

/-- **C99.** No wake-up is lost: as long as a thread sleeps, the units of the counter are matched by threads which are about to look at
it or to be notified. -/
theorem no_lost_wakeup (value : Int) (l : List Step) :
    let s := run value l
    0 < s.asleep → s.counter ≤ s.woken + s.notifying := by
  refine invariant_of (P := fun _ s => 0 < s.asleep → s.counter ≤ s.woken + s.notifying) value (by simp [init]) ?_ l
  intro l s a h
  obtain ⟨c, as, wo, no, ac, ti⟩ := s
  have : (decide (c > 0) = true) = (0 < c) := by simp
  cases a <;> simp only [step, take, ready, this] <;> (try split_ifs) <;> (try dsimp only at *) <;> (try simp at *) <;> omega

/-- **C99.** When all threads have come to rest, no thread sleeps while the counter is positive. -/
theorem quiescent (value : Int) (l : List Step) (h1 : (run value l).woken = 0) (h2 : (run value l).notifying = 0) :
    0 < (run value l).asleep → (run value l).counter ≤ 0 := by
  intro h
  have := no_lost_wakeup value l h
  omega

/-- Two threads wait, two post; all four come to rest. -/
example : let s := run 0 [.wait, .wait, .post, .post, .notify, .check, .notify, .check]
    s.woken = 0 ∧ s.notifying = 0 ∧ s.acquired = 2 ∧ s.counter = 0 := by decide

/-- **C99.** A call with a time limit returns `false` only if there was nothing to take. -/
theorem timeout_false (s : St) (a : Step) (h : (step s a).timedOut ≠ s.timedOut) : s.counter ≤ 0 := by
  obtain ⟨c, as, wo, no, ac, ti⟩ := s
  have : (decide (c > 0) = true) = (0 < c) := by simp
  cases a <;> simp only [step, take, ready, this] at h <;> (try split_ifs at h) <;> (try dsimp only at *) <;> omega

example : (run 0 [.wait, .timeout]).timedOut = 1 := by decide

end Verif.Core.CondSemaphore
