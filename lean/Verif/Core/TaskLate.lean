import Mathlib.Algebra.Order.Archimedean.Basic
import Mathlib.Algebra.Order.Field.Rat
import Mathlib.Algebra.BigOperators.Intervals
import Mathlib.Tactic.Ring
import Mathlib.Tactic.NormNum
import Mathlib.Tactic.Linarith
/-!
When the runs of a task begin and end, on the time axis: the thread of a task (src/task/Async.cpp) takes one request after the other from its counting
semaphore. Requests which come while a run takes place are kept by the counter and not dropped.

Simplifications: times are elements of an ordered field; the times of the requests, the duration of the runs and the delay until the thread really goes on when
it could are given by the environment. `stop` and the measuring of the counter are not modelled here.
-/
namespace Verif.Core.TaskLate

/-- `post n`: time of request `n` (`Async::run`, Async.cpp:25-27); `dur n`: duration of run `n` (Async.cpp:60-62); `delay n`: time between the moment at which
`Semaphore::wait` could return (Semaphore.cpp:9-13) and the begin of run `n`. -/
structure Env (K : Type) where
  post : ℕ → K
  dur : ℕ → K
  delay : ℕ → K

variable {K : Type} [Field K] [LinearOrder K] [IsStrictOrderedRing K]

/-- Begin of run `n` (Async.cpp:58-64): the counter is positive for the `n`-th wait once request `n` was made, and the thread waits again when the run before
has ended. -/
def begins (e : Env K) : ℕ → K
  | 0 => e.post 0 + e.delay 0
  | n + 1 => max (e.post (n + 1)) (begins e n + e.dur n) + e.delay (n + 1)

/-- End of run `n`. -/
def ends (e : Env K) (n : ℕ) : K := begins e n + e.dur n

/-- The requests of a task which is registered after another one with divisor `k`: the list of the other task asks for it in every `k`-th run, at the end
(Harmonic.cpp:16-21, HarmonicTaskList.cpp:6-9, Executor.cpp:66-69); later tasks of the list take no time. -/
def after (e : Env K) (k : ℕ) (m : ℕ) : K := ends e (k * (m + 1) - 1)

/-! ### General -/

/-- **C349.** No run begins before its request, and no two runs of a task overlap. -/
theorem in_order (e : Env K) (hd : ∀ n, 0 ≤ e.delay n) (n : ℕ) : e.post n ≤ begins e n ∧ ends e n ≤ begins e (n + 1) := by
  refine ⟨?_, ?_⟩
  · cases n with
    | zero => have := hd 0; simp only [begins]; linarith
    | succ n =>
      have := hd (n + 1)
      have := le_max_left (e.post (n + 1)) (begins e n + e.dur n)
      simp only [begins]; linarith
  · have := hd (n + 1)
    have := le_max_right (e.post (n + 1)) (begins e n + e.dur n)
    simp only [begins, ends]; linarith

/-- **C349, exactly.** Without delays, run `n` begins at the largest of the times at which the thread could have come to it: request `j`, followed by all runs from
`j` on without a pause. -/
theorem begins_exact (e : Env K) (hd : ∀ n, e.delay n = 0) (n : ℕ) :
    IsGreatest {x | ∃ j ≤ n, x = e.post j + ∑ i ∈ Finset.Ico j n, e.dur i} (begins e n) := by
  induction n with
  | zero =>
    refine ⟨⟨0, le_refl _, by simp [begins, hd]⟩, ?_⟩
    rintro x ⟨j, hj, rfl⟩
    obtain rfl : j = 0 := by omega
    simp [begins, hd]
  | succ n ih =>
    obtain ⟨⟨j, hj, he⟩, hu⟩ := ih
    simp only [begins, hd, add_zero]
    refine ⟨?_, ?_⟩
    · rcases max_choice (e.post (n + 1)) (begins e n + e.dur n) with h | h
      · exact ⟨n + 1, le_refl _, by simp [h]⟩
      · exact ⟨j, by omega, by rw [h, he, Finset.sum_Ico_succ_top (by omega)]; ring⟩
    · rintro x ⟨i, hi, rfl⟩
      rcases Nat.lt_or_ge n i with h | h
      · obtain rfl : i = n + 1 := by omega
        simp
      · have := hu ⟨i, h, rfl⟩
        rw [Finset.sum_Ico_succ_top (by omega)]
        exact le_trans (by linarith) (le_max_right _ _)

/-! ### Enough time -/

/-- **C349, the part which holds, and how a delay is made up for.** Requests come at most `L` after the points `a + n T`, runs take at most `d` and begin at most
`w` after they could, and `d + w ≤ T`. If run `N` is late by `X`, the lateness of later runs shrinks by `T - d - w` with every run, until it is at most `L + w`. -/
theorem recovers (e : Env K) (a T L d w X : K) (N : ℕ) (hp : ∀ n, e.post n ≤ a + n * T + L) (hd : ∀ n, e.dur n ≤ d) (hw : ∀ n, e.delay n ≤ w) (ht : d + w ≤ T)
    (hN : begins e N ≤ a + N * T + X) (n : ℕ) : begins e (N + n) ≤ a + (N + n : ℕ) * T + max (L + w) (X - n * (T - d - w)) := by
  induction n with
  | zero =>
    have := le_max_right (L + w) (X - ((0 : ℕ) : K) * (T - d - w))
    simp only [Nat.cast_zero, zero_mul, sub_zero, Nat.add_zero] at this ⊢
    linarith
  | succ n ih =>
    have h1 := hp (N + n + 1)
    have h2 := hd (N + n)
    have h3 := hw (N + n + 1)
    have h4 := le_max_left (L + w) (X - ((n + 1 : ℕ) : K) * (T - d - w))
    have h5 := le_max_right (L + w) (X - ((n + 1 : ℕ) : K) * (T - d - w))
    rw [← Nat.add_assoc]
    simp only [begins]
    push_cast at *
    rcases max_choice (e.post (N + n + 1)) (begins e (N + n) + e.dur (N + n)) with h | h
    · rw [h]; linarith
    · rw [h]
      rcases max_choice (L + w) (X - (n : K) * (T - d - w)) with h' | h' <;> rw [h'] at ih <;> linarith

/-- **C349, the part which holds.** Under the same conditions every run begins at most `L + w` after its point. -/
theorem on_time_partial (e : Env K) (a T L d w : K) (hp : ∀ n, e.post n ≤ a + n * T + L) (hd : ∀ n, e.dur n ≤ d) (hw : ∀ n, e.delay n ≤ w) (ht : d + w ≤ T)
    (n : ℕ) : begins e n ≤ a + n * T + (L + w) := by
  have h := recovers e a T L d w (L + w) 0 hp hd hw ht (by have := hp 0; have := hw 0; simp only [begins, Nat.cast_zero, zero_mul] at *; linarith) n
  rw [Nat.zero_add] at h
  have h2 : max (L + w) (L + w - (n : K) * (T - d - w)) = L + w := by
    apply max_eq_left
    have : 0 ≤ (n : K) * (T - d - w) := mul_nonneg (Nat.cast_nonneg n) (by linarith)
    linarith
  rwa [h2] at h

/-! ### Not enough time -/

/-- **C349 is violated**: when every run takes at least `d`, the runs fall behind their requests by `d - T` with every run. -/
theorem falls_behind (e : Env K) (a T d : K) (hp : ∀ n, e.post n ≤ a + n * T) (hp0 : e.post 0 = a) (hd : ∀ n, d ≤ e.dur n) (hw : ∀ n, 0 ≤ e.delay n) (n : ℕ) :
    n * (d - T) ≤ begins e n - e.post n := by
  have h : ∀ n : ℕ, a + n * d ≤ begins e n := by
    intro n
    induction n with
    | zero => have := hw 0; simp only [begins, hp0]; push_cast; linarith
    | succ n ih =>
      have h1 := (in_order e hw n).2
      have h2 := hd n
      simp only [ends] at h1
      push_cast; linarith
  have h1 := h n
  have h2 := hp n
  linarith

/-- **C349, exactly.** With requests in a fixed distance, runs of constant duration and no delays, the lateness is bounded if and only if a run takes at most
the period; it is then zero. -/
theorem bounded_iff [Archimedean K] (a T d : K) : (∃ B, ∀ n, begins ⟨fun n => a + n * T, fun _ => d, fun _ => 0⟩ n - (a + n * T) ≤ B) ↔ d ≤ T := by
  constructor
  · rintro ⟨B, hB⟩
    by_contra h
    obtain ⟨n, hn⟩ := Archimedean.arch (B + 1) (sub_pos.2 (not_le.1 h))
    have h1 := falls_behind ⟨fun n => a + n * T, fun _ => d, fun _ => 0⟩ a T d (fun n => le_refl _) (by simp) (fun _ => le_refl _) (fun _ => le_refl _) n
    have h2 := hB n
    rw [nsmul_eq_mul] at hn
    simp only at h1
    linarith
  · intro h
    refine ⟨0, fun n => ?_⟩
    have := on_time_partial ⟨fun n => a + n * T, fun _ => d, fun _ => 0⟩ a T 0 d 0 (fun n => by simp) (fun _ => le_refl _) (fun _ => le_refl _) (by linarith) n
    linarith

/-! ### The distance of two runs -/

/-- **C350, the part which holds.** Runs with enough time begin between `T - L - w` and `T + L + w` after each other, and exactly `T` when neither
requests nor runs are delayed. -/
theorem distance_partial (e : Env K) (a T L d w : K) (h0 : ∀ n : ℕ, a + n * T ≤ e.post n) (hp : ∀ n, e.post n ≤ a + n * T + L) (hd : ∀ n, e.dur n ≤ d)
    (hw0 : ∀ n, 0 ≤ e.delay n) (hw : ∀ n, e.delay n ≤ w) (ht : d + w ≤ T) (n : ℕ) :
    T - (L + w) ≤ begins e (n + 1) - begins e n ∧ begins e (n + 1) - begins e n ≤ T + (L + w) := by
  have h1 := on_time_partial e a T L d w hp hd hw ht n
  have h2 := on_time_partial e a T L d w hp hd hw ht (n + 1)
  have h3 := (in_order e hw0 n).1
  have h4 := (in_order e hw0 (n + 1)).1
  have h5 := h0 n
  have h6 := h0 (n + 1)
  push_cast at h2 h6
  constructor <;> linarith

/-- **C350 is violated**: as long as a task is behind, its runs follow each other without a pause: the distance is the duration of the run, however short. -/
theorem squeezed_violated (e : Env K) (hw : ∀ n, e.delay n = 0) (n : ℕ) (h : e.post (n + 1) < begins e (n + 1)) : begins e (n + 1) - begins e n = e.dur n := by
  simp only [begins, hw, add_zero] at h ⊢
  rcases max_choice (e.post (n + 1)) (begins e n + e.dur n) with h' | h'
  · rw [h'] at h; exact absurd h (lt_irrefl _)
  · rw [h']; ring

/-- **C350 is violated**: one run which takes `r` periods and after it runs of duration `d`: the next ones are `d` apart as long as the delay lasts. -/
theorem burst_violated (a T d r : K) (hT : 0 < T) (hd : d ≤ T) (n : ℕ) (h : T + n * (T - d) ≤ r) :
    begins ⟨fun n => a + n * T, fun n => if n = 0 then r else d, fun _ => 0⟩ (n + 1) = a + r + n * d := by
  induction n with
  | zero => simp only [begins]; push_cast at *; rw [max_eq_right] <;> simp <;> linarith
  | succ n ih =>
    push_cast at h
    have h1 := ih (by linarith)
    rw [begins, h1]
    simp only [Nat.add_eq_zero_iff, one_ne_zero, and_false, if_false, add_zero]
    rw [max_eq_right]
    · push_cast; ring
    · push_cast; linarith

/-! ### Tasks registered after another one -/

/-- **C351.** The requests of a task registered after another one with divisor `k` come at most `L + w + d` after points `k T` apart, so that the theorems above
apply to it with these values: it begins at most `L + w + d + w'` after its point if its runs take at most `d'` and `d' + w' ≤ k T`. -/
theorem after_on_time (e c : Env K) (a T L d w d' w' : K) (k : ℕ) (hk : 0 < k) (hp : ∀ n, e.post n ≤ a + n * T + L) (hd : ∀ n, e.dur n ≤ d) (hw : ∀ n, e.delay n ≤ w)
    (ht : d + w ≤ T) (hc : ∀ m, c.post m = after e k m) (hd' : ∀ n, c.dur n ≤ d') (hw' : ∀ n, c.delay n ≤ w') (ht' : d' + w' ≤ k * T) (m : ℕ) :
    begins c m ≤ a + (k * (m + 1) - 1 : ℕ) * T + (L + w + d + w') := by
  have key : ∀ m : ℕ, ((k * (m + 1) - 1 : ℕ) : K) = (k : K) * m + (k - 1) := by
    intro m
    have : 1 ≤ k * (m + 1) := Nat.mul_pos hk (by omega)
    rw [Nat.cast_sub this]; push_cast; ring
  have h := on_time_partial c (a + (k - 1) * T) (k * T) (L + w + d) d' w' (fun n => by
    rw [hc, after, ends]
    have h1 := on_time_partial e a T L d w hp hd hw ht (k * (n + 1) - 1)
    have h2 := hd (k * (n + 1) - 1)
    rw [key] at h1
    linarith) hd' hw' ht' m
  rw [key]
  linarith

/-- **C351.** Run `m` of the later task begins after the end of run `k (m + 1) - 1` of the other one. -/
theorem after_order (e c : Env K) (k : ℕ) (hc : ∀ m, c.post m = after e k m) (hw : ∀ n, 0 ≤ c.delay n) (m : ℕ) : ends e (k * (m + 1) - 1) ≤ begins c m := by
  have := (in_order c hw m).1
  rwa [hc] at this

/-! ### Cases -/

/-- Tasks 1, 2 and 4 of PeriodicExample3.cpp:42-84: 0.8 s every second, after it in every second run 0.6 s, after this in every second run 0.4 s. -/
def task1 : Env ℚ := ⟨fun n => n, fun _ => 4 / 5, fun _ => 0⟩
def task2 : Env ℚ := ⟨after task1 2, fun _ => 3 / 5, fun _ => 0⟩
def task4 : Env ℚ := ⟨after task2 2, fun _ => 2 / 5, fun _ => 0⟩

example : (List.range 3).map (begins task1) = [0, 1, 2] ∧ (List.range 3).map (begins task2) = [9 / 5, 19 / 5, 29 / 5] ∧ (List.range 2).map (begins task4) = [22 / 5, 42 / 5] := by
  decide +kernel
example (m : ℕ) : begins task2 m ≤ 0 + (2 * (m + 1) - 1 : ℕ) * 1 + (0 + 0 + 4 / 5 + 0) :=
  after_on_time task1 task2 0 1 0 (4 / 5) 0 (3 / 5) 0 2 (by decide) (fun n => by simp [task1]) (fun _ => le_refl _) (fun _ => le_refl _) (by norm_num) (fun _ => rfl)
    (fun _ => le_refl _) (fun _ => le_refl _) (by norm_num) m
/-- A run of 3.5 s in a period of 1 s, the others take 0.5 s: four runs begin 0.5 s apart, then the delay is made up for. -/
example : (List.range 8).map (begins (⟨fun n => n, fun n => if n = 0 then 7 / 2 else 1 / 2, fun _ => 0⟩ : Env ℚ)) = [0, 7 / 2, 4, 9 / 2, 5, 11 / 2, 6, 7] := by decide +kernel
example : begins (⟨fun n => 0 + n * 1, fun n => if n = 0 then 7 / 2 else 1 / 2, fun _ => 0⟩ : Env ℚ) (4 + 1) = 0 + 7 / 2 + (4 : ℕ) * (1 / 2) :=
  burst_violated 0 1 (1 / 2) (7 / 2) (by norm_num) (by norm_num) 4 (by norm_num)
/-- Runs of 1.2 s in a period of 1 s: after 10 runs 2 s late. -/
example : begins (⟨fun n => n, fun _ => 6 / 5, fun _ => 0⟩ : Env ℚ) 10 - 10 = 2 := by decide +kernel
example : ¬ ∃ B : ℚ, ∀ n : ℕ, begins (⟨fun n => 0 + n * 1, fun _ => 6 / 5, fun _ => 0⟩ : Env ℚ) n - (0 + n * 1) ≤ B := fun h => absurd ((bounded_iff 0 1 (6 / 5)).1 h) (by norm_num)

end Verif.Core.TaskLate
