import Verif.Core.WindowsTime
import Mathlib.Data.List.Induction
import Mathlib.Algebra.Order.Ring.Rat
import Mathlib.Algebra.Order.Field.Rat
import Mathlib.Tactic.FieldSimp
import Mathlib.Tactic.Ring
import Mathlib.Tactic.Linarith
import Mathlib.Tactic.NormNum
/-!
C139: the time of `System::getTime` for Windows.
-/
namespace Verif.Core.WindowsTime

variable {K : Type} [Field K] [LinearOrder K] [IsStrictOrderedRing K]

theorem run_snoc (f : K) (s : St K) (l : List (Nat × K)) (x : Nat × K) : run f s (l ++ [x]) = step f (run f s l) x := by simp [run]

theorem run_append (f : K) (s : St K) (l m : List (Nat × K)) : run f s (l ++ m) = run f (run f s l) m := by simp [run]

theorem result_eq (f o t : K) (hf : 0 < f) : result o (f / 1000000000) t = some ((t - o) / f) := by
  have h : f / 1000000000 ≠ 0 := by positivity
  unfold result
  rw [if_neg h]
  congr 1
  field_simp

/-- The first call, by a thread alone: zero at the time of the first query of the counter. -/
def firstCall (i : Nat) (a b c d q e : K) : List (Nat × K) := [(i, a), (i, b), (i, c), (i, q), (i, d), (i, e)]

structure Ready (f o : K) (s : St K) : Prop where
  init : s.initialized = true
  off : s.offset = o
  sc : s.scale = f / 1000000000
  pcs : ∀ i, s.pc i = .start ∨ s.pc i = .query

theorem first_call (f : K) (hf : 0 < f) (i : Nat) (a b c d q e : K) :
    Ready f q (run f new (firstCall i a b c d q e)) ∧ (run f new (firstCall i a b c d q e)).log = [(i, e, some ((e - q) / f))] := by
  have hr := result_eq f q e hf
  refine ⟨⟨?_, ?_, ?_, ?_⟩, ?_⟩
  · simp [run, firstCall, step, new, St.goto]
  · simp [run, firstCall, step, new, St.goto]
  · simp [run, firstCall, step, new, St.goto]
  · intro j
    by_cases h : j = i <;> simp [run, firstCall, step, new, St.goto, h]
  · simp [run, firstCall, step, new, St.goto, hr]

theorem ready_run (f o : K) (hf : 0 < f) (s : St K) (h : Ready f o s) (l : List (Nat × K)) :
    Ready f o (run f s l) ∧ ∃ m, (run f s l).log = s.log ++ m ∧ (∀ x ∈ m, x.2.2 = some ((x.2.1 - o) / f)) ∧ (m.map (fun x => (x.1, x.2.1))).Sublist l := by
  induction l using List.reverseRecOn with
  | nil => exact ⟨h, [], by simp [run], by simp, by simp⟩
  | append_singleton l x ih =>
    obtain ⟨hr, m, hm, hv, hs⟩ := ih
    rw [run_snoc]
    generalize run f s l = s' at hr hm
    rcases hr.pcs x.1 with hp | hp
    · have he : step f s' x = s'.goto x.1 .query := by simp [step, hp, hr.init]
      rw [he]
      refine ⟨⟨hr.init, hr.off, hr.sc, ?_⟩, m, hm, hv, hs.trans (List.sublist_append_left _ _)⟩
      intro i
      by_cases hi : i = x.1
      · right; simp [St.goto, hi]
      · have := hr.pcs i; simpa [St.goto, hi] using this
    · have he : step f s' x = { s' with log := s'.log ++ [(x.1, x.2, result s'.offset s'.scale x.2)] }.goto x.1 .start := by simp [step, hp]
      rw [he]
      refine ⟨⟨hr.init, hr.off, hr.sc, ?_⟩, m ++ [(x.1, x.2, result s'.offset s'.scale x.2)], ?_, ?_, ?_⟩
      · intro i
        by_cases hi : i = x.1
        · left; simp [St.goto, hi]
        · have := hr.pcs i; simpa [St.goto, hi] using this
      · simp [St.goto, hm]
      · intro y hy
        simp only [List.mem_append, List.mem_singleton] at hy
        rcases hy with hy | rfl
        · exact hv y hy
        · simp only [hr.off, hr.sc]; exact result_eq f o _ hf
      · rw [List.map_append]
        exact hs.append (by simp)

/-- If one thread finishes its first call before any other thread calls `getTime`, every later call, by any number of threads and however they are interleaved,
returns the seconds since the first call, exactly. -/
theorem time_exact_partial (f : K) (hf : 0 < f) (i : Nat) (a b c d q e : K) (l : List (Nat × K)) :
    ∀ x ∈ (run f new (firstCall i a b c d q e ++ l)).log, x.2.2 = some ((x.2.1 - q) / f) := by
  obtain ⟨h1, h2⟩ := first_call f hf i a b c d q e
  rw [run_append]
  obtain ⟨_, m, hm, hv, _⟩ := ready_run f q hf _ h1 l
  intro x hx
  rw [hm, h2] at hx
  simp only [List.mem_append, List.mem_singleton] at hx
  rcases hx with rfl | hx
  · rfl
  · exact hv x hx

/-- Under the same condition the time never runs backwards and is never negative, if the counter does not run backwards: the results of the calls, in the order of
their queries, do not decrease. -/
theorem time_monotone_partial (f : K) (hf : 0 < f) (i : Nat) (a b c d q e : K) (l : List (Nat × K))
    (ht : ((firstCall i a b c d q e ++ l).map Prod.snd).Pairwise (· ≤ ·)) :
    ∃ v : List K, (run f new (firstCall i a b c d q e ++ l)).log.map (fun x => x.2.2) = v.map some ∧ v.Pairwise (· ≤ ·) ∧ ∀ t ∈ v, 0 ≤ t := by
  obtain ⟨h1, h2⟩ := first_call f hf i a b c d q e
  obtain ⟨_, m, hm, hv, hs⟩ := ready_run f q hf _ h1 l
  rw [run_append, hm, h2]
  refine ⟨((i, e, some ((e - q) / f)) :: m).map (fun x => (x.2.1 - q) / f), ?_, ?_, ?_⟩
  · simp only [List.singleton_append, List.map_cons, List.map_map, List.cons.injEq, true_and]
    apply List.map_congr_left
    intro x hx
    exact hv x hx
  all_goals
    have hq : (firstCall i a b c d q e ++ l).map Prod.snd = [a, b, c, q, d] ++ (e :: l.map Prod.snd) := by simp [firstCall]
    rw [hq, List.pairwise_append] at ht
    have hsub : (((i, e, some ((e - q) / f)) :: m).map (fun x => x.2.1)).Sublist (e :: l.map Prod.snd) := by
      have := hs.map Prod.snd
      simp only [List.map_map] at this
      exact List.Sublist.cons_cons e this
  · have hp := ht.2.1.sublist hsub
    rw [List.pairwise_map] at hp ⊢
    refine hp.imp ?_
    intro x y hxy
    exact div_le_div_of_nonneg_right (by linarith) hf.le
  · intro t htm
    rw [List.mem_map] at htm
    obtain ⟨x, hx, rfl⟩ := htm
    have := ht.2.2 q (by simp) x.2.1 (hsub.subset (List.mem_map_of_mem hx))
    exact div_nonneg (by linarith) hf.le

/-- Violated with two threads: `initialized` is set before the other variables, the second thread divides by zero, whatever the counter and the frequency are. -/
theorem division_violated (f : K) (a b t u : K) : (run f new [(0, a), (0, b), (1, t), (1, u)]).log = [(1, u, none)] := by
  simp [run, step, new, St.goto, result]

/-- Violated with two threads: both store the offset, the time runs backwards though the counter does not. -/
theorem backwards_violated (f : K) (hf : 0 < f) (a q t u w : K) (hq : w - u < t - q) :
    ∃ x y, (run f new [(1, a), (0, a), (0, a), (0, a), (0, q), (0, q), (0, t), (1, t), (1, t), (1, u), (1, u), (0, u), (0, w)]).log =
      [(0, t, some x), (0, w, some y)] ∧ y < x := by
  refine ⟨(t - q) / f, (w - u) / f, ?_, div_lt_div_of_pos_right hq hf⟩
  have h1 := result_eq f q t hf
  have h2 := result_eq f u w hf
  simp [run, step, new, St.goto, h1, h2]

/-- Case of `time_exact_partial` and `time_monotone_partial`: a counter of 10 MHz. -/
example : ((firstCall 0 1 2 3 5 4 (6 : ℚ) ++ [(1, 10), (2, 11), (2, 20000004), (1, 30000004)]).map Prod.snd).Pairwise (· ≤ ·) ∧
    (run 10000000 new (firstCall 0 1 2 3 5 4 (6 : ℚ) ++ [(1, 10), (2, 11), (2, 20000004), (1, 30000004)])).log =
      [(0, 6, some (1 / 5000000)), (2, 20000004, some 2), (1, 30000004, some 3)] := by
  constructor
  · simp [firstCall]; norm_num
  · simp [run, firstCall, step, new, St.goto, result]; norm_num

/-- Case of `backwards_violated`. -/
example : (31 : ℚ) - 30 < 20 - 10 ∧ (0 : ℚ) ≤ 10 ∧ (10 : ℚ) ≤ 20 ∧ (20 : ℚ) ≤ 30 ∧ (30 : ℚ) ≤ 31 := by norm_num

/-- Case of `time_exact_partial`. -/
example := time_exact_partial (10000000 : ℚ) (by norm_num) 0 1 2 3 5 4 6 [(1, 10), (2, 11), (2, 20000004), (1, 30000004)]

end Verif.Core.WindowsTime
