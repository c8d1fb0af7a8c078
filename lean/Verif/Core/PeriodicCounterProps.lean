import Verif.Core.PeriodicCounter
import Verif.Core.StatisticsProps
import Mathlib.Data.Rat.Floor
import Mathlib.Algebra.Order.Floor.Ring
set_option linter.unusedSectionVars false
namespace Verif.Core.PeriodicCounter

variable {K : Type} [Field K] [LinearOrder K] [IsStrictOrderedRing K]

/-! ### Specification -/

/-- The calls of the executor (Executor.cpp:366, 370) or of an asynchronous thread (Async.cpp:60, 62) in cycles which begin
and end at the given times. -/
def calls : List (K × K) → List (Op K)
  | [] => []
  | c :: cs => .tick c.1 :: .tock c.2 :: calls cs

/-- The run times of the cycles. -/
def runTimes (l : List (K × K)) : List K := l.map (fun c => c.2 - c.1)

/-- The distances between the beginnings of consecutive cycles. -/
def distances : List (K × K) → List K
  | c :: d :: l => (d.1 - c.1) :: distances (d :: l)
  | _ => []

/-- The statistics of a sample (their meaning is C21, `statistics_true`). -/
def statOf (M : K) (l : List K) : Statistics.St K := Statistics.exec M (l.map .add)

/-! ### C84 -/

theorem exec_later (M : K) (p : K × K) (l : List (K × K)) (s : St K) (hf : s.first = false) (hs : s.start = p.1) :
    let f := exec M s (calls l)
    f.run = (runTimes l).foldl Statistics.add s.run ∧
    f.period = (distances (p :: l)).foldl Statistics.add s.period ∧
    f.jitter = ((distances (p :: l)).map (· - s.counterPeriod)).foldl Statistics.add s.jitter ∧
    f.monitored = (distances (p :: l)).reverse ++ s.monitored ∧ f.first = false ∧ f.counterPeriod = s.counterPeriod ∧
    f.start = ((p :: l).getLast (by simp)).1 := by
  induction l generalizing p s with
  | nil => simp [calls, exec, runTimes, distances, hf, hs]
  | cons c l ih =>
    have e : exec M s (calls (c :: l)) = exec M (step M (step M s (.tick c.1)) (.tock c.2)) (calls l) := rfl
    have e2 : step M (step M s (.tick c.1)) (.tock c.2) =
        { s with last := s.start, start := c.1, run := Statistics.add s.run (c.2 - c.1),
                 period := Statistics.add s.period (c.1 - p.1),
                 jitter := Statistics.add s.jitter (c.1 - p.1 - s.counterPeriod),
                 monitored := (c.1 - p.1) :: s.monitored } := by
      simp [step, hf, hs]
    obtain ⟨h1, h2, h3, h4, h5, h6, h7⟩ := ih c (step M (step M s (.tick c.1)) (.tock c.2)) (by simp [e2, hf]) (by simp [e2])
    simp only [e]
    rw [e2] at h1 h2 h3 h4 h5 h6 h7 ⊢
    refine ⟨by simpa [runTimes] using h1, by simpa [distances] using h2, by simpa [distances] using h3,
      by simp [distances, h4], h5, h6, by simpa using h7⟩

theorem statOf_eq (M : K) (l : List K) : statOf M l = l.foldl Statistics.add (Statistics.reset M) := by
  simp only [statOf, Statistics.exec, List.foldl_map, Statistics.step]

/-- **C84.** For every sequence of cycles at whatever times, after the period was set: the three statistics are those of the run
times of all cycles, of the distances between consecutive beginnings, and of their deviations from the nominal period; and the
monitors were called for every distance, in order. -/
theorem counter_true (M T0 T now : K) (l : List (K × K)) :
    let s := exec M (init M T0 now) (.setPeriod T :: calls l)
    s.run = statOf M (runTimes l) ∧ s.period = statOf M (distances l) ∧
    s.jitter = statOf M ((distances l).map (· - T)) ∧ s.monitored.reverse = distances l := by
  simp only [statOf_eq]
  cases l with
  | nil => simp [exec, calls, step, init, runTimes, distances]
  | cons c l =>
    have e : exec M (init M T0 now) (.setPeriod T :: calls (c :: l)) =
      exec M (step M (step M (step M (init M T0 now) (.setPeriod T)) (.tick c.1)) (.tock c.2)) (calls l) := rfl
    obtain ⟨h1, h2, h3, h4, _⟩ := exec_later M c l
      (step M (step M (step M (init M T0 now) (.setPeriod T)) (.tick c.1)) (.tock c.2)) (by simp [step, init]) (by simp [step, init])
    simp only [e]
    refine ⟨?_, ?_, ?_, ?_⟩
    · rw [h1]; simp [step, init, runTimes]
    · rw [h2]; simp [step, init]
    · rw [h3]; simp [step, init]
    · rw [h4]; simp [step, init]

/-- **C84, reset.** After a reset between two cycles only later cycles count; the first distance is that to the last cycle
before the reset. -/
theorem counter_reset (M T now : K) (l1 l2 : List (K × K)) (p : K × K) :
    let s := exec M (init M T now) (calls (l1 ++ [p]) ++ .reset :: calls l2)
    s.run = statOf M (runTimes l2) ∧ s.period = statOf M (distances (p :: l2)) ∧
    s.jitter = statOf M ((distances (p :: l2)).map (· - T)) := by
  simp only [statOf_eq]
  have e : exec M (init M T now) (calls (l1 ++ [p]) ++ .reset :: calls l2) =
      exec M (step M (exec M (init M T now) (calls (l1 ++ [p]))) .reset) (calls l2) := by
    simp [exec, List.foldl_append]
  have hpre : (exec M (init M T now) (calls (l1 ++ [p]))).first = false ∧
      (exec M (init M T now) (calls (l1 ++ [p]))).start = p.1 ∧
      (exec M (init M T now) (calls (l1 ++ [p]))).counterPeriod = T := by
    cases l1 with
    | nil => simp [exec, calls, step, init]
    | cons c l1 =>
      obtain ⟨_, _, _, _, h5, h6, h7⟩ := exec_later M c (l1 ++ [p])
        (step M (step M (init M T now) (.tick c.1)) (.tock c.2)) (by simp [step, init]) (by simp [step, init])
      refine ⟨h5, ?_, ?_⟩
      · refine h7.trans ?_
        simp
      · refine h6.trans ?_
        simp [step, init]
  obtain ⟨g1, g2, g3⟩ := hpre
  obtain ⟨h1, h2, h3, _⟩ := exec_later M p l2 (step M (exec M (init M T now) (calls (l1 ++ [p]))) .reset)
    (by simpa [step] using g1) (by simpa [step] using g2)
  simp only [e]
  refine ⟨h1, h2, ?_⟩
  rw [h3]; simp [step, g3]

theorem distances_sum (c : K × K) (l : List (K × K)) :
    (distances (c :: l)).sum = ((c :: l).getLast (by simp)).1 - c.1 ∧ (distances (c :: l)).length = l.length := by
  induction l generalizing c with
  | nil => simp [distances]
  | cons d l ih =>
    obtain ⟨h1, h2⟩ := ih d
    simp only [distances, List.sum_cons, List.length_cons, h1, h2]
    refine ⟨?_, trivial⟩
    rw [List.getLast_cons (List.cons_ne_nil d l) (a := c)]
    ring

theorem sum_map_sub (l : List K) (T : K) : (l.map (· - T)).sum = l.sum - l.length * T := by
  induction l with
  | nil => simp
  | cons a l ih => simp [ih]; ring

/-- **C84, mean.** The mean period reported after n + 1 ≥ 2 cycles is the time from the first beginning to the last divided by n,
the mean jitter is its deviation from the nominal period, and the number of samples is n (n + 1 for the run time). -/
theorem mean_period (M T0 T now : K) (c d : K × K) (l : List (K × K))
    (hM : ∀ x ∈ distances (c :: d :: l), -M ≤ x ∧ x ≤ M) (hM' : ∀ x ∈ distances (c :: d :: l), -M ≤ x - T ∧ x - T ≤ M) :
    let s := exec M (init M T0 now) (.setPeriod T :: calls (c :: d :: l))
    s.period.count = l.length + 1 ∧ s.run.count = l.length + 2 ∧
    s.period.mean = (((d :: l).getLast (by simp)).1 - c.1) / (l.length + 1) ∧
    s.jitter.mean = s.period.mean - T := by
  intro s
  obtain ⟨h1, h2, h3, _⟩ := counter_true M T0 T now (c :: d :: l)
  have hs : ∀ (l acc : List K), Statistics.sample (l.map .add) acc = acc ++ l := by
    intro l
    induction l with
    | nil => simp [Statistics.sample]
    | cons a l ih => intro acc; simp [Statistics.sample, ih]
  obtain ⟨g1, g2⟩ := distances_sum c (d :: l)
  have hne : distances (c :: d :: l) ≠ [] := by simp [distances]
  have hP := Statistics.rel_exec M ((distances (c :: d :: l)).map .add) (by
    intro v hv; obtain ⟨w, hw, hw2⟩ := List.mem_map.1 hv; cases hw2; exact hM _ hw)
  have hJ := Statistics.rel_exec M (((distances (c :: d :: l)).map (· - T)).map .add) (by
    intro v hv
    obtain ⟨w, hw, hw2⟩ := List.mem_map.1 hv; cases hw2
    obtain ⟨u, hu, rfl⟩ := List.mem_map.1 hw
    exact hM' u hu)
  rw [hs, List.nil_append] at hP hJ
  have eP : s.period = Statistics.exec M ((distances (c :: d :: l)).map .add) := h2
  have eJ : s.jitter = Statistics.exec M (((distances (c :: d :: l)).map (· - T)).map .add) := h3
  have hcount : ∀ (l : List K) (s : Statistics.St K), (l.foldl Statistics.add s).count = s.count + l.length := by
    intro l
    induction l with
    | nil => simp
    | cons a l ih => intro s; simp only [List.foldl_cons, ih, List.length_cons, Statistics.add]; omega
  have hpos : ((l.length : K) + 1) ≠ 0 := by positivity
  refine ⟨?_, ?_, ?_, ?_⟩
  · rw [eP, hP.count, g2]; simp
  · have : s.run = statOf M (runTimes (c :: d :: l)) := h1
    rw [this, statOf_eq, hcount]; simp [Statistics.reset, runTimes]
  · rw [eP, hP.mean hne, g1, g2]
    simp
  · rw [eJ, eP, hP.mean hne, hJ.mean (by simpa using hne), sum_map_sub, List.length_map, g2]
    have : (((d :: l).length : Nat) : K) ≠ 0 := by simpa using hpos
    field_simp

/-- **C84, monitor.** The default monitor warns exactly if the last period deviates from the nominal one by more than the
tolerance, in either direction. -/
theorem warns_iff (period tolerance t : K) : warns period tolerance t = true ↔ tolerance * period < |t - period| := by
  simp only [warns, decide_eq_true_eq, lt_abs]
  constructor
  · rintro (h | h)
    · right; linarith
    · left; linarith
  · rintro (h | h)
    · right; linarith
    · left; linarith

/-- The conversion in line 55 is defined exactly for a period which is not zero and not too small compared to the reset time. -/
theorem resetCounter_defined [FloorRing K] (resetAfter p : K) :
    (resetCounter resetAfter p).isSome ↔ p ≠ 0 ∧ -2147483649 < resetAfter / p ∧ resetAfter / p < 2147483648 := by
  unfold resetCounter
  by_cases hp : p = 0
  · simp [hp]
  · simp only [hp, if_false, ne_eq, not_false_eq_true, true_and]
    by_cases hq : 0 ≤ resetAfter / p
    · have h0 : 0 ≤ ⌊resetAfter / p⌋ := Int.floor_nonneg.2 hq
      have h1 : ⌊resetAfter / p⌋ ≤ 2147483647 ↔ resetAfter / p < 2147483648 := by
        rw [← Int.lt_add_one_iff, Int.floor_lt]; norm_num
      simp only [hq, if_true, h1]
      constructor
      · intro h
        split at h
        · rename_i hh; exact ⟨by linarith, hh.2⟩
        · simp at h
      · intro h
        rw [if_pos ⟨by omega, h.2⟩]; rfl
    · have hq' : resetAfter / p < 0 := not_le.1 hq
      have h0 : 0 ≤ ⌊-(resetAfter / p)⌋ := Int.floor_nonneg.2 (by linarith)
      have h1 : -2147483648 ≤ -⌊-(resetAfter / p)⌋ ↔ -2147483649 < resetAfter / p := by
        rw [neg_le_neg_iff, ← Int.lt_add_one_iff, Int.floor_lt]; push_cast
        constructor <;> intro h <;> linarith
      simp only [hq, if_false, h1]
      constructor
      · intro h
        split at h
        · rename_i hh; exact ⟨hh.1, by linarith⟩
        · simp at h
      · intro h
        rw [if_pos ⟨h.1, by omega⟩]; rfl

/-- **C84, violated.** The default constructor, used for the counters of the executor and of every thread, has period 0:
the conversion of infinity to `int` in line 55 is undefined. -/
theorem default_undefined [FloorRing K] : resetCounter (20 : K) 0 = none := by simp [resetCounter]

/-- Non-vacuity: three cycles of nominal period 1. -/
example :
    let s := exec (1000 : ℚ) (init 1000 0 0) (.setPeriod 1 :: calls [(5, 5.25), (6, 6.5), (8, 8.25)])
    s.run.count = 3 ∧ s.period.count = 2 ∧ s.period.mean = 3/2 ∧ s.jitter.mean = 1/2 ∧ s.period.max = 2 ∧
    s.monitored = [2, 1] ∧ warns (1 : ℚ) (1/20) 2 = true ∧ warns (1 : ℚ) (1/20) 1 = false ∧
    resetCounter (20 : ℚ) (1/1000) = some 20000 := by
  decide +kernel

/-- Case of `mean_period`. -/
example := mean_period (1000 : ℚ) 0 1 0 (5, 5.25) (6, 6.5) [(8, 8.25)] (by decide +kernel) (by decide +kernel)

end Verif.Core.PeriodicCounter
