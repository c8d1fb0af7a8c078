import Verif.Control.Filters
import Mathlib.Tactic.Linarith
import Mathlib.Tactic.NormNum
import Mathlib.Tactic.Ring
namespace Verif.Control.Filters
variable {K : Type} [Field K] [LinearOrder K] [IsStrictOrderedRing K]

/-- Specification: the last `N` samples, oldest first, preceded by zeros before the start. -/
def window (N : Nat) (xs : List K) : List K := (List.replicate N 0 ++ xs).drop xs.length

theorem window_length (N : Nat) (xs : List K) : (window N xs).length = N := by simp [window]

/-- With at least `N` samples the window consists of samples only. -/
theorem window_full (N : Nat) (xs : List K) (h : N ≤ xs.length) : window N xs = xs.drop (xs.length - N) := by
  unfold window
  rw [List.drop_append, List.drop_eq_nil_of_le (by simpa using h), List.nil_append, List.length_replicate]


example : window 2 [(5 : ℚ), 7, 9] = [7, 9] := window_full 2 [5, 7, 9] (by decide)

theorem window_snoc (N : Nat) (hN : 1 ≤ N) (xs : List K) (x : K) : window N (xs ++ [x]) = (window N xs).tail ++ [x] := by
  unfold window
  rw [List.tail_drop, ← List.append_assoc, List.drop_append_of_le_length (by simp; omega)]
  simp

namespace Median

theorem shift_eq (a : Nat → K) (n : Nat) : shift a n = fun j => if j < n then a (j+1) else a j := by
  induction n with
  | zero => funext j; simp [shift]
  | succ n ih =>
    funext j
    simp only [shift, ih, upd]
    by_cases h : j = n
    · subst h; simp
    · rw [if_neg h]
      by_cases h2 : j < n
      · rw [if_pos h2, if_pos (by omega)]
      · rw [if_neg h2, if_neg (by omega)]

theorem range_map_tail (a : Nat → K) (N : Nat) : ((List.range N).map a).tail = (List.range (N - 1)).map (fun j => a (j+1)) := by
  cases N with
  | zero => rfl
  | succ N => rw [List.range_succ_eq_map]; simp [Function.comp_def]

theorem shift_values (a : Nat → K) (N : Nat) (hN : 1 ≤ N) (x : K) :
    (List.range N).map (upd (shift a (N-1)) (N-1) x) = ((List.range N).map a).tail ++ [x] := by
  rw [range_map_tail]
  obtain ⟨M, rfl⟩ : ∃ M, N = M + 1 := ⟨N - 1, by omega⟩
  rw [List.range_succ, List.map_append]
  simp only [Nat.add_sub_cancel, shift_eq]
  congr 1
  · apply List.map_congr_left
    intro j hj
    have : j < M := by simpa using hj
    simp [upd, this, show j ≠ M by omega]
  · simp [upd]

/-- The samples of a history. -/
def inputs : List (Op K) → List K
  | [] => []
  | .run x :: ops => x :: inputs ops
  | .enable :: ops => inputs ops
  | .disable :: ops => inputs ops

theorem exec_values (N : Nat) (hN : 1 ≤ N) (ops : List (Op K)) :
    (exec (new N) ops).N = N ∧ values (exec (new N) ops) = window N (inputs ops) := by
  suffices H : ∀ (ops : List (Op K)) (s : St K) (xs : List K), s.N = N → values s = window N xs →
      (exec s ops).N = N ∧ values (exec s ops) = window N (xs ++ inputs ops) by
    refine H ops (new N) [] rfl ?_
    simp only [values, new, window, List.length_nil, List.drop_zero, List.append_nil]
    exact List.ext_getElem (by simp) (by intro i h1 h2; simp)
  intro ops
  induction ops with
  | nil => intro s xs h1 h2; exact ⟨h1, by simpa [exec, inputs] using h2⟩
  | cons op ops ih =>
    intro s xs h1 h2
    cases op with
    | run x =>
      have := ih (run s x).1 (xs ++ [x]) h1 (by
        rw [window_snoc N hN, ← h2]
        simp only [values, run, h1]
        exact shift_values s.cur N hN x)
      simpa [exec, inputs, step] using this
    | enable => exact ih { s with enabled := true } xs h1 h2
    | disable => exact ih { s with enabled := false } xs h1 h2

/-- **C35.** For every window length and every history: while enabled the filter outputs an element of the window of the last `N` samples
which has (itself included) at least `N/2 + 1` samples of the window not larger and at least `N - N/2` not smaller. -/
theorem median_of_window (N : Nat) (hN : 1 ≤ N) (ops : List (Op K)) (x : K) (hen : (exec (new N) ops).enabled = true) :
    ∃ m, (run (exec (new N) ops) x).2 = some m ∧ m ∈ window N (inputs ops ++ [x]) ∧
      N / 2 + 1 ≤ ((window N (inputs ops ++ [x])).filter (fun y => decide (y ≤ m))).length ∧
      N - N / 2 ≤ ((window N (inputs ops ++ [x])).filter (fun y => decide (m ≤ y))).length := by
  obtain ⟨hn, hv⟩ := exec_values N hN ops
  generalize hs : exec (new N) ops = s at *
  have hw : values (run s x).1 = window N (inputs ops ++ [x]) := by
    rw [window_snoc N hN, ← hv]
    simp only [values, run, hn]
    exact shift_values s.cur N hN x
  generalize hwd : window N (inputs ops ++ [x]) = w at *
  have hwl : w.length = N := by rw [← hwd, window_length]
  have hout : (run s x).2 = (w.mergeSort (fun a b => decide (a ≤ b)))[N / 2]? := by
    rw [← hw]; simp only [run, hen, if_true, hn]
  have hperm := List.mergeSort_perm w (fun a b => decide (a ≤ b))
  have hsorted := List.pairwise_mergeSort (le := fun (a b : K) => decide (a ≤ b))
    (by intro a b c; simp only [decide_eq_true_eq]; exact le_trans) (by intro a b; simpa using le_total a b) w
  generalize w.mergeSort (fun a b => decide (a ≤ b)) = l at *
  have hl : l.length = N := by rw [hperm.length_eq, hwl]
  have hlt : N / 2 < l.length := by omega
  refine ⟨l[N/2], by rw [hout, List.getElem?_eq_getElem hlt], hperm.mem_iff.1 (List.getElem_mem hlt), ?_, ?_⟩
  · rw [← List.countP_eq_length_filter, ← hperm.countP_eq]
    have hle : ∀ i (hi : i < l.length), i ≤ N/2 → l[i] ≤ l[N/2] := by
      intro i hi h
      rcases Nat.lt_or_ge i (N/2) with h' | h'
      · simpa using List.pairwise_iff_getElem.1 hsorted i (N/2) hi hlt h'
      · have : i = N/2 := by omega
        subst this; exact le_refl _
    generalize l[N/2] = m at hle
    rw [← List.take_append_drop (N/2+1) l, List.countP_append]
    have : (l.take (N/2+1)).countP (fun y => decide (y ≤ m)) = N/2+1 := by
      rw [List.countP_eq_length.2]
      · rw [List.length_take]; omega
      · intro y hy
        obtain ⟨i, hi, rfl⟩ := List.getElem_of_mem hy
        rw [List.length_take] at hi
        simp only [List.getElem_take, decide_eq_true_eq]
        exact hle i (by omega) (by omega)
    omega
  · rw [← List.countP_eq_length_filter, ← hperm.countP_eq]
    have hge : ∀ i (hi : i < l.length), N/2 ≤ i → l[N/2] ≤ l[i] := by
      intro i hi h
      rcases Nat.lt_or_ge (N/2) i with h' | h'
      · simpa using List.pairwise_iff_getElem.1 hsorted (N/2) i hlt hi h'
      · have : i = N/2 := by omega
        subst this; exact le_refl _
    generalize l[N/2] = m at hge
    rw [← List.take_append_drop (N/2) l, List.countP_append]
    have : (l.drop (N/2)).countP (fun y => decide (m ≤ y)) = N - N/2 := by
      rw [List.countP_eq_length.2]
      · rw [List.length_drop]; omega
      · intro y hy
        obtain ⟨i, hi, rfl⟩ := List.getElem_of_mem hy
        rw [List.length_drop] at hi
        simp only [List.getElem_drop, decide_eq_true_eq]
        exact hge (N/2+i) (by omega) (by omega)
    omega

/-- Disabled, the filter passes its input and still collects samples (see `exec_values`). -/
theorem disabled_passes (s : St K) (x : K) (h : s.enabled = false) : (run s x).2 = some x := by simp [run, h]

example : (run (exec (new 3 : St ℚ) [.run 5, .disable, .run 1, .enable]) 9).2 = some 5 := by
  norm_num [exec, step, run, new, shift, upd, values, List.mergeSort, List.merge, List.range, List.range.loop,
    List.MergeSort.Internal.splitInTwo]
example : (run (exec (new 3 : St ℚ) [.run 5]) 9).2 = some 5 := by
  norm_num [exec, step, run, new, shift, upd, values, List.mergeSort, List.merge, List.range, List.range.loop,
    List.MergeSort.Internal.splitInTwo]

end Median

namespace MovingAverage

theorem loop_eq (c prev : Nat → K) (r : K) (n : Nat) :
    loop c prev r n = (Median.shift prev n, r + ((List.range n).map (fun i => c i * prev (i+1))).sum) := by
  induction n with
  | zero => simp [loop, Median.shift]
  | succ n ih =>
    simp only [loop, ih, Median.shift, List.range_succ, List.map_append, List.sum_append, List.map_cons, List.map_nil, List.sum_singleton]
    rw [Median.shift_eq]
    simp [upd, add_assoc]

/-- The samples of a history. -/
def inputs : List (Op K) → List K
  | [] => []
  | .run x :: ops => x :: inputs ops
  | .enable :: ops => inputs ops
  | .disable :: ops => inputs ops

theorem run_values (s : St K) (N : Nat) (hN : 1 ≤ N) (h1 : s.N = N) (x : K) :
    (List.range N).map (run s x).1.prev = ((List.range N).map s.prev).tail ++ [x] := by
  simp only [run, h1, loop_eq]
  exact Median.shift_values s.prev N hN x

theorem exec_values (N : Nat) (hN : 1 ≤ N) (c : Nat → K) (ops : List (Op K)) :
    (exec (new N c) ops).N = N ∧ (exec (new N c) ops).c = c ∧
      (List.range N).map (exec (new N c) ops).prev = window N (inputs ops) := by
  suffices H : ∀ (ops : List (Op K)) (s : St K) (xs : List K), s.N = N → s.c = c → (List.range N).map s.prev = window N xs →
      (exec s ops).N = N ∧ (exec s ops).c = c ∧ (List.range N).map (exec s ops).prev = window N (xs ++ inputs ops) by
    refine H ops (new N c) [] rfl rfl ?_
    simp only [new, window, List.length_nil, List.drop_zero, List.append_nil]
    exact List.ext_getElem (by simp) (by intro i h1 h2; simp)
  intro ops
  induction ops with
  | nil => intro s xs h1 h2 h3; exact ⟨h1, h2, by simpa [exec, inputs] using h3⟩
  | cons op ops ih =>
    intro s xs h1 h2 h3
    cases op with
    | run x =>
      have := ih (run s x).1 (xs ++ [x]) h1 h2 (by rw [window_snoc N hN, ← h3]; exact run_values s N hN h1 x)
      simpa [exec, inputs, step] using this
    | enable => exact ih { s with enabled := true } xs h1 h2 h3
    | disable => exact ih { s with enabled := false } xs h1 h2 h3

theorem zip_tail_sum (c prev : Nat → K) (x : K) (M : Nat) :
    (List.zipWith (· * ·) ((List.range (M+1)).map c) (((List.range (M+1)).map prev).tail ++ [x])).sum =
      c M * x + ((List.range M).map (fun i => c i * prev (i+1))).sum := by
  rw [Median.range_map_tail, Nat.add_sub_cancel, List.range_succ, List.map_append, List.zipWith_append (by simp)]
  rw [List.zipWith_map, List.zipWith_self]
  simp [add_comm]

/-- **C36, moving average.** For every number of coefficients and every history the enabled filter outputs the sum of the products of the
coefficients with the last `N` samples, the last coefficient belonging to the newest sample. -/
theorem moving_average (N : Nat) (hN : 1 ≤ N) (c : Nat → K) (ops : List (Op K)) (x : K) (hen : (exec (new N c) ops).enabled = true) :
    (run (exec (new N c) ops) x).2 = (List.zipWith (· * ·) ((List.range N).map c) (window N (inputs ops ++ [x]))).sum := by
  obtain ⟨h1, h2, h3⟩ := exec_values N hN c ops
  rw [window_snoc N hN, ← h3]
  obtain ⟨M, rfl⟩ : ∃ M, N = M + 1 := ⟨N - 1, by omega⟩
  rw [zip_tail_sum]
  simp only [run, hen, if_true, h1, h2, loop_eq, Nat.add_sub_cancel]

theorem weighted_bounds (lo hi : K) : ∀ (c w : List K), c.length = w.length → (∀ y ∈ c, 0 ≤ y) → (∀ y ∈ w, lo ≤ y ∧ y ≤ hi) →
    c.sum * lo ≤ (List.zipWith (· * ·) c w).sum ∧ (List.zipWith (· * ·) c w).sum ≤ c.sum * hi
  | [], _, _, _, _ => by simp
  | a :: c, [], h, _, _ => by simp at h
  | a :: c, y :: w, h, hc, hw => by
    have ih := weighted_bounds lo hi c w (by simpa using h) (fun z hz => hc z (by simp [hz])) (fun z hz => hw z (by simp [hz]))
    have ha := hc a (by simp)
    have hy := hw y (by simp)
    simp only [List.zipWith_cons_cons, List.sum_cons]
    have h1 := mul_le_mul_of_nonneg_left hy.1 ha
    have h2 := mul_le_mul_of_nonneg_left hy.2 ha
    constructor
    · rw [add_mul]; linarith [ih.1]
    · rw [add_mul]; linarith [ih.2]

/-- **C36, bounded.** With non-negative coefficients of sum one the output lies within any bounds of the window. -/
theorem moving_average_bounded (N : Nat) (hN : 1 ≤ N) (c : Nat → K) (hc : ∀ i, i < N → 0 ≤ c i) (hsum : ((List.range N).map c).sum = 1)
    (ops : List (Op K)) (x lo hi : K) (hw : ∀ y ∈ window N (inputs ops ++ [x]), lo ≤ y ∧ y ≤ hi)
    (hen : (exec (new N c) ops).enabled = true) :
    lo ≤ (run (exec (new N c) ops) x).2 ∧ (run (exec (new N c) ops) x).2 ≤ hi := by
  rw [moving_average N hN c ops x hen]
  have := weighted_bounds lo hi ((List.range N).map c) (window N (inputs ops ++ [x])) (by simp [window_length])
    (by intro y hy; simp only [List.mem_map, List.mem_range] at hy; obtain ⟨i, hi, rfl⟩ := hy; exact hc i hi) hw
  rwa [hsum, one_mul, one_mul] at this


/-- The coefficients 1/2, 1/4, 1/4 and inputs between 4 and 12. -/
example : (∀ i, i < 3 → (0 : ℚ) ≤ (if i = 0 then 1/2 else 1/4)) ∧ ((List.range 3).map (fun i => (if i = 0 then 1/2 else 1/4 : ℚ))).sum = 1 ∧
    (∀ y ∈ window 3 (inputs [Op.run (8 : ℚ), .run 4] ++ [12]), (4 : ℚ) ≤ y ∧ y ≤ 12) ∧
    (exec (new 3 (fun i => if i = 0 then 1/2 else 1/4) : St ℚ) [.run 8, .run 4]).enabled = true := by
  refine ⟨fun i _ => by split_ifs <;> norm_num, by decide +kernel, by decide +kernel, by decide +kernel⟩

theorem disabled_passes (s : St K) (x : K) (h : s.enabled = false) : (run s x).2 = x := by simp [run, h]

example : (run (exec (new 3 (fun i => if i = 0 then 1/2 else 1/4) : St ℚ) [.run 8, .run 4]) 12).2 = 8 := by decide +kernel

end MovingAverage

namespace LowPass

/-- **C36, low pass.** For `0 ≤ alpha ≤ 1` and every history of runs, enabling and disabling: no output is NaN and all outputs stay within any
bounds of the inputs; in particular (`lo = hi`) a constant input is reproduced exactly. -/
theorem low_pass_bounded (alpha lo hi : K) (h0 : 0 ≤ alpha) (h1 : alpha ≤ 1) (ops : List (Op K))
    (hin : ∀ x, .run x ∈ ops → lo ≤ x ∧ x ≤ hi) : ∀ o ∈ outs (new alpha) ops, ∃ y, o = some y ∧ lo ≤ y ∧ y ≤ hi := by
  suffices H : ∀ (ops : List (Op K)) (s : St K), s.alpha = alpha → (s.first = true ∨ ∃ p, s.prev = some p ∧ lo ≤ p ∧ p ≤ hi) →
      (∀ x, .run x ∈ ops → lo ≤ x ∧ x ≤ hi) → ∀ o ∈ outs s ops, ∃ y, o = some y ∧ lo ≤ y ∧ y ≤ hi from
    H ops (new alpha) rfl (Or.inl rfl) hin
  intro ops
  induction ops with
  | nil => intro s _ _ _ o ho; simp [outs] at ho
  | cons op ops ih =>
    intro s ha hs hin o ho
    have hin' : ∀ x, .run x ∈ ops → lo ≤ x ∧ x ≤ hi := fun x hx => hin x (by simp [hx])
    cases op with
    | run x =>
      have hx := hin x (by simp)
      have hstep : ∃ y, (run s x).2 = some y ∧ lo ≤ y ∧ y ≤ hi := by
        unfold run
        cases hen : s.enabled with
        | false => exact ⟨x, by simp, hx⟩
        | true =>
          have conv : ∀ p, lo ≤ p → p ≤ hi → lo ≤ x * alpha + p * (1 - alpha) ∧ x * alpha + p * (1 - alpha) ≤ hi := by
            intro p hp1 hp2
            have a1 := mul_le_mul_of_nonneg_right hx.1 h0
            have a2 := mul_le_mul_of_nonneg_right hx.2 h0
            have a3 := mul_le_mul_of_nonneg_right hp1 (sub_nonneg.2 h1)
            have a4 := mul_le_mul_of_nonneg_right hp2 (sub_nonneg.2 h1)
            constructor
            · have : lo * alpha + lo * (1 - alpha) = lo := by ring
              linarith
            · have : hi * alpha + hi * (1 - alpha) = hi := by ring
              linarith
          cases hf : s.first with
          | true => exact ⟨_, by simp [ha], conv x hx.1 hx.2⟩
          | false =>
            rcases hs with hs | ⟨p, hp, hp1, hp2⟩
            · rw [hf] at hs; cases hs
            · exact ⟨_, by simp [hp, ha], conv p hp1 hp2⟩
      simp only [outs, step, List.cons_append, List.nil_append, List.mem_cons] at ho
      rcases ho with rfl | ho
      · exact hstep
      · refine ih (run s x).1 ha (Or.inr ?_) hin' o ho
        obtain ⟨y, hy, hb⟩ := hstep
        exact ⟨y, hy, hb⟩
    | enable => exact ih { s with enabled := true } ha hs hin' o (by simpa [outs, step] using ho)
    | disable => exact ih { s with enabled := false } ha hs hin' o (by simpa [outs, step] using ho)

/-- The defining recursion: after a run with output `p` the next enabled output is `alpha * in + (1 - alpha) * p`. -/
theorem low_pass_recursion (s : St K) (x y p : K) (hp : (run s x).2 = some p) (hen : s.enabled = true) :
    (run (run s x).1 y).2 = some (s.alpha * y + (1 - s.alpha) * p) := by
  have : (run s x).1 = { s with first := false, prev := some p } := by
    simp only [run] at hp ⊢; rw [hp]
  rw [this]
  simp only [run, hen, if_true, Bool.false_eq_true, if_false, Option.map_some, Option.some.injEq]
  ring

example : outs (new (1/2 : ℚ)) [.run 4, .run 8, .disable, .run 1, .enable, .run 3] = [some 4, some 6, some 1, some 2] := by decide +kernel

end LowPass
end Verif.Control.Filters
