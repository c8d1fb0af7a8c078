import Verif.Control.TraceProps
import Mathlib.Data.List.Range
import Mathlib.Tactic.ByContra
/-!
The file which the trace example writes at its end (examples/block/TraceTest.cpp:108-117). The time domain runs two trace blocks one after the other
(38-41), the level action of the safety system, which runs in another thread, enables them one after the other (62-63), and at the end each row of the file is
made of the time stamp and the value of the first trace and the value of the second one at the same place (113-116).

Simplifications: a sample is the number of the run of the time domain in which it was taken. The level action enables the traces once (60); the other parts of the
program are left out. All threads have ended when the file is written, the time domain after a whole run.
-/
namespace Verif.Examples.TraceTest
open Verif.Control (Trace.St Trace.Op Trace.new Trace.step Trace.exec Trace.getTrace Trace.taken Trace.trace_last_samples)

/-- Steps of the program: run of the first or second trace in run `r` of the time domain (TraceTest.cpp:40-41), `enable` of the first or second trace
(TraceTest.cpp:62-63). -/
inductive Ev
  | run1 (r : ℕ)
  | run2 (r : ℕ)
  | enable1
  | enable2
  deriving DecidableEq

/-- Step `k` of the time domain: two for each run. -/
def domain (k : ℕ) : Ev := if k % 2 = 0 then .run1 (k / 2) else .run2 (k / 2)

/-- The interleavings of `R` runs of the time domain with the level action: the first trace is enabled after `p` and the second one after `q` steps. -/
def history (p q R : ℕ) : List Ev :=
  (List.range' 0 p).map domain ++ [.enable1] ++ (List.range' p (q - p)).map domain ++ [.enable2] ++ (List.range' q (2 * R - q)).map domain

/-- The two trace blocks. -/
structure World where
  t1 : Trace.St ℕ
  t2 : Trace.St ℕ

def step (w : World) : Ev → Option World
  | .run1 r => (Trace.step w.t1 (.run r)).map fun t => { w with t1 := t }
  | .run2 r => (Trace.step w.t2 (.run r)).map fun t => { w with t2 := t }
  | .enable1 => (Trace.step w.t1 .enable).map fun t => { w with t1 := t }
  | .enable2 => (Trace.step w.t2 .enable).map fun t => { w with t2 := t }

/-- Both traces have the same length, 64 in the program (TraceTest.cpp:24, 28). -/
def start (len : ℕ) : World := ⟨Trace.new len, Trace.new len⟩

/-- The rows of the file (TraceTest.cpp:113-116): as many as the first trace has samples; `none` where an element behind the end of the array of the second
trace, or one never written, is read. -/
def rows (w : World) : List (Option ℕ × Option ℕ) :=
  (List.range (Trace.getTrace w.t1).length).map fun i : ℕ => (((Trace.getTrace w.t1)[i]?).join.join, ((Trace.getTrace w.t2)[i]?).join.join)

/-! ### What each of the traces sees -/

def proj1 : Ev → Option (Trace.Op ℕ)
  | .run1 r => some (.run r)
  | .enable1 => some .enable
  | _ => none

def proj2 : Ev → Option (Trace.Op ℕ)
  | .run2 r => some (.run r)
  | .enable2 => some .enable
  | _ => none

theorem exec_proj (l : List Ev) : ∀ (w : World) (s1 s2 : Trace.St ℕ), Trace.exec w.t1 (l.filterMap proj1) = some s1 → Trace.exec w.t2 (l.filterMap proj2) = some s2 →
    l.foldlM step w = some ⟨s1, s2⟩ := by
  induction l with
  | nil =>
    intro w s1 s2 h1 h2
    simp only [List.filterMap_nil, Trace.exec, List.foldlM_nil, Option.pure_def, Option.some.injEq] at h1 h2
    subst h1 h2; rfl
  | cons e l ih =>
    intro w s1 s2 h1 h2
    cases e <;> simp only [List.filterMap_cons, proj1, proj2, Trace.exec, List.foldlM_cons, Option.bind_eq_bind] at h1 h2 <;>
      simp only [List.foldlM_cons, step, Option.bind_eq_bind]
    · cases h : Trace.step w.t1 (.run _) with
      | none => simp [h] at h1
      | some t => rw [h] at h1; exact ih ⟨t, w.t2⟩ s1 s2 h1 h2
    · cases h : Trace.step w.t2 (.run _) with
      | none => simp [h] at h2
      | some t => rw [h] at h2; exact ih ⟨w.t1, t⟩ s1 s2 h1 h2
    · cases h : Trace.step w.t1 .enable with
      | none => simp [h] at h1
      | some t => rw [h] at h1; exact ih ⟨t, w.t2⟩ s1 s2 h1 h2
    · cases h : Trace.step w.t2 .enable with
      | none => simp [h] at h2
      | some t => rw [h] at h2; exact ih ⟨w.t1, t⟩ s1 s2 h1 h2

theorem taken_append_enable (l l' : List (Trace.Op ℕ)) (h : ∀ o ∈ l, ∃ r, o = .run r) : Trace.taken false (l ++ .enable :: l') = Trace.taken true l' := by
  induction l with
  | nil => rfl
  | cons o l ih =>
    obtain ⟨r, rfl⟩ := h o (by simp)
    simp only [List.cons_append, Trace.taken, Bool.false_eq_true, if_false]
    exact ih fun o ho => h o (by simp [ho])

theorem taken_runs (l : List ℕ) : Trace.taken true (l.map fun r => Trace.Op.run r) = l := by
  induction l with
  | nil => rfl
  | cons r l ih => simp [Trace.taken, ih]

theorem runs1 (k : ℕ) : ∀ p, ((List.range' p k).map domain).filterMap proj1 = (List.range' ((p + 1) / 2) ((p + k + 1) / 2 - (p + 1) / 2)).map fun r => Trace.Op.run r := by
  induction k with
  | zero => intro p; simp
  | succ k ih =>
    intro p
    rw [List.range'_succ, List.map_cons, List.filterMap_cons, ih]
    by_cases h : p % 2 = 0
    · simp only [domain, h, if_true, proj1]
      rw [show (p + 1) / 2 = p / 2 by omega, show (p + (k + 1) + 1) / 2 - p / 2 = ((p + 1 + k + 1) / 2 - (p + 1 + 1) / 2) + 1 by omega, List.range'_succ,
        show (p + 1 + 1) / 2 = p / 2 + 1 by omega]
      rfl
    · simp only [domain, h, if_false, proj1]
      rw [show (p + 1 + 1) / 2 = (p + 1) / 2 by omega, show p + 1 + k + 1 = p + (k + 1) + 1 by omega]

theorem runs2 (k : ℕ) : ∀ p, ((List.range' p k).map domain).filterMap proj2 = (List.range' (p / 2) ((p + k) / 2 - p / 2)).map fun r => Trace.Op.run r := by
  induction k with
  | zero => intro p; simp
  | succ k ih =>
    intro p
    rw [List.range'_succ, List.map_cons, List.filterMap_cons, ih]
    by_cases h : p % 2 = 0
    · simp only [domain, h, if_true, proj2]
      rw [show (p + 1) / 2 = p / 2 by omega, show p + 1 + k = p + (k + 1) by omega]
    · simp only [domain, h, if_false, proj2]
      rw [show (p + (k + 1)) / 2 - p / 2 = ((p + 1 + k) / 2 - (p + 1) / 2) + 1 by omega, List.range'_succ, show (p + 1) / 2 = p / 2 + 1 by omega]
      rfl

theorem taken1 (p q R : ℕ) (hpq : p ≤ q) (hq : q ≤ 2 * R) :
    Trace.taken false ((history p q R).filterMap proj1) = List.range' ((p + 1) / 2) (R - (p + 1) / 2) := by
  have e : (history p q R).filterMap proj1 = ((List.range' 0 p).map domain).filterMap proj1 ++ .enable ::
      (((List.range' p (q - p)).map domain).filterMap proj1 ++ ((List.range' q (2 * R - q)).map domain).filterMap proj1) := by
    simp only [history, List.filterMap_append, List.filterMap_cons, proj1, List.filterMap_nil, List.append_assoc, List.cons_append, List.nil_append, List.append_nil]
  rw [e, taken_append_enable _ _ (by
    intro o ho
    rw [runs1] at ho
    obtain ⟨r, -, rfl⟩ := List.mem_map.1 ho
    exact ⟨r, rfl⟩), runs1, runs1, ← List.map_append, taken_runs]
  have h1 : (p + 1) / 2 + ((p + (q - p) + 1) / 2 - (p + 1) / 2) = (q + 1) / 2 := by
    have : p + (q - p) = q := by omega
    rw [this]; omega
  have := List.range'_append_1 (s := (p + 1) / 2) (m := (p + (q - p) + 1) / 2 - (p + 1) / 2) (n := (q + (2 * R - q) + 1) / 2 - (q + 1) / 2)
  rw [h1] at this
  rw [this]
  congr 1
  have e1 : p + (q - p) = q := by omega
  have e2 : q + (2 * R - q) = 2 * R := by omega
  rw [e1, e2]; omega

theorem taken2 (p q R : ℕ) (hq : q ≤ 2 * R) :
    Trace.taken false ((history p q R).filterMap proj2) = List.range' (q / 2) (R - q / 2) := by
  have e : (history p q R).filterMap proj2 = (((List.range' 0 p).map domain).filterMap proj2 ++ ((List.range' p (q - p)).map domain).filterMap proj2) ++ .enable ::
      ((List.range' q (2 * R - q)).map domain).filterMap proj2 := by
    simp only [history, List.filterMap_append, List.filterMap_cons, proj2, List.filterMap_nil, List.append_assoc, List.cons_append, List.nil_append, List.append_nil]
  rw [e, taken_append_enable _ _ (by
    intro o ho
    rw [runs2, runs2, ← List.map_append] at ho
    obtain ⟨r, -, rfl⟩ := List.mem_map.1 ho
    exact ⟨r, rfl⟩), runs2, taken_runs]
  congr 1
  have e2 : q + (2 * R - q) = 2 * R := by omega
  rw [e2]; omega

/-- The last samples of a trace. -/
theorem drop_last (s R len : ℕ) : (List.range' s (R - s)).drop ((List.range' s (R - s)).length - len) = List.range' (R - min len (R - s)) (min len (R - s)) := by
  rw [List.length_range', List.drop_range']
  rcases Nat.le_total s R with h | h
  · rcases Nat.le_total len (R - s) with h' | h'
    · rw [min_eq_left h']; congr 1 <;> omega
    · rw [min_eq_right h']; congr 1 <;> omega
  · have : R - s = 0 := by omega
    simp [this]

/-! ### The rows -/

/-- **C352, exactly.** Row `i` holds the run of the first trace and that of the second one: each trace holds the runs since it was enabled, at most as many
as it is long, up to the last one. The row is taken behind the end of the second trace if that one is shorter. -/
theorem rows_exact (len p q R : ℕ) (hl : 1 ≤ len) (hpq : p ≤ q) (hq : q ≤ 2 * R) : ∃ w, (history p q R).foldlM step (start len) = some w ∧
    rows w = (List.range (min len (R - (p + 1) / 2))).map fun i =>
      (some (R - min len (R - (p + 1) / 2) + i), if i < min len (R - q / 2) then some (R - min len (R - q / 2) + i) else none) := by
  obtain ⟨s1, h1, g1⟩ := Trace.trace_last_samples len hl ((history p q R).filterMap proj1)
  obtain ⟨s2, h2, g2⟩ := Trace.trace_last_samples len hl ((history p q R).filterMap proj2)
  refine ⟨⟨s1, s2⟩, exec_proj _ (start len) s1 s2 h1 h2, ?_⟩
  rw [taken1 p q R hpq hq, drop_last] at g1
  rw [taken2 p q R hq, drop_last] at g2
  unfold rows
  simp only [g1, g2, List.length_map, List.length_range']
  apply List.map_congr_left
  intro i hi
  have hi := List.mem_range.1 hi
  refine Prod.ext ?_ ?_
  · simp [List.getElem?_range' hi]
  · by_cases h : i < min len (R - q / 2)
    · simp [List.getElem?_range' h, h]
    · have : (List.range' (R - min len (R - q / 2)) (min len (R - q / 2)))[i]? = none := by
        rw [List.getElem?_eq_none_iff, List.length_range']; omega
      simp only [List.getElem?_map, this, if_neg h]; rfl

/-- Every row holds two samples of the same run. -/
def Aligned (w : World) : Prop := ∀ x ∈ rows w, ∃ r, x = (some r, some r)

/-- **C352, exactly.** All rows hold samples of the same run if and only if both traces were enabled between the same two runs (as they see them), or
both were full at the end, or the first one has no sample. -/
theorem aligned_iff (len p q R : ℕ) (hl : 1 ≤ len) (hpq : p ≤ q) (hq : q ≤ 2 * R) (w : World) (hw : (history p q R).foldlM step (start len) = some w) :
    Aligned w ↔ (p + 1) / 2 = q / 2 ∨ (len ≤ R - (p + 1) / 2 ∧ len ≤ R - q / 2) ∨ R ≤ (p + 1) / 2 := by
  obtain ⟨w', h1, h2⟩ := rows_exact len p q R hl hpq hq
  obtain rfl := Option.some.inj (h1.symm.trans hw)
  unfold Aligned
  rw [h2]
  have hp2 : (p + 1) / 2 ≤ R := by omega
  have hq2 : q / 2 ≤ R := by omega
  generalize (p + 1) / 2 = a at *
  generalize q / 2 = b at *
  constructor
  · intro h
    by_contra hn
    have h0 : 0 < min len (R - a) := by omega
    obtain ⟨r, hr⟩ := h _ (List.mem_map.2 ⟨0, List.mem_range.2 h0, rfl⟩)
    have e1 := congrArg Prod.fst hr
    have e2 := congrArg Prod.snd hr
    simp only [Option.some.injEq] at e1
    by_cases hb : 0 < min len (R - b)
    · simp only [hb, if_true, Option.some.injEq] at e2
      omega
    · simp [hb] at e2
  · intro h x hx
    obtain ⟨i, hi, rfl⟩ := List.mem_map.1 hx
    have hi := List.mem_range.1 hi
    have : min len (R - a) = min len (R - b) := by omega
    rw [this] at hi ⊢
    exact ⟨_, by rw [if_pos hi]⟩

/-- **C352, the part which holds.** -/
theorem aligned_partial (len p q R : ℕ) (hl : 1 ≤ len) (hpq : p ≤ q) (hq : q ≤ 2 * R) (h : q / 2 + len ≤ R) (h' : (p + 1) / 2 + len ≤ R) :
    ∃ w, (history p q R).foldlM step (start len) = some w ∧ Aligned w := by
  obtain ⟨w, h1, -⟩ := rows_exact len p q R hl hpq hq
  exact ⟨w, h1, (aligned_iff len p q R hl hpq hq w h1).2 (Or.inr (Or.inl ⟨by omega, by omega⟩))⟩

/-- **C352 is violated**: a whole run of the time domain between the two calls of `enable`, and a program which ends before the traces are full: the last row
is read behind the end of the second trace, and in all others the first trace is one run behind. -/
theorem run_between_violated (len r n : ℕ) (hn : n + 1 ≤ len) : ∃ w, (history (2 * r) (2 * r + 2) (r + 1 + n)).foldlM step (start len) = some w ∧
    rows w = (List.range n).map (fun i => (some (r + i), some (r + 1 + i))) ++ [(some (r + n), none)] := by
  obtain ⟨w, h1, h2⟩ := rows_exact len (2 * r) (2 * r + 2) (r + 1 + n) (by omega) (by omega) (by omega)
  refine ⟨w, h1, ?_⟩
  rw [h2, show (2 * r + 1) / 2 = r by omega, show (2 * r + 2) / 2 = r + 1 by omega, show min len (r + 1 + n - r) = n + 1 by omega,
    show min len (r + 1 + n - (r + 1)) = n by omega, List.range_succ, List.map_append]
  congr 1
  · apply List.map_congr_left
    intro i hi
    have hi := List.mem_range.1 hi
    rw [if_pos hi, show r + 1 + n - (n + 1) + i = r + i by omega, show r + 1 + n - n + i = r + 1 + i by omega]
  · simp; omega

/-- **C352 is violated**: both traces enabled between the two trace blocks of the same run: in every row the first trace is one run ahead, and the last sample of
the second trace is missing in the file. -/
theorem within_run_violated (len r n : ℕ) (hn : n + 1 ≤ len) : ∃ w, (history (2 * r + 1) (2 * r + 1) (r + 1 + n)).foldlM step (start len) = some w ∧
    rows w = (List.range n).map fun i => (some (r + 1 + i), some (r + i)) := by
  obtain ⟨w, h1, h2⟩ := rows_exact len (2 * r + 1) (2 * r + 1) (r + 1 + n) (by omega) (le_refl _) (by omega)
  refine ⟨w, h1, ?_⟩
  rw [h2, show (2 * r + 1 + 1) / 2 = r + 1 by omega, show (2 * r + 1) / 2 = r by omega, show min len (r + 1 + n - (r + 1)) = n by omega,
    show min len (r + 1 + n - r) = n + 1 by omega]
  apply List.map_congr_left
  intro i hi
  have hi := List.mem_range.1 hi
  rw [if_pos (by omega), show r + 1 + n - n + i = r + 1 + i by omega, show r + 1 + n - (n + 1) + i = r + i by omega]

/-! ### Cases -/

/-- Traces of length 4, enabled after the runs 0 and 1. -/
example : ((history 4 4 5).foldlM step (start 4)).map rows = some [(some 2, some 2), (some 3, some 3), (some 4, some 4)] := by decide +kernel
/-- A run between the two calls, the program ends after five or after seven runs. -/
example : ((history 4 6 5).foldlM step (start 4)).map rows = some [(some 2, some 3), (some 3, some 4), (some 4, none)] := by decide +kernel
example : ((history 4 6 7).foldlM step (start 4)).map rows = some [(some 3, some 3), (some 4, some 4), (some 5, some 5), (some 6, some 6)] := by decide +kernel
/-- Enabled within run 2. -/
example : ((history 5 5 5).foldlM step (start 4)).map rows = some [(some 3, some 2), (some 4, some 3)] := by decide +kernel
example : ∃ w, (history 61 62 100).foldlM step (start 64) = some w ∧ Aligned w := aligned_partial 64 61 62 100 (by decide) (by decide) (by decide) (by decide) (by decide)

end Verif.Examples.TraceTest
