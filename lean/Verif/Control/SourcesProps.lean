import Verif.Control.Sources
import Mathlib.Tactic.Linarith
import Mathlib.Data.Rat.Floor
/-! C69 (step source) and C70 (constant source). -/
set_option linter.unusedSectionVars false
namespace Verif.Control.Sources
variable {K : Type} [Field K] [LinearOrder K]

/-- The readings of the clock never go back, within a run and from run to run. -/
def Monotone : List (K × K) → Prop
  | [] => True
  | (t₁, t₂) :: ts => t₁ ≤ t₂ ∧ (∀ u ∈ ts, t₂ ≤ u.1) ∧ Monotone ts

/-- **C69** After construction or reset the step block outputs the initial value as long as less than the
delay has passed since its first run, and initial value plus step height from then on; in particular it
steps exactly once and does not step back.  `t₀` is the time of the first run, `u₂` the clock reading of
the latest run. -/
theorem step_output (s : StepSt K) (hf : s.first = true) (hd : s.stepDone = false)
    (t₀ t₀' : K) (ts : List (K × K)) (hm : Monotone ((t₀, t₀') :: ts)) (u : K × K)
    (hu : ((t₀, t₀') :: ts).getLast? = some u) :
    (s.runs ((t₀, t₀') :: ts)).out =
      some (if u.2 < s.delayTime + t₀ then s.initValue else s.initValue + s.stepHeight) := by
  -- state after the first run
  have key : ∀ (ts : List (K × K)) (r : StepSt K) (v : K), r.first = false → Monotone ts →
      r.initValue = s.initValue → r.stepHeight = s.stepHeight → r.time = s.delayTime + t₀ →
      (∀ u ∈ ts, v ≤ u.1) →
      (r.stepDone = true → r.time ≤ v) →
      r.out = some (if r.stepDone then s.initValue + s.stepHeight else s.initValue) →
      (r.stepDone = false → v < r.time) →
      (r.runs ts).out = some (if (ts.getLast?.map (·.2)).getD v < s.delayTime + t₀ then s.initValue
        else s.initValue + s.stepHeight) := by
    intro ts
    induction ts with
    | nil =>
      intro r v hf _ hi hh ht _ h1 ho h2
      simp only [StepSt.runs, List.getLast?_nil, Option.map_none, Option.getD_none, ho]
      cases hsd : r.stepDone
      · have := h2 hsd; rw [ht] at this; simp [this]
      · have := h1 hsd; rw [ht] at this; simp [not_lt.2 this]
    | cons w ts ih =>
      intro r v hf hm hi hh ht hv h1 ho h2
      obtain ⟨w1, w2⟩ := w
      obtain ⟨hm1, hm2, hm3⟩ := hm
      have hvw : v ≤ w1 := hv (w1, w2) (List.mem_cons_self ..)
      have hlast : (((w1, w2) :: ts).getLast?.map (·.2)).getD v = (ts.getLast?.map (·.2)).getD w2 := by
        cases ts with
        | nil => simp
        | cons a l => rw [List.getLast?_cons_cons]; simp [List.getLast?_cons]
      rw [hlast, StepSt.runs]
      have hrun : r.run w1 w2 = if !r.stepDone && decide (r.time ≤ w2) then
          { r with out := some (r.initValue + r.stepHeight), stepDone := true } else r := by
        simp [StepSt.run, hf]
      rw [hrun]
      by_cases hsd : r.stepDone = true
      · simp only [hsd, Bool.not_true, Bool.false_and, Bool.false_eq_true, if_false]
        refine ih r w2 hf hm3 hi hh ht hm2 (fun _ => le_trans (le_trans (h1 hsd) hvw) hm1) ho ?_
        intro h; rw [hsd] at h; simp at h
      · have hsd' : r.stepDone = false := by simpa using hsd
        by_cases hle : r.time ≤ w2
        · simp only [hsd', Bool.not_false, hle, decide_true, Bool.and_self, if_true]
          exact ih { r with out := some (r.initValue + r.stepHeight), stepDone := true } w2 hf hm3 hi hh
            ht hm2 (fun _ => hle) (by simp [hi, hh]) (by simp)
        · simp only [hsd', Bool.not_false, hle, decide_false, Bool.and_false, Bool.false_eq_true, if_false]
          refine ih r w2 hf hm3 hi hh ht hm2 ?_ ho (fun _ => not_le.1 hle)
          intro h; rw [hsd'] at h; simp at h
  have hu' : ((ts.getLast?.map (·.2)).getD t₀') = u.2 := by
    cases ts with
    | nil => simp at hu; simp [← hu]
    | cons a l =>
      rw [List.getLast?_cons_cons] at hu
      rw [hu]; rfl
  rw [← hu', StepSt.runs]
  obtain ⟨hm1, hm2, hm3⟩ := hm
  by_cases hle : s.delayTime + t₀ ≤ t₀'
  · have : s.run t₀ t₀' = { s with
        time := s.delayTime + t₀, out := some (s.initValue + s.stepHeight), first := false, stepDone := true } := by
      simp [StepSt.run, hf, hd, hle]
    rw [this]
    exact key ts _ t₀' rfl hm3 rfl rfl rfl hm2 (fun _ => hle) (by simp) (by simp)
  · have : s.run t₀ t₀' = { s with time := s.delayTime + t₀, out := some s.initValue, first := false } := by
      simp [StepSt.run, hf, hd, hle]
    rw [this]
    exact key ts _ t₀' rfl hm3 rfl rfl rfl hm2 (by simp [hd]) (by simp [hd]) (fun _ => not_le.1 hle)


/-- A step of 2 at a delay of 5 in a run which starts at the time 10: it is done at 15. -/
example : let s := mkStep (K := ℚ) 1 2 5 0
    s.first = true ∧ s.stepDone = false ∧ ([(10, 10), (12, 12), (15, 15)] : List (ℚ × ℚ)).getLast? = some (15, 15) ∧
    (s.runs [(10, 10), (12, 12), (15, 15)]).out = some 3 := by decide +kernel

/-- `reset` establishes the hypotheses of `step_output` in every state. -/
theorem reset_restarts (s : StepSt K) : s.reset.first = true ∧ s.reset.stepDone = false ∧
    s.reset.initValue = s.initValue ∧ s.reset.stepHeight = s.stepHeight ∧ s.reset.delayTime = s.delayTime :=
  ⟨rfl, rfl, rfl, rfl, rfl⟩

/-- Non-vacuity: step of height 2 on 1 after 5 s, runs at 10, 12 and 15. -/
example : ((mkStep (K := ℚ) 1 2 5 0).runs [(10, 10), (12, 12)]).out = some 1 ∧
    ((mkStep (K := ℚ) 1 2 5 0).runs [(10, 10), (12, 12), (15, 15)]).out = some 3 := by decide +kernel
example : Monotone (K := ℚ) [(10, 10), (12, 12), (15, 15)] := by
  simp [Monotone]; norm_num

/-- The value set last in a list of calls. -/
def lastSet {V : Type} (d : V) : List (ConstOp V) → V
  | [] => d
  | .set v :: ops => lastSet v ops
  | .run :: ops => lastSet d ops

/-- **C70** Whenever a constant block has been run, its output is the value set last before that run, or the
constructor's value if none was set; values set afterwards do not change the output. -/
theorem constant_output {V : Type} (v : V) (o : V) (before after : List (ConstOp V))
    (hafter : ∀ op ∈ after, ∃ w, op = .set w) :
    ((before ++ [ConstOp.run] ++ after).foldl ConstSt.step (⟨v, o⟩ : ConstSt V)).out = lastSet v before := by
  have h1 : ∀ (ops : List (ConstOp V)) (s : ConstSt V),
      (ops.foldl ConstSt.step s).value = lastSet s.value ops := by
    intro ops
    induction ops with
    | nil => intro s; rfl
    | cons op ops ih => intro s; cases op <;> exact ih _
  have h2 : ∀ (ops : List (ConstOp V)) (s : ConstSt V), (∀ op ∈ ops, ∃ w, op = .set w) →
      (ops.foldl ConstSt.step s).out = s.out := by
    intro ops
    induction ops with
    | nil => intro s _; rfl
    | cons op ops ih =>
      intro s h
      obtain ⟨w, rfl⟩ := h op (List.mem_cons_self ..)
      exact ih _ (fun op' h' => h op' (List.mem_cons_of_mem _ h'))
  rw [List.foldl_append, List.foldl_append, h2 after _ hafter]
  simp only [List.foldl_cons, List.foldl_nil, ConstSt.step]
  exact h1 before ⟨v, o⟩

example : (([ConstOp.set 3, ConstOp.set 4] ++ [ConstOp.run] ++ [ConstOp.set 5]).foldl ConstSt.step (⟨1, 0⟩ : ConstSt Nat)).out = 4 := rfl

end Verif.Control.Sources
