import Verif.Core.Statistics
import Mathlib.Algebra.BigOperators.Group.List.Basic
import Mathlib.Algebra.Order.BigOperators.Group.List
import Mathlib.Algebra.BigOperators.Ring.List
import Mathlib.Data.Rat.Cast.Order
import Mathlib.Tactic.Linarith
import Mathlib.Tactic.FieldSimp
import Mathlib.Tactic.Ring
import Mathlib.Tactic.Positivity
import Mathlib.Data.List.Induction
namespace Verif.Core.Statistics
variable {K : Type} [Field K] [LinearOrder K] [IsStrictOrderedRing K]

/-- `m` is the minimum of the list. -/
def IsMin (m : K) (l : List K) : Prop := m ∈ l ∧ ∀ x ∈ l, m ≤ x
def IsMax (m : K) (l : List K) : Prop := m ∈ l ∧ ∀ x ∈ l, x ≤ m

/-- Invariant relating the accumulators to the sample. -/
structure Rel (M : K) (s : St K) (l : List K) : Prop where
  count : s.count = l.length
  A : s.A = l.sum
  B : s.B = (l.map (fun x => x * x)).sum
  empty : l = [] → s = reset M
  last : ∀ h : l ≠ [], s.last = l.getLast h
  min : l ≠ [] → IsMin s.min l
  max : l ≠ [] → IsMax s.max l
  mean : l ≠ [] → s.mean = l.sum / l.length
  variance : l ≠ [] → s.variance =
    ((l.map (fun x => x * x)).sum - 2 * (l.sum / l.length) * l.sum) / l.length +
      (l.sum / l.length) * (l.sum / l.length)

theorem rel_add (M : K) (s : St K) (l : List K) (h : Rel M s l) (v : K) (hv : -M ≤ v ∧ v ≤ M) :
    Rel M (add s v) (l ++ [v]) := by
  have hA : (add s v).A = (l ++ [v]).sum := by simp [add, h.A]
  have hB : (add s v).B = ((l ++ [v]).map (fun x => x * x)).sum := by simp [add, h.B]
  refine { count := by simp [add, h.count], A := hA, B := hB, empty := by simp, last := ?_,
           min := ?_, max := ?_, mean := ?_, variance := ?_ }
  · intro _; simp [add]
  · intro _
    by_cases hl : l = []
    · have := h.empty hl
      subst hl
      simp only [add, this, reset]
      by_cases hlt : v < M
      · simp [hlt, IsMin]
      · have : v = M := le_antisymm hv.2 (not_lt.1 hlt)
        simp [this, IsMin]
    · obtain ⟨h1, h2⟩ := h.min hl
      simp only [add]
      by_cases hlt : v < s.min
      · simp only [hlt, if_true]
        refine ⟨by simp, ?_⟩
        intro x hx
        rcases List.mem_append.1 hx with hx | hx
        · exact le_trans hlt.le (h2 x hx)
        · simp at hx; rw [hx]
      · simp only [hlt, if_false]
        refine ⟨by simp [h1], ?_⟩
        intro x hx
        rcases List.mem_append.1 hx with hx | hx
        · exact h2 x hx
        · simp at hx; rw [hx]; exact not_lt.1 hlt
  · intro _
    by_cases hl : l = []
    · have := h.empty hl
      subst hl
      simp only [add, this, reset]
      by_cases hlt : -M < v
      · simp [hlt, IsMax]
      · have : v = -M := le_antisymm (not_lt.1 hlt) hv.1
        simp [this, IsMax]
    · obtain ⟨h1, h2⟩ := h.max hl
      simp only [add]
      by_cases hlt : s.max < v
      · simp only [hlt, if_true]
        refine ⟨by simp, ?_⟩
        intro x hx
        rcases List.mem_append.1 hx with hx | hx
        · exact le_trans (h2 x hx) hlt.le
        · simp at hx; rw [hx]
      · simp only [hlt, if_false]
        refine ⟨by simp [h1], ?_⟩
        intro x hx
        rcases List.mem_append.1 hx with hx | hx
        · exact h2 x hx
        · simp at hx; rw [hx]; exact not_lt.1 hlt
  · intro _
    rw [← hA]; simp [add, h.count]
  · intro _
    rw [← hA, ← hB]; simp [add, h.count]

theorem rel_exec (M : K) (ops : List (Op K)) (hM : ∀ v, Op.add v ∈ ops → -M ≤ v ∧ v ≤ M) :
    Rel M (exec M ops) (sample ops []) := by
  unfold exec
  have h0 : Rel M (reset M) ([] : List K) :=
    ⟨rfl, rfl, rfl, fun _ => rfl, by simp, by simp, by simp, by simp, by simp⟩
  suffices H : ∀ (ops : List (Op K)) (s : St K) (acc : List K), Rel M s acc →
      (∀ v, Op.add v ∈ ops → -M ≤ v ∧ v ≤ M) → Rel M (ops.foldl (step M) s) (sample ops acc) from
    H ops _ _ h0 hM
  intro ops
  induction ops with
  | nil => intro s acc h _; exact h
  | cons op ops ih =>
    intro s acc h hv
    cases op with
    | add v => exact ih _ _ (rel_add M s acc h v (hv v (by simp))) (fun w hw => hv w (by simp [hw]))
    | reset => exact ih _ _ h0 (fun w hw => hv w (by simp [hw]))

theorem sum_sq_dev (l : List K) (m : K) :
    (l.map (fun x => (x - m) * (x - m))).sum =
      (l.map (fun x => x * x)).sum - 2 * m * l.sum + l.length * (m * m) := by
  induction l with
  | nil => simp
  | cons a l ih => simp [ih]; ring

/-- **C21.** After any history of `add` and `reset` with at least one value since the last reset, all published figures are the true
statistics of the values added since then; in particular min ≤ mean ≤ max and variance ≥ 0. -/
theorem statistics_true (M : K) (ops : List (Op K)) (hM : ∀ v, Op.add v ∈ ops → -M ≤ v ∧ v ≤ M)
    (hne : sample ops [] ≠ []) :
    let s := exec M ops
    let l := sample ops []
    s.count = l.length ∧ s.last = l.getLast hne ∧ IsMin s.min l ∧ IsMax s.max l ∧
    s.mean = l.sum / l.length ∧
    s.variance = (l.map (fun x => (x - s.mean) * (x - s.mean))).sum / l.length ∧
    s.min ≤ s.mean ∧ s.mean ≤ s.max ∧ 0 ≤ s.variance := by
  intro s l
  have h := rel_exec M ops hM
  have hl : (0 : K) < (l.length : K) := by
    have : 0 < l.length := List.length_pos_iff.2 hne
    exact_mod_cast this
  have hvar : s.variance = (l.map (fun x => (x - s.mean) * (x - s.mean))).sum / l.length := by
    have h1 : s.variance = ((l.map (fun x => x * x)).sum - 2 * (l.sum / l.length) * l.sum) / l.length +
      (l.sum / l.length) * (l.sum / l.length) := h.variance hne
    have h2 : s.mean = l.sum / l.length := h.mean hne
    rw [sum_sq_dev, h1, h2]
    field_simp
  have hmean := h.mean hne
  obtain ⟨m1, m2⟩ := h.min hne
  obtain ⟨x1, x2⟩ := h.max hne
  refine ⟨h.count, h.last hne, ⟨m1, m2⟩, ⟨x1, x2⟩, hmean, hvar, ?_, ?_, ?_⟩
  · rw [show s.mean = l.sum / l.length from hmean, le_div_iff₀ hl]
    have := List.card_nsmul_le_sum l s.min m2
    rw [nsmul_eq_mul] at this; linarith
  · rw [show s.mean = l.sum / l.length from hmean, div_le_iff₀ hl]
    have := List.sum_le_card_nsmul l s.max x2
    rw [nsmul_eq_mul] at this; linarith
  · rw [hvar]
    apply div_nonneg _ hl.le
    apply List.sum_nonneg
    intro x hx
    obtain ⟨y, _, rfl⟩ := List.mem_map.1 hx
    exact mul_self_nonneg _

/-- **C21, after reset.** Without a value since the last reset all figures are those of a new object. -/
theorem statistics_reset (M : K) (ops : List (Op K)) (hM : ∀ v, Op.add v ∈ ops → -M ≤ v ∧ v ≤ M)
    (he : sample ops [] = []) : exec M ops = reset M :=
  (rel_exec M ops hM).empty he

/-- Non-vacuity: 5 | reset | 1, 2, 6 has mean 3, min 1, max 6, variance 14/3. -/
example : let s := exec (1000 : ℚ) [.add 5, .reset, .add 1, .add 2, .add 6]
    s.count = 3 ∧ s.min = 1 ∧ s.max = 6 ∧ s.mean = 3 ∧ s.variance = 14/3 := by
  norm_num [exec, step, add, reset]

end Verif.Core.Statistics
