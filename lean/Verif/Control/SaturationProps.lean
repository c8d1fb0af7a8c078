import Verif.Control.Saturation
import Mathlib.Algebra.Order.Field.Basic
import Mathlib.Data.Rat.Cast.Order
import Mathlib.Data.Fin.VecNotation
import Mathlib.Tactic.Linarith
import Mathlib.Tactic.NormNum
namespace Verif.Control.Saturation
variable {K : Type} [Field K] [LinearOrder K] [IsStrictOrderedRing K]

theorem clamp_fin (l u x : K) (h : l ≤ u) :
    clamp (.fin l) (.fin u) (.fin x) = XVal.fin (max l (min u x)) := by
  unfold clamp
  simp only [CppVal.lt, XVal.lt]
  by_cases h1 : u < x
  · have h2 : ¬ x < l := not_lt.2 (le_trans h h1.le)
    simp [h1, h2, min_eq_left h1.le, max_eq_right h]
  · by_cases h2 : x < l
    · simp [h1, h2, min_eq_right (not_lt.1 h1), max_eq_left h2.le]
    · simp [h1, h2, min_eq_right (not_lt.1 h1), max_eq_right (not_lt.1 h2)]

/-- The output `y` is the value of `[l, u]` nearest to `x`. -/
def Nearest (l u x y : K) : Prop := l ≤ y ∧ y ≤ u ∧ ∀ z, l ≤ z → z ≤ u → |x - y| ≤ |x - z|

/-- **C28, enabled.** For ordered limits and every finite input the output is the nearest value within the limits. -/
theorem saturates (l u x : K) (h : l ≤ u) :
    ∃ y, run ⟨XVal.fin l, .fin u, true⟩ (.fin x) = .fin y ∧ Nearest l u x y := by
  refine ⟨max l (min u x), by simp [run, clamp_fin l u x h], le_max_left _ _, max_le h (min_le_left _ _), ?_⟩
  intro z hz1 hz2
  rcases le_total x l with h1 | h1
  · rw [min_eq_right (le_trans h1 h), max_eq_left h1, abs_of_nonpos (by linarith), abs_of_nonpos (by linarith)]; linarith
  · rcases le_total u x with h2 | h2
    · rw [min_eq_left h2, max_eq_right h, abs_of_nonneg (by linarith), abs_of_nonneg (by linarith)]; linarith
    · rw [min_eq_right h2, max_eq_right h1]; simp


/-- The limits -1 and 2. -/
example : ∃ y, run ⟨XVal.fin (-1 : ℚ), .fin 2, true⟩ (.fin 5) = .fin y ∧ Nearest (-1) 2 5 y := saturates (-1) 2 5 (by norm_num)

/-- **C28, inside.** Values inside the limits pass unchanged. -/
theorem inside_unchanged (l u x : K) (h1 : l ≤ x) (h2 : x ≤ u) :
    run ⟨XVal.fin l, .fin u, true⟩ (.fin x) = .fin x := by
  simp [run, clamp_fin l u x (le_trans h1 h2), h1, h2]


example : run ⟨XVal.fin (-1 : ℚ), .fin 2, true⟩ (.fin 1) = .fin 1 := inside_unchanged (-1) 2 1 (by norm_num) (by norm_num)

/-- **C28, infinities and NaN.** Infinite inputs are limited; NaN passes through. -/
theorem special_values (l u : K) :
    run ⟨XVal.fin l, .fin u, true⟩ .pinf = .fin u ∧ run ⟨XVal.fin l, .fin u, true⟩ .ninf = .fin l ∧
    run ⟨XVal.fin l, .fin u, true⟩ .nan = .nan := ⟨rfl, rfl, rfl⟩

/-- **C28, idempotent**, for every input including the special ones. -/
theorem idempotent (l u : K) (h : l ≤ u) (x : XVal K) :
    let s : St (XVal K) := ⟨.fin l, .fin u, true⟩
    run s (run s x) = run s x := by
  intro s
  have hl := inside_unchanged l u l (le_refl _) h
  have hu := inside_unchanged l u u h (le_refl _)
  cases x with
  | fin x =>
    obtain ⟨y, h1, h2, h3, -⟩ := saturates l u x h
    simp only [s] at *
    rw [h1]; exact inside_unchanged l u y h2 h3
  | pinf => exact hu
  | ninf => exact hl
  | nan => rfl

/-- **C28, monotone.** -/
theorem monotone (l u : K) (h : l ≤ u) (x x' : K) (hx : x ≤ x') :
    ∃ y y', run ⟨XVal.fin l, .fin u, true⟩ (.fin x) = .fin y ∧ run ⟨XVal.fin l, .fin u, true⟩ (.fin x') = .fin y' ∧ y ≤ y' := by
  refine ⟨_, _, by simp only [run, if_true]; exact clamp_fin l u x h, by simp only [run, if_true]; exact clamp_fin l u x' h, ?_⟩
  exact max_le_max (le_refl _) (min_le_min (le_refl _) hx)


example : ∃ y y', run ⟨XVal.fin (-1 : ℚ), .fin 2, true⟩ (.fin 1) = .fin y ∧ run ⟨XVal.fin (-1 : ℚ), .fin 2, true⟩ (.fin 5) = .fin y' ∧ y ≤ y' :=
  monotone (-1) 2 (by norm_num) 1 5 (by norm_num)

/-- **C28, disabled.** A disabled block passes every input unchanged. -/
theorem disabled_passes {n : Nat} (l u x : XVal K) (lv uv xv : Fin n → XVal K) :
    run ⟨l, u, false⟩ x = x ∧ runVec ⟨lv, uv, false⟩ xv = xv := ⟨rfl, rfl⟩

/-- **C28, vectors.** A vector of any length is limited element by element. -/
theorem vector_elementwise {n : Nat} (s : St (Fin n → XVal K)) (x : Fin n → XVal K) (i : Fin n) :
    runVec s x i = run ⟨s.lower i, s.upper i, s.enabled⟩ (x i) := by
  unfold runVec run; split <;> rfl

/-- With the single-limit constructor the output magnitude never exceeds the limit. -/
theorem symmetric_limit (lim x : K) (h : 0 ≤ lim) :
    ∃ y, run (newSym (fun v => match v with | .fin a => .fin (-a) | .pinf => .ninf | .ninf => .pinf | .nan => .nan) (XVal.fin lim))
      (.fin x) = .fin y ∧ |y| ≤ lim := by
  obtain ⟨y, h1, h2, h3, -⟩ := saturates (-lim) lim x (by linarith)
  exact ⟨y, h1, abs_le.2 ⟨h2, h3⟩⟩

/-- Non-vacuity: limits -1..2, inputs 5, -5 and 1. -/
example : run ⟨XVal.fin (-1 : ℚ), .fin 2, true⟩ (.fin 5) = .fin 2 ∧ run ⟨XVal.fin (-1 : ℚ), .fin 2, true⟩ (.fin (-5)) = .fin (-1) ∧
    run ⟨XVal.fin (-1 : ℚ), .fin 2, true⟩ (.fin 1) = .fin 1 := by decide +kernel

end Verif.Control.Saturation
