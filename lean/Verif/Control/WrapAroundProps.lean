import Verif.Control.WrapAround
import Mathlib.Algebra.Order.Floor.Ring
import Mathlib.Data.Rat.Floor
import Mathlib.Tactic.Linarith
import Mathlib.Tactic.NormNum
import Mathlib.Tactic.Ring
import Mathlib.Tactic.FieldSimp
namespace Verif.Control.WrapAround
variable {K : Type} [Field K] [LinearOrder K] [IsStrictOrderedRing K] [FloorRing K]

/-- `y` is congruent to `x` modulo `d`. -/
def Congruent (d x y : K) : Prop := ∃ k : Int, x = y + k * d

theorem frac_bounds (num d : K) (hd : 0 < d) : 0 ≤ num - ⌊num / d⌋ * d ∧ num - ⌊num / d⌋ * d < d := by
  have h1 := Int.floor_le (num / d)
  have h2 := Int.lt_floor_add_one (num / d)
  rw [le_div_iff₀ hd] at h1
  rw [div_lt_iff₀ hd] at h2
  constructor <;> nlinarith

/-- The full claim of C31 would make this value unique. -/
theorem congruent_unique (mn d x y y' : K) (hd : 0 < d) (hy : Congruent d x y) (hy' : Congruent d x y')
    (h1 : mn ≤ y) (h2 : y < mn + d) (h1' : mn ≤ y') (h2' : y' < mn + d) : y = y' := by
  obtain ⟨k, hk⟩ := hy
  obtain ⟨k', hk'⟩ := hy'
  have hdiff : y' - y = ((k - k' : Int) : K) * d := by push_cast; linarith
  have hlt : ((k - k' : Int) : K) < 1 := by
    by_contra h; push Not at h; nlinarith
  have hgt : -1 < ((k - k' : Int) : K) := by
    by_contra h; push Not at h; nlinarith
  have : k - k' = 0 := by
    have a : k - k' < 1 := by exact_mod_cast hlt
    have b : -1 < k - k' := by exact_mod_cast hgt
    omega
  rw [this] at hdiff; simp at hdiff; linarith


example : Congruent (5 : ℚ) 7 2 ∧ (0 : ℚ) ≤ 2 ∧ (2 : ℚ) < 0 + 5 := ⟨⟨1, by norm_num⟩, by norm_num, by norm_num⟩

/-- **C31 (partial).** For every input that is not a lattice point `min + k*(max-min)`, and for `min` itself, the enabled block outputs the
unique congruent value in `[min, max)`.  Missing: lattice points, see `lattice_point_not_wrapped`. -/
theorem wraps_partial (s : St K) (he : s.enabled = true) (hlt : s.min < s.max) (x : K)
    (hx : x = s.min ∨ ∀ k : Int, x ≠ s.min + k * (s.max - s.min)) :
    s.min ≤ run s x ∧ run s x < s.max ∧ Congruent (s.max - s.min) x (run s x) := by
  have hd : 0 < s.max - s.min := by linarith
  have habs : |s.max - s.min| = s.max - s.min := abs_of_pos hd
  simp only [run, he, if_true, wrap, habs]
  obtain ⟨b1, b2⟩ := frac_bounds (x - s.min) (s.max - s.min) hd
  rcases hx with rfl | hx
  · have : s.min - s.min - (⌊(s.min - s.min) / (s.max - s.min)⌋ : K) * (s.max - s.min) = 0 := by simp
    rw [this]; simp
    exact ⟨hlt, 0, by simp⟩
  · have hpos : 0 < x - s.min - (⌊(x - s.min) / (s.max - s.min)⌋ : K) * (s.max - s.min) := by
      rcases b1.lt_or_eq with h | h
      · exact h
      · exfalso; exact hx ⌊(x - s.min) / (s.max - s.min)⌋ (by linarith)
    rw [if_neg (not_lt.2 b1), if_pos hpos]
    exact ⟨by linarith, by linarith, ⌊(x - s.min) / (s.max - s.min)⌋, by ring⟩


/-- The range from 0 to 5: 7 is not on the lattice and goes to 2. -/
example : (0 : ℚ) ≤ run ⟨0, 5, true⟩ 7 ∧ run (⟨0, 5, true⟩ : St ℚ) 7 < 5 ∧ Congruent (5 - 0) (7 : ℚ) (run ⟨0, 5, true⟩ 7) := by
  refine wraps_partial (⟨0, 5, true⟩ : St ℚ) rfl (by norm_num) 7 (.inr ?_)
  intro k h
  have h1 : (7 : ℤ) = k * 5 := by
    have : ((7 : ℤ) : ℚ) = ((k * 5 : ℤ) : ℚ) := by push_cast; simp at h; linarith
    exact_mod_cast this
  omega

/-- On lattice points the input is passed on unchanged. -/
theorem lattice_points_pass (s : St K) (he : s.enabled = true) (hlt : s.min < s.max) (k : Int) :
    run s (s.min + k * (s.max - s.min)) = s.min + k * (s.max - s.min) := by
  have hd : 0 < s.max - s.min := by linarith
  have habs : |s.max - s.min| = s.max - s.min := abs_of_pos hd
  simp only [run, he, if_true, wrap, habs]
  have : (s.min + k * (s.max - s.min) - s.min) / (s.max - s.min) = (k : K) := by
    have := hd.ne'
    field_simp
    ring
  rw [this]; simp


/-- 15 is passed on, though it is outside of the range from 0 to 5. -/
example : run (⟨0, 5, true⟩ : St ℚ) 15 = 15 := by
  have := lattice_points_pass (⟨0, 5, true⟩ : St ℚ) rfl (by norm_num) 3
  norm_num at this
  exact this

/-- The full claim of C31 fails: wrapping 10 into [0, 5) yields 10. -/
theorem lattice_point_not_wrapped : run (new (0 : ℚ) 5) 10 = 10 ∧ ¬ (run (new (0 : ℚ) 5) 10 < 5) := by
  have := lattice_points_pass (new (0 : ℚ) 5) rfl (by norm_num [new]) 2
  norm_num [new] at this ⊢
  exact ⟨this, by rw [this]; norm_num⟩

/-- The clause about `setMinMax` fails: the call changes nothing. -/
theorem setMinMax_no_effect (s : St K) (a b x : K) : run (setMinMax s a b) x = run s x := rfl
theorem setMinMax_violated : run (setMinMax (new (0 : ℚ) 5) 0 100) 7 = 2 := by
  have : ⌊(7 : ℚ) / 5⌋ = 1 := by norm_num
  norm_num [run, setMinMax, new, wrap, this]

theorem disabled_passes (s : St K) (he : s.enabled = false) (x : K) : run s x = x := by simp [run, he]

/-- Non-vacuity: 7 wraps to 2 in [0,5), -1 to 4. -/
example : run (new (0 : ℚ) 5) 7 = 2 := setMinMax_violated
example : ∀ k : Int, (7 : ℚ) ≠ 0 + k * (5 - 0) := by
  intro k h
  have h1 : (7 : ℤ) = k * 5 := by
    have : ((7 : ℤ) : ℚ) = ((k * 5 : ℤ) : ℚ) := by push_cast; linarith
    exact_mod_cast this
  omega

end Verif.Control.WrapAround
