import Verif.Control.WrapAroundFl
import Verif.Common.Double
/-!
How far off `WrapAround::calculateResult` is with the rounding of doubles (WrapAround.hpp:92-103): `Verif.Control.WrapAroundFl.wrap`.
-/
namespace Verif.Control.WrapAroundErr
open Verif.Common.Round Verif.Control.WrapAroundFl

/-- The error which the rounding can cause: six units in the last place of the input, the limit and the width together. -/
def tol (min max x : ℚ) : ℚ := 6 / 2 ^ 53 * (|x - min| + (max - min) + |min|)

/-- The remainder before the lower limit is added: congruent to the distance from the lower limit and in the range, up to rounding. -/
theorem remainder {X w : ℚ} (hw : 0 < w) :
    let d := |rnd w|
    let n := rnd X
    let t : ℤ := ⌊rnd (n / d)⌋
    let o := rnd (n - rnd (t * d))
    |d - w| ≤ w / 2 ^ 53 ∧ 0 < d ∧ |o - (X - t * w)| ≤ 7 / 2 / 2 ^ 53 * (|X| + w) ∧ - (7 / 2 / 2 ^ 53 * (|X| + w)) ≤ o ∧ o ≤ w + 7 / 2 / 2 ^ 53 * (|X| + w) := by
  intro d n t o
  have hd0 : d = rnd w := abs_of_nonneg (rnd_nonneg hw.le)
  have h1 : |d - w| ≤ w / 2 ^ 53 := by
    have := rnd_rel w
    rwa [← hd0, abs_of_pos hw] at this
  have hX0 := abs_nonneg X
  have hd1 := abs_le.1 h1
  have hd : 0 < d := by linarith [hd1.1]
  have h2 : |n - X| ≤ |X| / 2 ^ 53 := rnd_rel X
  have h3 : |rnd (n / d) * d - n| ≤ |n| / 2 ^ 53 := by
    have h := rnd_rel (n / d)
    have e : rnd (n / d) * d - n = (rnd (n / d) - n / d) * d := by
      rw [sub_mul, div_mul_cancel₀ _ hd.ne']
    rw [e, abs_mul, abs_of_pos hd]
    have := mul_le_mul_of_nonneg_right h hd.le
    rw [abs_div, abs_of_pos hd] at this
    refine le_trans this (le_of_eq ?_)
    field_simp
  have h4 : (t:ℚ) * d ≤ rnd (n / d) * d := mul_le_mul_of_nonneg_right (Int.floor_le _) hd.le
  have h5 : rnd (n / d) * d - d ≤ t * d := by
    have := mul_le_mul_of_nonneg_right (Int.lt_floor_add_one (rnd (n / d))).le hd.le
    have e : ((t:ℚ) + 1) * d = t * d + d := by ring
    change rnd (n / d) * d ≤ ((t:ℚ) + 1) * d at this
    linarith
  set s := rnd (n / d) * d with hs
  have h6 : |rnd (t * d) - t * d| ≤ |(t:ℚ) * d| / 2 ^ 53 := rnd_rel _
  have h7 : |o - (n - rnd (t * d))| ≤ |n - rnd (t * d)| / 2 ^ 53 := rnd_rel _
  have h8 : |(t:ℚ) * d - t * w| ≤ |(t:ℚ) * w| / 2 ^ 53 := by
    rw [← mul_sub, abs_mul, abs_mul, abs_of_pos hw, mul_div_assoc]
    exact mul_le_mul_of_nonneg_left h1 (abs_nonneg _)
  set A := (t:ℚ) * d
  set B := (t:ℚ) * w
  set p := rnd A
  have k2 := abs_le.1 h2
  have k3 := abs_le.1 h3
  have k6 := abs_le.1 h6
  have k7 := abs_le.1 h7
  have k8 := abs_le.1 h8
  have bn : |n| ≤ |X| + |X| / 2 ^ 53 := by
    have : |n| ≤ |n - X| + |X| := by
      have := abs_add_le (n - X) X
      rwa [sub_add_cancel] at this
    linarith
  have hn0 := abs_nonneg n
  have bA : |A| ≤ |n| + |n| / 2 ^ 53 + d := by
    rw [abs_le]
    have := le_abs_self n
    have := neg_abs_le n
    constructor <;> linarith [k3.1, k3.2]
  have bB : |B| ≤ |A| + |B| / 2 ^ 53 := by
    have := abs_add_le (B - A) A
    rw [sub_add_cancel, abs_sub_comm] at this
    linarith
  have hA0 := abs_nonneg A
  have hB0 := abs_nonneg B
  have bnp : -(|n| / 2 ^ 53 + |A| / 2 ^ 53) ≤ n - p ∧ n - p ≤ d + |n| / 2 ^ 53 + |A| / 2 ^ 53 := by
    constructor <;> linarith [k3.1, k3.2, k6.1, k6.2]
  have bnp' : |n - p| ≤ d + |n| / 2 ^ 53 + |A| / 2 ^ 53 := by
    rw [abs_le]
    constructor <;> linarith [bnp.1, bnp.2]
  refine ⟨h1, hd, ?_, ?_, ?_⟩
  · rw [abs_le]
    constructor <;> linarith [k2.1, k2.2, k6.1, k6.2, k7.1, k7.2, k8.1, k8.2, hd1.1, hd1.2]
  · linarith [k7.1, bnp.1, hd1.2]
  · linarith [k7.2, bnp.2, hd1.2]

/-- **How far off the result is.**  For every input: either the input passes unchanged, or the result is between the limits and congruent to the input modulo the
width of the range, both up to `tol`, or — with a negative remainder — it is at the upper end of the range from zero to the width, and misses the lower limit. -/
theorem error_bound {min max : ℚ} (hmin : IsDouble min) (h : min < max) (x : ℚ) :
    wrap min max x = x ∨
    (min ≤ wrap min max x ∧ wrap min max x ≤ max + tol min max x ∧ ∃ k : ℤ, |wrap min max x - (x - k * (max - min))| ≤ tol min max x) ∨
    (|wrap min max x - (max - min)| ≤ tol min max x ∧ ∃ k : ℤ, |wrap min max x - (x - min - k * (max - min))| ≤ tol min max x) := by
  have hw : 0 < max - min := by linarith
  obtain ⟨h1, h2, h3, h4, h5⟩ := remainder (X := x - min) hw
  have hX0 := abs_nonneg (x - min)
  have hm0 := abs_nonneg min
  unfold wrap tol
  simp only
  set d := |rnd (max - min)| with hd
  set n := rnd (x - min)
  set t : ℤ := ⌊rnd (n / d)⌋
  set o := rnd (n - rnd ((t:ℚ) * d))
  have k1 := abs_le.1 h1
  have k3 := abs_le.1 h3
  by_cases c1 : o < 0
  · rw [if_pos c1]
    right; right
    have h6 := rnd_rel (o + d)
    have hb : |o + d| ≤ d - o := by
      rw [abs_le]
      constructor <;> linarith
    have k6 := abs_le.1 h6
    have b1 : |o + d| / 2 ^ 53 ≤ (d - o) / 2 ^ 53 := div_le_div_of_nonneg_right hb (by norm_num)
    constructor
    · rw [abs_le]
      constructor <;> linarith [k1.1, k1.2, k6.1, k6.2]
    · refine ⟨t - 1, ?_⟩
      have e : x - min - ((t - 1 : ℤ) : ℚ) * (max - min) = x - min - t * (max - min) + (max - min) := by
        push_cast
        ring
      rw [e, abs_le]
      constructor <;> linarith [k1.1, k1.2, k6.1, k6.2, k3.1, k3.2]
  · rw [if_neg c1]
    by_cases c2 : 0 < o
    · rw [if_pos c2]
      right; left
      have h6 := rnd_rel (o + min)
      have hb : |o + min| ≤ o + |min| := by
        have := abs_add_le o min
        rwa [abs_of_pos c2] at this
      have k6 := abs_le.1 h6
      have b1 : |o + min| / 2 ^ 53 ≤ (o + |min|) / 2 ^ 53 := div_le_div_of_nonneg_right hb (by norm_num)
      refine ⟨?_, ?_, t, ?_⟩
      · have := rnd_mono (show min ≤ o + min by linarith)
        rwa [hmin] at this
      · linarith [k6.2]
      · rw [abs_le]
        constructor <;> linarith [k6.1, k6.2, k3.1, k3.2]
    · rw [if_neg c2]
      exact Or.inl rfl

/-- The limits of the next example are doubles. -/
example : IsDouble (-pi) ∧ -pi < pi ∧ wrap (-pi) pi 4 = 4 - 2 * pi := by
  unfold IsDouble
  decide +kernel

/-- **A large input is not wrapped into the range**: 10^18 gives 124.86 for the range from -π to π, because the product of the quotient and the width is rounded
to a multiple of 128. -/
theorem large_input_violated : IsDouble (10 ^ 18) ∧ 39 * pi < wrap (-pi) pi (10 ^ 18) := by
  unfold IsDouble
  decide +kernel

/-- Such a result is within the error bound. -/
example : 39 * pi < pi + tol (-pi) pi (10 ^ 18) := by decide +kernel

end Verif.Control.WrapAroundErr
