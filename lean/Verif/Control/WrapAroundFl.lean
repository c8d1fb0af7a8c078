import Verif.Common.Round
/-!
`WrapAround::calculateResult` with the rounding of doubles, includes/eeros/control/WrapAround.hpp:92-103, and what the rounding does to
C31.  `floor` of a double is a double, so it is not rounded again.
-/
namespace Verif.Control.WrapAroundFl
open Verif.Common.Round

/-- `calculateResult`, 92-103; every arithmetic operation rounds. -/
def wrap (min max x : ℚ) : ℚ :=
  let delta := |rnd (max - min)|
  let num := rnd (x - min)
  let tquot : ℚ := (⌊rnd (num / delta)⌋ : ℚ)
  let out := rnd (num - rnd (tquot * delta))
  if out < 0 then rnd (out + delta)
  else if 0 < out then rnd (out + min)
  else x

/-- The double next to π (`M_PI`). -/
def pi : ℚ := 7074237752028440 / 2 ^ 51

/-- A double a little below 65π. -/
def x0 : ℚ := 7184772716903884 / 2 ^ 45

/-- Both are doubles. -/
example : rnd pi = pi ∧ rnd x0 = x0 := by
  constructor
  · have h := fl_exact 7074237752028440 (-51) (by norm_num)
    rw [rnd_pos (by norm_num [pi]), show pi = ((7074237752028440 : ℕ) : ℚ) * 2 ^ (-51 : ℤ) by norm_num [pi]]
    exact h
  · have h := fl_exact 7184772716903884 (-45) (by norm_num)
    rw [rnd_pos (by norm_num [x0]), show x0 = ((7184772716903884 : ℕ) : ℚ) * 2 ^ (-45 : ℤ) by norm_num [x0]]
    exact h

/-- **C31 with doubles, violated.** For the range [-π, π) there is an input which is not a multiple of the range away from the limits and for
which the result is nearly 2π: the quotient rounds up to 33, the remainder becomes negative, and the branch for a negative remainder adds the
width of the range but not its lower limit. -/
theorem negative_remainder_violated :
    wrap (-pi) pi x0 = 7074237752028408 / 2 ^ 50 ∧ pi < wrap (-pi) pi x0 ∧ ∀ k : ℤ, x0 ≠ -pi + k * (pi - -pi) := by
  have h : wrap (-pi) pi x0 = 7074237752028408 / 2 ^ 50 := by
    have hd : rnd (pi - -pi) = 7074237752028440 / 2 ^ 50 := by
      rw [rnd_pos (by norm_num [pi]), fl_eq _ 2 7074237752028440 (by norm_num [pi]) (by norm_num [pi]) (by norm_num [pi, abs_lt])]
      norm_num
    have hn : rnd (x0 - -pi) = 7295307681779328 / 2 ^ 45 := by
      rw [rnd_pos (by norm_num [pi, x0]), fl_eq _ 7 7295307681779328 (by norm_num [pi, x0]) (by norm_num [pi, x0])
        (by norm_num [pi, x0, abs_lt])]
      norm_num
    have hq : rnd (7295307681779328 / 2 ^ 45 / |7074237752028440 / 2 ^ 50|) = 33 := by
      rw [rnd_pos (by positivity), abs_of_pos (by norm_num), fl_eq _ 5 4644337115725824 (by norm_num) (by norm_num)
        (by norm_num [abs_lt])]
      norm_num
    have hp : rnd (33 * |7074237752028440 / 2 ^ 50|) = 7295307681779329 / 2 ^ 45 := by
      rw [rnd_pos (by positivity), abs_of_pos (by norm_num), fl_eq _ 7 7295307681779329 (by norm_num) (by norm_num)
        (by norm_num [abs_lt])]
      norm_num
    have ho : rnd (7295307681779328 / 2 ^ 45 - 7295307681779329 / 2 ^ 45) = - (1 / 2 ^ 45) := by
      rw [rnd_neg (by norm_num), fl_eq _ (-45) 4503599627370496 (by norm_num) (by norm_num) (by norm_num [abs_lt])]
      norm_num
    have hr : rnd (- (1 / 2 ^ 45) + |7074237752028440 / 2 ^ 50|) = 7074237752028408 / 2 ^ 50 := by
      rw [abs_of_pos (by norm_num), rnd_pos (by norm_num), fl_eq _ 2 7074237752028408 (by norm_num) (by norm_num)
        (by norm_num [abs_lt])]
      norm_num
    have hf : ⌊(33 : ℚ)⌋ = 33 := by norm_num
    simp only [wrap, hd, hn, hq, hf]
    push_cast
    rw [hp, ho, if_pos (by norm_num), hr]
  refine ⟨h, by rw [h]; norm_num [pi], ?_⟩
  intro k hk
  have hk' : (7184772716903884 * 64 : ℤ) = 7074237752028440 * (2 * k - 1) := by
    have : ((7184772716903884 * 64 : ℤ) : ℚ) = ((7074237752028440 * (2 * k - 1) : ℤ) : ℚ) := by
      push_cast
      have : x0 * 2 ^ 51 = (-pi + k * (pi - -pi)) * 2 ^ 51 := by rw [← hk]
      unfold x0 pi at this
      linarith
    exact_mod_cast this
  omega

end Verif.Control.WrapAroundFl
