import Verif.Control.Differentiator
import Mathlib.Data.Rat.Cast.Order
import Mathlib.Tactic.Linarith
import Mathlib.Tactic.FieldSimp
import Mathlib.Tactic.NormNum
import Mathlib.Tactic.Ring
import Mathlib.Data.List.Induction
namespace Verif.Control.Differentiator
variable {K : Type} [Field K] [LinearOrder K] [IsStrictOrderedRing K]

theorem runs_append (s : St K) (xs : List (Sample K)) (x : Sample K) : runs s (xs ++ [x]) = run (runs s xs) x := by
  simp [runs]

theorem prev_last (xs : List (Sample K)) (x : Sample K) : (runs new (xs ++ [x])).prev = some x := by
  rw [runs_append]
  unfold run
  cases (runs new xs).prev with
  | none => rfl
  | some p => dsimp only; split <;> rfl

theorem stamps_ne (a b : Nat) : ((a : K) / 1000000000 ≠ (b : K) / 1000000000) ↔ a ≠ b := by
  have h : (1000000000 : K) ≠ 0 := by norm_num
  rw [not_iff_not]
  constructor
  · intro he; exact_mod_cast (div_left_inj' h).1 he
  · rintro rfl; rfl

/-- **C27, first sample.** The output is zero with the input's time stamp. -/
theorem first_sample (x : Sample K) : (runs new [x]).valOut = 0 ∧ (runs new [x]).timeOut = x.ts := ⟨rfl, rfl⟩

/-- **C27, difference quotient.** For every input sequence ending in samples `x`, `y` with different time stamps the output is the
difference quotient (per second) of these two, with a time stamp between theirs. -/
theorem difference_quotient (xs : List (Sample K)) (x y : Sample K) (h : x.ts ≠ y.ts) :
    let s := runs new (xs ++ [x] ++ [y])
    s.valOut = (y.val - x.val) / (((y.ts : K) - x.ts) / 1000000000) ∧
    min x.ts y.ts ≤ s.timeOut ∧ s.timeOut ≤ max x.ts y.ts := by
  intro s
  have hs : s = run (runs new (xs ++ [x])) y := runs_append _ _ _
  have hne : ((y.ts : K) / 1000000000 ≠ (x.ts : K) / 1000000000) := (stamps_ne _ _).2 (fun he => h he.symm)
  have hv : s.valOut = (y.val - x.val) / ((y.ts : K) / 1000000000 - (x.ts : K) / 1000000000) := by
    rw [hs]; simp only [run, prev_last, if_pos hne]
  have ht : s.timeOut = (y.ts + x.ts) / 2 := by
    rw [hs]; simp only [run, prev_last, if_pos hne]
  refine ⟨by rw [hv, ← sub_div ((y.ts : K))], ?_, ?_⟩
  · rw [ht]; omega
  · rw [ht]; omega

/-- **C27, repeated time stamp.** The output is left unchanged. -/
theorem repeated_stamp (xs : List (Sample K)) (x y : Sample K) (h : x.ts = y.ts) :
    (runs new (xs ++ [x] ++ [y])).valOut = (runs new (xs ++ [x])).valOut ∧
    (runs new (xs ++ [x] ++ [y])).timeOut = (runs new (xs ++ [x])).timeOut := by
  rw [runs_append _ (xs ++ [x]) y]
  have hne : ¬ ((y.ts : K) / 1000000000 ≠ (x.ts : K) / 1000000000) := by
    rw [stamps_ne]; simpa using h.symm
  constructor <;> simp only [run, prev_last, if_neg hne]


/-- The third sample has the time stamp of the second: the output stays 2. -/
example : (runs new ([⟨3, 1000000000⟩] ++ [(⟨7, 3000000000⟩ : Sample ℚ)] ++ [⟨100, 3000000000⟩])).valOut = 2 := by
  rw [(repeated_stamp [⟨3, 1000000000⟩] (⟨7, 3000000000⟩ : Sample ℚ) ⟨100, 3000000000⟩ rfl).1]
  have := (difference_quotient [] (⟨3, 1000000000⟩ : Sample ℚ) ⟨7, 3000000000⟩ (by decide)).1
  simp only [List.nil_append] at this
  rw [this]; norm_num

/-- **C27, affine inputs.** If all samples lie on a line of slope `b` per second, the output after at least one change of the time stamp
is exactly `b`. -/
theorem affine_exact (a b : K) (xs : List (Sample K)) (hx : ∀ x ∈ xs, x.val = a + b * ((x.ts : K) / 1000000000))
    (hch : ∃ x ∈ xs, ∃ y ∈ xs, x.ts ≠ y.ts) : (runs new xs).valOut = b := by
  induction xs using List.reverseRecOn with
  | nil => obtain ⟨x, hx, -⟩ := hch; simp at hx
  | append_singleton ys y ih =>
    rcases List.eq_nil_or_concat ys with rfl | ⟨zs, z, rfl⟩
    · obtain ⟨x, hx1, w, hw1, hne⟩ := hch
      simp at hx1 hw1; subst hx1; subst hw1; exact absurd rfl hne
    · rw [List.concat_eq_append] at *
      by_cases hzy : z.ts = y.ts
      · rw [(repeated_stamp zs z y hzy).1]
        apply ih
        · intro x hx'; exact hx x (List.mem_append_left _ hx')
        · -- z is among the earlier samples, so y can be replaced by z
          have key : ∀ x ∈ zs ++ [z] ++ [y], ∃ x' ∈ zs ++ [z], x'.ts = x.ts := by
            intro x hx'
            rcases List.mem_append.1 hx' with h | h
            · exact ⟨x, h, rfl⟩
            · simp at h; subst h; exact ⟨z, by simp, hzy⟩
          obtain ⟨x, hx1, w, hw1, hne⟩ := hch
          obtain ⟨x', hx2, hx3⟩ := key x hx1
          obtain ⟨w', hw2, hw3⟩ := key w hw1
          exact ⟨x', hx2, w', hw2, by rw [hx3, hw3]; exact hne⟩
      · rw [(difference_quotient zs z y hzy).1, hx y (by simp), hx z (by simp)]
        have h1 : ((y.ts : K) - z.ts) ≠ 0 := by
          intro h0; apply hzy
          have : (y.ts : K) = z.ts := by linarith
          exact_mod_cast this.symm
        field_simp
        ring

/-- Non-vacuity: 3 at 1 s, 7 at 3 s. -/
example : (runs new ([] ++ [(⟨3, 1000000000⟩ : Sample ℚ)] ++ [⟨7, 3000000000⟩])).valOut = 2 := by
  rw [(difference_quotient [] (⟨3, 1000000000⟩ : Sample ℚ) ⟨7, 3000000000⟩ (by decide)).1]; norm_num
example : ∀ x ∈ [(⟨3, 1000000000⟩ : Sample ℚ), ⟨7, 3000000000⟩], x.val = 1 + 2 * ((x.ts : ℚ) / 1000000000) := by
  norm_num

end Verif.Control.Differentiator
