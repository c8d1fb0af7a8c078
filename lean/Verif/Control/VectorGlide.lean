import Verif.Control.VectorCmp
import Mathlib.Tactic.Linarith
import Mathlib.Tactic.Ring
import Mathlib.Tactic.FinCases
import Mathlib.Tactic.NormNum
/-!
When the smooth change of a gain matrix (Gain.hpp:110-132, model in `Verif/Control/VectorCmp.lean`) reaches its target: the exact condition.
Exact arithmetic.
-/
namespace Verif.Control.VectorGlide
open Verif.Control.VectorCmp

variable {K : Type} [Field K] [LinearOrder K] [IsStrictOrderedRing K] {n : Nat}

/-- Specification: the gain passes or meets its target in all elements in the same run.  Either all elements meet it after `m` steps, or
all of them would pass it with step `m + 1`.  `s` is 1 for a growing and -1 for a shrinking gain. -/
def Together (s : K) (g target diff : Fin n → K) : Prop :=
  ∃ m : Nat, (∀ i, target i = g i + s * (m * diff i)) ∨
    ∀ i, m * diff i < s * (target i - g i) ∧ s * (target i - g i) < (m + 1) * diff i

omit [IsStrictOrderedRing K] in
theorem glide_up (g target diff : Fin n → K) (i0 : Fin n) (h : ∀ i, g i < target i) :
    ((∀ i, target i < g i + diff i) → glide g target diff = target) ∧
    ((∃ i, g i + diff i ≤ target i) → glide g target diff = fun i => g i + diff i) := by
  have h1 : vlt (num g) (num target) = true := (vlt_num _ _).2 h
  constructor
  · intro ho
    have h2 : vgt (num fun i => g i + diff i) (num target) = true := (vgt_num _ _).2 ho
    have h3 : vgt (num target) (num target) = false := by
      rw [Bool.eq_false_iff, Ne, vgt_num]; exact fun h => lt_irrefl _ (h i0)
    simp [glide, h1, h2, h3]
  · rintro ⟨j, hj⟩
    have h2 : vgt (num fun i => g i + diff i) (num target) = false := by
      rw [Bool.eq_false_iff, Ne, vgt_num]; exact fun h => absurd (h j) (not_lt.2 hj)
    simp [glide, h1, h2]

omit [IsStrictOrderedRing K] in
theorem glide_down (g target diff : Fin n → K) (i0 : Fin n) (h : ∀ i, target i < g i) :
    ((∀ i, g i - diff i < target i) → glide g target diff = target) ∧
    ((∃ i, target i ≤ g i - diff i) → glide g target diff = fun i => g i - diff i) := by
  have h1 : vlt (num g) (num target) = false := by
    rw [Bool.eq_false_iff, Ne, vlt_num]; exact fun h' => lt_asymm (h i0) (h' i0)
  have h1' : vgt (num g) (num target) = true := (vgt_num _ _).2 h
  constructor
  · intro ho
    have h2 : vlt (num fun i => g i - diff i) (num target) = true := (vlt_num _ _).2 ho
    simp [glide, h1, h1', h2]
  · rintro ⟨j, hj⟩
    have h2 : vlt (num fun i => g i - diff i) (num target) = false := by
      rw [Bool.eq_false_iff, Ne, vlt_num]; exact fun h => absurd (h j) (not_lt.2 hj)
    simp [glide, h1, h1', h2]

/-- One step further. -/
theorem together_step (s : K) (hs : s * s = 1) (g target diff : Fin n → K) (h : Together s (fun i => g i + s * diff i) target diff) :
    Together s g target diff := by
  obtain ⟨m, h | h⟩ := h
  · refine ⟨m + 1, Or.inl fun i => ?_⟩
    rw [h i]; push_cast; ring
  · refine ⟨m + 1, Or.inr fun i => ?_⟩
    obtain ⟨h1, h2⟩ := h i
    have e : s * (target i - (g i + s * diff i)) = s * (target i - g i) - diff i := by
      calc s * (target i - (g i + s * diff i)) = s * (target i - g i) - s * s * diff i := by ring
        _ = _ := by rw [hs, one_mul]
    rw [e] at h1 h2
    push_cast
    constructor <;> nlinarith

/-- One step less. -/
theorem together_less (s : K) (hs : s * s = 1) (g target diff : Fin n → K) (m : Nat)
    (h : (∀ i, target i = g i + s * ((m + 1 : Nat) * diff i)) ∨
      ∀ i, (m + 1 : Nat) * diff i < s * (target i - g i) ∧ s * (target i - g i) < ((m + 1 : Nat) + 1) * diff i) :
    (∀ i, target i = (g i + s * diff i) + s * (m * diff i)) ∨
      ∀ i, m * diff i < s * (target i - (g i + s * diff i)) ∧ s * (target i - (g i + s * diff i)) < (m + 1) * diff i := by
  rcases h with h | h
  · refine Or.inl fun i => ?_
    rw [h i]; push_cast; ring
  · refine Or.inr fun i => ?_
    obtain ⟨h1, h2⟩ := h i
    have e : s * (target i - (g i + s * diff i)) = s * (target i - g i) - diff i := by
      calc s * (target i - (g i + s * diff i)) = s * (target i - g i) - s * s * diff i := by ring
        _ = _ := by rw [hs, one_mul]
    rw [e]
    push_cast at h1 h2
    constructor <;> nlinarith

/-- **When a growing gain matrix reaches its target**: exactly when all elements get there in the same run.  All other changes never end at the
target, in any number of runs. -/
theorem reaches_iff (min max target diff : Fin n → K) (hd : ∀ i, 0 < diff i) (g : Fin n → K) (hmin : ∀ i, min i ≤ g i)
    (hmax : ∀ i, target i ≤ max i) (j0 : Fin n) (hj0 : g j0 ≤ target j0) :
    (∃ k, gains min max target diff k g = target) ↔ Together 1 g target diff := by
  constructor
  · rintro ⟨k, hk⟩
    induction k generalizing g j0 with
    | zero => exact ⟨0, Or.inl fun i => by rw [← hk]; simp [gains]⟩
    | succ k ih =>
      by_cases hall : ∀ i, g i < target i
      · by_cases ho : ∀ i, target i < g i + diff i
        · exact ⟨0, Or.inr fun i => ⟨by have := hall i; simp; linarith, by have := ho i; simp; linarith⟩⟩
        · push Not at ho
          obtain ⟨j, hj⟩ := ho
          rw [gains, (glide_up g target diff j0 hall).2 ⟨j, hj⟩,
            limit_inside _ min max j j (hj.trans (hmax j)) ((hmin j).trans (by have := hd j; linarith))] at hk
          have := ih (fun i => g i + diff i) (fun i => (hmin i).trans (by have := hd i; linarith)) j hj hk
          apply together_step 1 (by ring)
          simpa using this
      · push Not at hall
        obtain ⟨i, hi⟩ := hall
        rw [gains, glide_stuck g target diff i j0 hi hj0, limit_inside g min max j0 j0 (hj0.trans (hmax j0)) (hmin j0)] at hk
        exact ih g hmin j0 hj0 hk
  · rintro ⟨m, h⟩
    induction m generalizing g with
    | zero =>
      rcases h with h | h
      · exact ⟨0, by funext i; rw [h i]; simp [gains]⟩
      · refine ⟨1, ?_⟩
        have hall : ∀ i, g i < target i := fun i => by have := (h i).1; simp at this; linarith
        rw [gains, (glide_up g target diff j0 hall).1 (fun i => by have := (h i).2; simp at this; linarith), gains]
        exact limit_inside _ min max j0 j0 (hmax j0) ((hmin j0).trans hj0)
    | succ m ih =>
      have hle : ∀ i, g i + diff i ≤ target i := fun i => by
        have hm : (0 : K) ≤ m * diff i := mul_nonneg (Nat.cast_nonneg m) (hd i).le
        rcases h with h | h
        · have := h i; push_cast at this; linarith
        · have := (h i).1; push_cast at this; linarith
      obtain ⟨k, hk⟩ := ih (fun i => g i + diff i) (fun i => (hmin i).trans (by have := hd i; linarith)) (hle j0)
        (by have := together_less 1 (by ring) g target diff m h; simpa using this)
      refine ⟨k + 1, ?_⟩
      rw [gains, (glide_up g target diff j0 (fun i => by have := hle i; have := hd i; linarith)).2 ⟨j0, hle j0⟩,
        limit_inside _ min max j0 j0 ((hle j0).trans (hmax j0)) ((hmin j0).trans (by have := hd j0; linarith))]
      exact hk

/-- **When a shrinking gain matrix reaches its target**: exactly when all elements get there in the same run. -/
theorem reaches_down_iff (min max target diff : Fin n → K) (hd : ∀ i, 0 < diff i) (g : Fin n → K) (hmin : ∀ i, min i ≤ target i)
    (hmax : ∀ i, g i ≤ max i) (j0 : Fin n) (hj0 : target j0 ≤ g j0) :
    (∃ k, gains min max target diff k g = target) ↔ Together (-1) g target diff := by
  constructor
  · rintro ⟨k, hk⟩
    induction k generalizing g j0 with
    | zero => exact ⟨0, Or.inl fun i => by rw [← hk]; simp [gains]⟩
    | succ k ih =>
      by_cases hall : ∀ i, target i < g i
      · by_cases ho : ∀ i, g i - diff i < target i
        · exact ⟨0, Or.inr fun i => ⟨by have := hall i; simp; linarith, by have := ho i; simp; linarith⟩⟩
        · push Not at ho
          obtain ⟨j, hj⟩ := ho
          rw [gains, (glide_down g target diff j0 hall).2 ⟨j, hj⟩,
            limit_inside _ min max j j (by have := hd j; have := hmax j; linarith) ((hmin j).trans hj)] at hk
          have := ih (fun i => g i - diff i) (fun i => by have := hd i; have := hmax i; linarith) j hj hk
          apply together_step (-1) (by ring)
          simpa [sub_eq_add_neg] using this
      · push Not at hall
        obtain ⟨i, hi⟩ := hall
        rw [gains, glide_stuck g target diff j0 i hj0 hi, limit_inside g min max j0 j0 (hmax j0) ((hmin j0).trans hj0)] at hk
        exact ih g hmax j0 hj0 hk
  · rintro ⟨m, h⟩
    induction m generalizing g with
    | zero =>
      rcases h with h | h
      · exact ⟨0, by funext i; rw [h i]; simp [gains]⟩
      · refine ⟨1, ?_⟩
        have hall : ∀ i, target i < g i := fun i => by have := (h i).1; simp at this; linarith
        rw [gains, (glide_down g target diff j0 hall).1 (fun i => by have := (h i).2; simp at this; linarith), gains]
        exact limit_inside _ min max j0 j0 (hj0.trans (hmax j0)) (hmin j0)
    | succ m ih =>
      have hle : ∀ i, target i ≤ g i - diff i := fun i => by
        have hm : (0 : K) ≤ m * diff i := mul_nonneg (Nat.cast_nonneg m) (hd i).le
        rcases h with h | h
        · have := h i; push_cast at this; linarith
        · have := (h i).1; push_cast at this; linarith
      obtain ⟨k, hk⟩ := ih (fun i => g i - diff i) (fun i => by have := hd i; have := hmax i; linarith) (hle j0)
        (by have := together_less (-1) (by ring) g target diff m h; simpa [sub_eq_add_neg] using this)
      refine ⟨k + 1, ?_⟩
      rw [gains, (glide_down g target diff j0 (fun i => by have := hle i; have := hd i; linarith)).2 ⟨j0, hle j0⟩,
        limit_inside _ min max j0 j0 (by have := hd j0; have := hmax j0; linarith) ((hmin j0).trans (hle j0))]
      exact hk

/-- Two elements, one with 4 and one with 2 steps to go: the target is never reached. -/
example : ¬ ∃ k, gains (K := ℚ) (n := 2) (fun _ => -10) (fun _ => 10) (fun i => if i = 0 then 4 else 2) (fun _ => 1) k (fun _ => 0)
    = fun i => if i = 0 then 4 else 2 := by
  rw [reaches_iff _ _ _ _ (fun _ => by norm_num) _ (fun _ => by norm_num) (fun i => by split <;> norm_num) 0 (by norm_num)]
  rintro ⟨m, h | h⟩
  · have h0 := h 0; have h1 := h 1
    simp at h0 h1; linarith
  · have h0 := (h 0).2; have h1 := (h 1).1
    norm_num at h0 h1
    have h1' : (m : ℚ) < 2 := by exact_mod_cast h1
    linarith

/-- Two elements which both pass their target with step 3 reach it. -/
example : ∃ k, gains (K := ℚ) (n := 2) (fun _ => -10) (fun _ => 10) (fun i => if i = 0 then -5/2 else -9/4) (fun _ => 1) k (fun _ => 0)
    = fun i => if i = 0 then -5/2 else -9/4 := by
  rw [reaches_down_iff _ _ _ _ (fun _ => by norm_num) _ (fun i => by split <;> norm_num) (fun _ => by norm_num) 0 (by norm_num)]
  refine ⟨2, Or.inr fun i => ?_⟩
  fin_cases i <;> norm_num

end Verif.Control.VectorGlide
