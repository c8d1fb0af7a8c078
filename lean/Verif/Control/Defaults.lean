import Verif.Control.GainLimits
/-!
C329: the values which a constant source made without argument (`/repo/includes/eeros/control/Constant.hpp` 24-32, 79-81) and a cleared signal (`/repo/includes/eeros/control/Signal.hpp` 159-162)
have for integer types.  The comment in Constant.hpp:24-25 promises the smallest value of the type.
-/
namespace Verif.Control.Defaults
open Verif.Control.GainLimits

/-- The integer types, `bool` is one of them (`std::is_integral`). -/
inductive ITy where
  | bool
  | int (t : Ty)

/-- Conversion: to `bool` everything but 0 is true, otherwise modulo. -/
def ITy.conv : ITy → ℤ → ℤ
  | .bool, z => if z = 0 then 0 else 1
  | .int t, z => t.conv z

/-- `std::numeric_limits<S>::min()`. -/
def ITy.min : ITy → ℤ
  | .bool => 0
  | .int t => if t.signed then -2 ^ (t.w - 1) else 0

/-- Specification: the values of a type. -/
def ITy.Has : ITy → ℤ → Prop
  | .bool, z => z = 0 ∨ z = 1
  | .int t, z => t.Has z

/-- Constructor without argument, 30-32 and 79-81: the smallest value of `int32_t`, converted. -/
def constant (t : ITy) : ℤ := t.conv (-2 ^ 31)
/-- `Signal::clear`, 159-162. -/
def cleared (t : ITy) : ℤ := t.min

/-- Specification: the smallest value. -/
def Smallest (t : ITy) (z : ℤ) : Prop := t.Has z ∧ ∀ y, t.Has y → z ≤ y

theorem min_smallest (t : ITy) (z : ℤ) : Smallest t z ↔ z = t.min := by
  have key : Smallest t t.min := by
    cases t with
    | bool => exact ⟨Or.inl rfl, by rintro y (rfl | rfl) <;> decide⟩
    | int t =>
      obtain ⟨sg, w⟩ := t
      cases sg with
      | true =>
        refine ⟨?_, fun y hy => ?_⟩
        · simp only [ITy.Has, Ty.Has, ITy.min, if_true]
          exact ⟨le_rfl, by have : (0:ℤ) < 2 ^ (w - 1) := by positivity
                            linarith⟩
        · simp only [ITy.Has, Ty.Has, ITy.min, if_true] at hy ⊢; exact hy.1
      | false =>
        refine ⟨?_, fun y hy => ?_⟩
        · simp only [ITy.Has, Ty.Has, ITy.min, Bool.false_eq_true, if_false]; exact ⟨le_rfl, by positivity⟩
        · simp only [ITy.Has, Ty.Has, ITy.min, Bool.false_eq_true, if_false] at hy ⊢; exact hy.1
  constructor
  · intro h; exact le_antisymm (h.2 _ key.1) (key.2 _ h.1)
  · rintro rfl; exact key

/-- C329: a cleared signal has the smallest value of its type, for every integer type. -/
theorem cleared_smallest (t : ITy) : Smallest t (cleared t) := (min_smallest t _).2 rfl

/-- C329: the default of a constant source is the smallest value exactly for signed types of 32 bits and for unsigned types of less. -/
theorem constant_iff_partial (t : Ty) (hw : 1 ≤ t.w) : Smallest (.int t) (constant (.int t)) ↔ if t.signed then t.w = 32 else t.w ≤ 31 := by
  rw [min_smallest]
  obtain ⟨sg, w⟩ := t
  have h0 : (0:ℤ) < 2 ^ (w - 1) := by positivity
  cases sg with
  | true =>
    simp only [constant, ITy.conv, ITy.min, if_true]
    simp only at hw
    by_cases hs : w ≤ 31
    · have := (limits_short hw hs 0).2
      simp only [new] at this
      rw [this]
      constructor
      · intro h; linarith
      · intro h; omega
    · have := (limits_signed (w := w) (by omega) 0).2
      simp only [new] at this
      rw [this]
      constructor
      · intro h
        have h2 : (2:ℤ) ^ 31 = 2 ^ (w - 1) := by linarith
        have := pow_right_injective₀ (a := (2:ℤ)) (by norm_num) (by norm_num) h2
        omega
      · rintro rfl; rfl
  | false =>
    simp only [constant, ITy.conv, ITy.min, Bool.false_eq_true, if_false]
    by_cases hs : w ≤ 31
    · have := (limits_unsigned_short hs 0).2
      simp only [new] at this
      rw [this]
      exact ⟨fun _ => hs, fun _ => rfl⟩
    · have := (limits_unsigned (w := w) (by omega) 0).2
      simp only [new] at this
      have hp : (2:ℤ) ^ 32 ≤ 2 ^ w := pow_ge (by omega)
      have h2 : (2:ℤ) ^ 32 = 2 * 2 ^ 31 := by norm_num
      rw [this]
      constructor
      · intro h; have h3 : (0:ℤ) < 2 ^ 31 := by norm_num
        linarith
      · intro h; exact absurd h hs

example : constant (.int ⟨true, 32⟩) = -2147483648 := by decide
example : constant (.int ⟨false, 8⟩) = 0 := by decide

/-- C329, violation: a constant source of type `bool` is true by default, of a short signed type 0 (a value like any other: the source cannot be told from one which was set), of an unsigned
type of 32 bits 2147483648, in the middle of the range, and of a signed type of 64 bits far above the smallest value. -/
theorem constant_violated :
    ¬ Smallest .bool (constant .bool) ∧ (∀ w, 1 ≤ w → w ≤ 31 → constant (.int ⟨true, w⟩) = 0 ∧ ¬ Smallest (.int ⟨true, w⟩) 0) ∧
    constant (.int ⟨false, 32⟩) = 2147483648 ∧ ¬ Smallest (.int ⟨true, 64⟩) (constant (.int ⟨true, 64⟩)) := by
  refine ⟨?_, fun w h1 h2 => ?_, by decide, ?_⟩
  · rw [min_smallest]; decide
  · have e : constant (.int ⟨true, w⟩) = 0 := by
      exact (limits_short h1 h2 0).2
    refine ⟨e, ?_⟩
    have := (constant_iff_partial ⟨true, w⟩ h1).not.2 (by simp only [if_true]; omega)
    rwa [e] at this
  · exact (constant_iff_partial ⟨true, 64⟩ (by norm_num)).not.2 (by simp)

end Verif.Control.Defaults
