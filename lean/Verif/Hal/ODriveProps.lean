import Verif.Hal.ODrive
import Mathlib.Algebra.Order.Field.Basic
import Mathlib.Algebra.Order.Field.Rat
import Mathlib.Tactic.Linarith
import Mathlib.Tactic.FieldSimp
import Mathlib.Tactic.Positivity
namespace Verif.Hal.ODrive

/-! ### C100: velocity of an ODrive -/

/-- The number which the device sends: sign, digits in front of the point, digits behind the point. -/
structure Number where
  neg : Bool
  int : List Char
  frac : List Char

def Number.Valid (x : Number) : Prop :=
  x.int ≠ [] ∧ x.int.length ≤ 90 ∧ (∀ c ∈ x.int, c.isDigit = true) ∧ ∀ c ∈ x.frac, c.isDigit = true

/-- Value of the digits behind the point, least significant last. -/
def fracValue (l : List Char) : ℚ := (digitsValue l : ℚ) / 10 ^ l.length

/-- The value of the number. -/
def Number.value (x : Number) : ℚ :=
  let v := (digitsValue x.int : ℚ) + fracValue x.frac
  if x.neg then -v else v

/-- The characters of the reply. -/
def Number.text (x : Number) : List Char :=
  (if x.neg then ['-'] else []) ++ x.int ++ ['.'] ++ x.frac ++ ['\r', '\n']

theorem readPoint_text (t r : List Char) (n : Nat) (hn : t.length < n) (ht : '.' ∉ t) :
    readPoint n (t ++ '.' :: r) = .ok t r := by
  induction t generalizing n with
  | nil => cases n with
    | zero => simp at hn
    | succ n => simp [readPoint]
  | cons c t ih =>
    cases n with
    | zero => simp at hn
    | succ n =>
      have hc : c ≠ '.' := by intro h; subst h; simp at ht
      have := ih n (by simpa using hn) (by simp at ht; exact ht.2)
      simp [readPoint, hc, this]

theorem takeWhile_digits (l : List Char) (h : ∀ c ∈ l, c.isDigit = true) : l.takeWhile Char.isDigit = l := by
  induction l with
  | nil => rfl
  | cons c l ih => simp [h c (by simp), ih fun c hc => h c (by simp [hc])]

theorem digit_not_white (c : Char) (h : c.isDigit = true) : c.isWhitespace = false ∧ c ≠ '-' ∧ c ≠ '+' ∧ c ≠ '.' ∧ c ≠ '\r' := by
  refine ⟨?_, ?_, ?_, ?_, ?_⟩
  · by_contra hw
    have hw : c.isWhitespace = true := by simpa using hw
    unfold Char.isWhitespace at hw
    simp only [Bool.or_eq_true, decide_eq_true_eq] at hw
    rcases hw with ((rfl | rfl) | rfl) | rfl <;> exact absurd h (by decide)
  all_goals (rintro rfl; exact absurd h (by decide))

theorem stod_number (neg : Bool) (l : List Char) (hne : l ≠ []) (h : ∀ c ∈ l, c.isDigit = true) :
    stod ((if neg then ['-'] else []) ++ l) = some (if neg then - (digitsValue l : Int) else digitsValue l) := by
  obtain ⟨c, l', rfl⟩ := List.exists_cons_of_ne_nil hne
  obtain ⟨h1, h2, h3, -, -⟩ := digit_not_white c (h c (by simp))
  have ht := takeWhile_digits _ h
  cases neg with
  | true =>
    have : Char.isWhitespace '-' = false := by decide
    simp [stod, this, ht]
  | false =>
    simp only [stod, Bool.false_eq_true, if_false, List.nil_append, List.dropWhile_cons, h1]
    split
    · simp_all
    · simp_all
    · simp [ht]

theorem skipReturn_digits (l r : List Char) (h : ∀ c ∈ l, c.isDigit = true) : skipReturn (l ++ '\r' :: r) = some r := by
  induction l with
  | nil => simp [skipReturn]
  | cons c l ih =>
    have := digit_not_white c (h c (by simp))
    simp [skipReturn, this, ih (fun c hc => h c (by simp [hc]))]

/-- **C100.** The reply of the device is read completely and nothing more: what follows on the line is left for the next call. -/
theorem reply_consumed (x : Number) (hx : x.Valid) (rest : List Char) :
    ∃ v, getVel 1 (x.text ++ rest) = .velocity v rest := by
  obtain ⟨h1, h2, h3, h4⟩ := hx
  refine ⟨if x.neg then - (digitsValue x.int : Int) else digitsValue x.int, ?_⟩
  have hr : readPoint bufferSize (x.text ++ rest) = .ok ((if x.neg then ['-'] else []) ++ x.int) (x.frac ++ '\r' :: '\n' :: rest) := by
    have : x.text ++ rest = ((if x.neg then ['-'] else []) ++ x.int) ++ '.' :: (x.frac ++ '\r' :: '\n' :: rest) := by
      simp [Number.text]
    rw [this]
    refine readPoint_text _ _ _ ?_ ?_
    · cases x.neg <;> simp [bufferSize] <;> omega
    · intro hm
      have hm : '.' ∈ x.int := by cases hn : x.neg <;> simpa [hn] using hm
      exact absurd (h3 _ hm) (by decide)
  simp [getVel, hr, stod_number x.neg x.int h1 h3, skipReturn_digits x.frac ('\n' :: rest) h4]

example : ∃ v, getVel 1 ((⟨true, ['1', '2'], ['7', '5']⟩ : Number).text ++ "9.5\r\n".toList) = .velocity v "9.5\r\n".toList :=
  reply_consumed _ ⟨by simp, by simp, by decide, by decide⟩ _

theorem digit_le (c : Char) (h : c.isDigit = true) : c.toNat - '0'.toNat ≤ 9 := by
  simp only [Char.isDigit, Bool.and_eq_true, decide_eq_true_eq] at h
  have h2 : c.val.toNat ≤ 57 := by simpa using UInt32.le_iff_toNat_le.mp h.2
  have : c.toNat = c.val.toNat := rfl
  have : '0'.toNat = 48 := rfl
  omega

theorem digits_lt_aux (l : List Char) (h : ∀ c ∈ l, c.isDigit = true) (v : Nat) :
    l.foldl (fun v c => 10 * v + (c.toNat - '0'.toNat)) v < (v + 1) * 10 ^ l.length := by
  induction l generalizing v with
  | nil => simp
  | cons c l ih =>
    have := ih (fun c hc => h c (by simp [hc])) (10 * v + (c.toNat - '0'.toNat))
    have hd := digit_le c (h c (by simp))
    simp only [List.foldl_cons, List.length_cons]
    refine lt_of_lt_of_le this ?_
    rw [pow_succ, mul_comm (10 ^ l.length) 10, ← mul_assoc]
    exact Nat.mul_le_mul_right _ (by omega)

theorem fracValue_bounds (l : List Char) (h : ∀ c ∈ l, c.isDigit = true) : 0 ≤ fracValue l ∧ fracValue l < 1 := by
  unfold fracValue
  constructor
  · positivity
  · rw [div_lt_one (by positivity)]
    have := digits_lt_aux l h 0
    unfold digitsValue
    simp only [Nat.zero_add, Nat.one_mul] at this
    exact_mod_cast this

/-- **C100, partial.** The velocity read is the one sent without the digits behind the point.
Missing: the velocity which was sent (`fraction_lost`). -/
theorem velocity_truncated_partial (x : Number) (hx : x.Valid) (rest : List Char) :
    ∃ v : Int, getVel 1 (x.text ++ rest) = .velocity v rest ∧ |x.value - v| < 1 ∧ |(v : ℚ)| ≤ |x.value| ∧
      (x.value = v ↔ ∀ c ∈ x.frac, c = '0') := by
  obtain ⟨v, hv⟩ := reply_consumed x hx rest
  obtain ⟨h1, h2, h3, h4⟩ := hx
  have hvv : v = if x.neg then - (digitsValue x.int : Int) else digitsValue x.int := by
    have hr : readPoint bufferSize (x.text ++ rest) = .ok ((if x.neg then ['-'] else []) ++ x.int) (x.frac ++ '\r' :: '\n' :: rest) := by
      have : x.text ++ rest = ((if x.neg then ['-'] else []) ++ x.int) ++ '.' :: (x.frac ++ '\r' :: '\n' :: rest) := by
        simp [Number.text]
      rw [this]
      refine readPoint_text _ _ _ ?_ ?_
      · cases x.neg <;> simp [bufferSize] <;> omega
      · intro hm
        have hm : '.' ∈ x.int := by cases hn : x.neg <;> simpa [hn] using hm
        exact absurd (h3 _ hm) (by decide)
    simp [getVel, hr, stod_number x.neg x.int h1 h3, skipReturn_digits x.frac ('\n' :: rest) h4] at hv
    exact hv.symm
  obtain ⟨f0, f1⟩ := fracValue_bounds x.frac h4
  have hi : (0 : ℚ) ≤ digitsValue x.int := by positivity
  have hz : fracValue x.frac = 0 ↔ ∀ c ∈ x.frac, c = '0' := by
    have hp : (10 : ℚ) ^ x.frac.length ≠ 0 := by positivity
    unfold fracValue
    rw [div_eq_zero_iff]
    simp only [hp, or_false, Nat.cast_eq_zero]
    unfold digitsValue
    suffices ∀ (l : List Char) (v : Nat), (∀ c ∈ l, c.isDigit = true) →
        (l.foldl (fun v c => 10 * v + (c.toNat - '0'.toNat)) v = 0 ↔ v = 0 ∧ ∀ c ∈ l, c = '0') by
      simpa using this x.frac 0 h4
    intro l
    induction l with
    | nil => simp
    | cons c l ih =>
      intro v hl
      rw [List.foldl_cons, ih _ (fun c hc => hl c (by simp [hc]))]
      have hd := hl c (by simp)
      simp only [Char.isDigit, Bool.and_eq_true, decide_eq_true_eq] at hd
      have hge : 48 ≤ c.val.toNat := by simpa using UInt32.le_iff_toNat_le.mp hd.1
      have hc : c.toNat = c.val.toNat := rfl
      have h0 : '0'.toNat = 48 := rfl
      constructor
      · rintro ⟨ha, hb⟩
        refine ⟨by omega, ?_⟩
        intro c' hc'
        rcases List.mem_cons.mp hc' with rfl | hc'
        · apply Char.toNat_inj.mp
          omega
        · exact hb c' hc'
      · rintro ⟨rfl, hb⟩
        have : c = '0' := hb c (by simp)
        subst this
        exact ⟨by simp, fun c' hc' => hb c' (by simp [hc'])⟩
  refine ⟨v, hv, ?_⟩
  rw [hvv]
  unfold Number.value
  cases hn : x.neg with
  | true =>
    simp only [if_true, Int.cast_neg, Int.cast_natCast]
    refine ⟨by rw [abs_lt]; constructor <;> linarith, ?_, ?_⟩
    · rw [abs_neg, abs_neg, abs_of_nonneg hi, abs_of_nonneg (by linarith)]; linarith
    · rw [← hz]; constructor <;> intro h <;> linarith
  | false =>
    simp only [Bool.false_eq_true, if_false, Int.cast_natCast]
    refine ⟨by rw [abs_lt]; constructor <;> linarith, ?_, ?_⟩
    · rw [abs_of_nonneg hi, abs_of_nonneg (by linarith)]; linarith
    · rw [← hz]; constructor <;> intro h <;> linarith

/-- The device sends "-12.75". -/
example : (⟨true, ['1', '2'], ['7', '5']⟩ : Number).Valid := by
  refine ⟨by simp, by simp, ?_, ?_⟩ <;> decide

/-- **C100, violation.** The digits behind the point are lost: every motor which turns slower than one unit is seen as standing still. -/
theorem fraction_lost (x : Number) (hx : x.Valid) (rest : List Char) (hs : |x.value| < 1) :
    getVel 1 (x.text ++ rest) = .velocity 0 rest := by
  obtain ⟨v, hv, -, h2, -⟩ := velocity_truncated_partial x hx rest
  have : |(v : ℚ)| < 1 := lt_of_le_of_lt h2 hs
  have : |v| < 1 := by exact_mod_cast this
  have : v = 0 := Int.abs_lt_one_iff.mp this
  rw [hv, this]

example : getVel 1 "0.9\r\n".toList = .velocity 0 [] := by decide +kernel

theorem readPoint_none (l : List Char) (n : Nat) (h : '.' ∉ l) : readPoint n l = if n < l.length then .overflow else .blocked := by
  induction l generalizing n with
  | nil => simp [readPoint]
  | cons c l ih =>
    have hc : c ≠ '.' := by intro h'; subst h'; simp at h
    cases n with
    | zero => simp [readPoint]
    | succ n =>
      have := ih n (by simp at h; exact h.2)
      simp only [readPoint, hc, if_false, this, List.length_cons, Nat.add_lt_add_iff_right]
      split_ifs <;> rfl

/-- **C100, violation.** A reply without a point (an error message, an integer) is not recognised: the call waits for ever, or once more
than 100 characters have come it writes behind the end of its buffer. -/
theorem reply_without_point (got : Nat) (l : List Char) (h : '.' ∉ l) :
    getVel got l = if 100 < l.length then .overflow else .blocked := by
  unfold getVel
  rw [readPoint_none l _ h]
  unfold bufferSize
  split_ifs <;> rfl

example : getVel 1 "invalid property\r\n".toList = .blocked := by decide +kernel

/-- **C100, violation.** The error message is then taken for the beginning of the next reply, which ends the program by an exception. -/
theorem error_message_terminates : getVel 1 "invalid property\r\n7.5\r\n".toList = .exception := by decide +kernel

/-- **C100, violation.** If a further reply is already there, the last `read` takes away its first digit. -/
theorem next_reply_damaged : getVel 2 "7.5\r\n12.5\r\n".toList = .velocity 7 "2.5\r\n".toList := by decide +kernel

end Verif.Hal.ODrive
