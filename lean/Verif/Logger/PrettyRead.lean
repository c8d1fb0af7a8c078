import Verif.Logger.PrettyProps
/-!
What a reader makes of the texts written by `logger::pretty` (includes/eeros/logger/Pretty.hpp:12-126): the number which stands there, with its sign and unit.
-/
namespace Verif.Logger.Pretty

/-! ### Specification: reading a number -/

/-- The unit behind a number: a prefix of the International System of Units, or a power of ten. -/
def readUnit : List Char → Option ℚ
  | [' '] => some 1
  | ['k'] => some 1000
  | ['M'] => some 1000000
  | ['G'] => some 1000000000
  | ['T'] => some 1000000000000
  | ['m'] => some (1 / 1000)
  | ['u'] => some (1 / 1000000)
  | ['n'] => some (1 / 1000000000)
  | ['p'] => some (1 / 1000000000000)
  | 'e' :: '+' :: ds => some (10 ^ Nat.ofDigitChars 10 ds 0)
  | 'e' :: '-' :: ds => some (1 / 10 ^ Nat.ofDigitChars 10 ds 0)
  | _ => none

/-- Digits, point, digits, unit. -/
def readAbs (t : List Char) : Option ℚ :=
  match t.dropWhile Char.isDigit with
  | '.' :: r => (readUnit (r.dropWhile Char.isDigit)).map fun u =>
      (Nat.ofDigitChars 10 (t.takeWhile Char.isDigit) 0 + Nat.ofDigitChars 10 (r.takeWhile Char.isDigit) 0 / 10 ^ (r.takeWhile Char.isDigit).length) * u
  | _ => none

/-- Spaces, an optional minus sign, the absolute value. -/
def read (t : List Char) : Option ℚ :=
  match t.dropWhile (· = ' ') with
  | '-' :: r => (readAbs r).map (- ·)
  | r => readAbs r

/-! ### Proofs -/

theorem readUnit_unit (positive : Bool) (r : Nat) : readUnit (unit positive r) = some (if positive then 10 ^ r else 1 / 10 ^ r) := by
  cases positive
  · by_cases h : r = 0 ∨ r = 3 ∨ r = 6 ∨ r = 9 ∨ r = 12
    · rcases h with rfl | rfl | rfl | rfl | rfl <;> simp only [unit, readUnit] <;> norm_num
    · have hu : unit false r = 'e' :: '-' :: Nat.toDigits 10 r := by
        unfold unit; simp only [Bool.false_eq_true, if_false]
        split <;> first | rfl | (exfalso; omega)
      rw [hu, readUnit, Nat.ofDigitChars_ten_toDigits]
      simp
  · by_cases h : r = 0 ∨ r = 3 ∨ r = 6 ∨ r = 9 ∨ r = 12
    · rcases h with rfl | rfl | rfl | rfl | rfl <;> simp only [unit, readUnit] <;> norm_num
    · have hu : unit true r = 'e' :: '+' :: Nat.toDigits 10 r := by
        unfold unit; simp only [if_true]
        split <;> first | rfl | (exfalso; omega)
      rw [hu, readUnit, Nat.ofDigitChars_ten_toDigits]
      simp

theorem unit_head (positive : Bool) (r : Nat) : ∃ c l, unit positive r = c :: l ∧ c.isDigit = false := by
  unfold unit
  split <;> split <;> exact ⟨_, _, rfl, by decide⟩

theorem takeDrop_digits (d : List Char) (c : Char) (l : List Char) (hd : ∀ x ∈ d, x.isDigit = true) (hc : c.isDigit = false) :
    (d ++ c :: l).takeWhile Char.isDigit = d ∧ (d ++ c :: l).dropWhile Char.isDigit = c :: l := by
  induction d with
  | nil => simp [hc]
  | cons x d ih =>
    have hx := hd x (by simp)
    have := ih (fun y hy => hd y (by simp [hy]))
    simp [hx, this.1, this.2]

theorem digits_isDigit (n : Nat) : ∀ x ∈ Nat.toDigits 10 n, x.isDigit = true := fun _ hx => Nat.isDigit_of_mem_toDigits (by norm_num) (by norm_num) hx

theorem readAbs_text (p : Parts) (hr : p.right < 1000) :
    readAbs (Nat.toDigits 10 p.left ++ '.' :: ((if p.right < 10 then ['0', '0'] else if p.right < 100 then ['0'] else []) ++ Nat.toDigits 10 p.right ++ unit p.positive p.r)) =
      some (value p) := by
  obtain ⟨a1, a2⟩ := takeDrop_digits (Nat.toDigits 10 p.left) '.'
    ((if p.right < 10 then ['0', '0'] else if p.right < 100 then ['0'] else []) ++ Nat.toDigits 10 p.right ++ unit p.positive p.r) (digits_isDigit _) (by decide)
  obtain ⟨c, l, hu, hc⟩ := unit_head p.positive p.r
  have hpad : ∀ x ∈ (if p.right < 10 then ['0', '0'] else if p.right < 100 then ['0'] else []) ++ Nat.toDigits 10 p.right, x.isDigit = true := by
    intro x hx
    rcases List.mem_append.1 hx with hx | hx
    · split_ifs at hx <;> simp at hx <;> subst hx <;> decide
    · exact digits_isDigit _ x hx
  obtain ⟨b1, b2⟩ := takeDrop_digits _ c l hpad hc
  unfold readAbs
  rw [a2, a1]
  simp only
  rw [hu, b1, b2, ← hu, readUnit_unit]
  have hlen : ((if p.right < 10 then ['0', '0'] else if p.right < 100 then ['0'] else []) ++ Nat.toDigits 10 p.right).length = 3 := by
    have := digits_length ⟨p.right, hr⟩
    simp only at this
    rw [List.length_append, this]
    split_ifs <;> simp_all
  have hval : Nat.ofDigitChars 10 ((if p.right < 10 then ['0', '0'] else if p.right < 100 then ['0'] else []) ++ Nat.toDigits 10 p.right) 0 = p.right := by
    have h := Nat.ofDigitChars_ten_toDigits (n := p.right)
    rw [Nat.ofDigitChars_eq_foldl] at h ⊢
    rw [List.foldl_append]
    split_ifs <;> simpa using h
  rw [hlen, hval, Nat.ofDigitChars_ten_toDigits]
  simp only [Option.map_some, Option.some.injEq, value, unitValue]
  norm_num

theorem read_text (p : Parts) (hr : p.right < 1000) : read (text p) = some (if p.neg then - value p else value p) := by
  have hA := readAbs_text p hr
  obtain ⟨d, l, hd⟩ : ∃ d l, Nat.toDigits 10 p.left = d :: l := List.exists_cons_of_ne_nil Nat.toDigits_ne_nil
  have hdd := digits_isDigit p.left d (by rw [hd]; simp)
  have hs : d ≠ ' ' := by rintro rfl; exact absurd hdd (by decide)
  have hm : d ≠ '-' := by rintro rfl; exact absurd hdd (by decide)
  have htext : text p = (if p.left < 10 then [' ', ' '] else if p.left < 100 then [' '] else []) ++ (if p.neg then '-' else ' ') ::
      (Nat.toDigits 10 p.left ++ '.' :: ((if p.right < 10 then ['0', '0'] else if p.right < 100 then ['0'] else []) ++ Nat.toDigits 10 p.right ++ unit p.positive p.r)) := by
    simp [text]
  have hsp : ∀ rest : List Char, ((if p.left < 10 then [' ', ' '] else if p.left < 100 then [' '] else []) ++ rest).dropWhile (· = ' ') = rest.dropWhile (· = ' ') := by
    intro rest
    split_ifs <;> simp
  unfold read
  rw [htext, hsp]
  cases hn : p.neg
  · simp only [Bool.false_eq_true, if_false]
    rw [hd] at hA ⊢
    simp only [List.cons_append, List.dropWhile_cons, decide_true, if_true, hs, decide_false, Bool.false_eq_true, if_false]
    split
    · rename_i e; rw [List.cons.injEq] at e; exact absurd e.1 hm
    · exact hA
  · simp only [if_true, List.dropWhile_cons, show ('-' = ' ') = False by simp, decide_false, Bool.false_eq_true, if_false, hA, Option.map_some]

/-- Reading the text gives the number back: towards zero by less than a thousandth of it, never with the wrong sign, and zero for numbers below 1e-12 only. -/
theorem reads_back (x : ℚ) : ∃ t y, pretty (.fin x) = some t ∧ read t = some y ∧
    (1 / 10 ^ 12 ≤ x → y ≤ x ∧ x - y < x / 1000) ∧
    (x ≤ -(1 / 10 ^ 12) → x ≤ y ∧ y - x < -x / 1000) ∧
    (|x| < 1 / 10 ^ 12 → y = 0) := by
  have e : (if decide (x < 0) = true then -x else x) = |x| := by
    by_cases h : x < 0
    · simp [h, abs_of_neg h]
    · simp [h, abs_of_nonneg (not_lt.1 h)]
  have hp : pretty (.fin x) = some (if |x| < 1 / 10 ^ 12 then "   0.000 ".toList else text (split (decide (x < 0)) |x|)) := by
    simp only [pretty, e]
  by_cases h : |x| < 1 / 10 ^ 12
  · have hb := abs_lt.1 h
    refine ⟨_, 0, hp, ?_, fun h1 => absurd hb.2 (not_lt.2 h1), fun h1 => absurd hb.1 (not_lt.2 h1), fun _ => rfl⟩
    rw [if_pos h]
    decide +kernel
  · have hx := not_lt.1 h
    obtain ⟨v1, v2, v3, -⟩ := value_right (decide (x < 0)) |x| hx
    have hs := (scaled_range (decide (x < 0)) |x| hx).1
    have hu := unitValue_pos (split (decide (x < 0)) |x|)
    rw [scaled, le_div_iff₀ hu, one_mul] at hs
    have v2' : |x| - value (split (decide (x < 0)) |x|) < |x| / 1000 := lt_of_lt_of_le v2 (by linarith)
    refine ⟨_, _, hp, by rw [if_neg h]; exact read_text _ v3, ?_, ?_, fun hc => absurd hc h⟩
    · intro h1
      have h0 : 0 < x := lt_of_lt_of_le (by norm_num) h1
      rw [abs_of_pos h0] at v1 v2' ⊢
      simp only [split, not_lt.2 h0.le, decide_false, Bool.false_eq_true, if_false]
      simp only [split, not_lt.2 h0.le, decide_false] at v1 v2'
      exact ⟨v1, v2'⟩
    · intro h1
      have h0 : x < 0 := lt_of_le_of_lt h1 (by norm_num)
      rw [abs_of_neg h0] at v1 v2' ⊢
      simp only [split, h0, decide_true, if_true]
      simp only [split, h0, decide_true] at v1 v2'
      constructor <;> linarith

/-- Case of `reads_back`: a negative number with a prefix, and one beyond the prefixes. -/
example : (pretty (.fin (-123456789 / 100))).map String.ofList = some "  -1.234M" ∧ (pretty (.fin (-123456789 / 100))).bind read = some (-1234000) ∧
    (pretty (.fin (25 * 10 ^ 15))).map String.ofList = some "  25.000e+15" ∧ (pretty (.fin (25 * 10 ^ 15))).bind read = some (25 * 10 ^ 15) ∧
    (pretty (.fin (1 / 30))).bind read = some (33333 / 1000000) := by decide +kernel

end Verif.Logger.Pretty
