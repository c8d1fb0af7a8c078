/-
C130: how exact floating point numbers are written and read.
-/
import Verif.Config.DoubleText
import Verif.Config.TextProps

namespace Verif.Config

open Verif.Common.Round

/-! ### Digits -/

theorem digitsVal_append (a b : List Char) : digitsVal (a ++ b) = digitsVal a * 10 ^ b.length + digitsVal b := by
  have key : ∀ (b : List Char) (n : Nat), b.foldl (fun n c => n * 10 + digitVal c) n = n * 10 ^ b.length + b.foldl (fun n c => n * 10 + digitVal c) 0 := by
    intro b
    induction b with
    | nil => intro n; simp
    | cons c b ih =>
      intro n
      rw [List.foldl_cons, List.foldl_cons, ih (n * 10 + digitVal c), ih (0 * 10 + digitVal c), List.length_cons, pow_succ]
      ring
  unfold digitsVal
  rw [List.foldl_append, key]

theorem digitsVal_natText (n : Nat) : digitsVal (natText n) = n := natText_value n

def AllDigits (s : List Char) : Prop := ∀ c ∈ s, ∃ d, d < 10 ∧ c = digitChar d

theorem pad_length (k n : Nat) : (pad k n).length = k := by
  induction k generalizing n with
  | zero => rfl
  | succ k ih => simp [pad, ih]

theorem pad_digits (k n : Nat) : AllDigits (pad k n) := by
  induction k generalizing n with
  | zero => intro c hc; simp [pad] at hc
  | succ k ih =>
    intro c hc
    simp only [pad, List.mem_append, List.mem_singleton] at hc
    rcases hc with hc | hc
    · exact ih _ c hc
    · exact ⟨n % 10, Nat.mod_lt _ (by norm_num), hc⟩

theorem digitsVal_pad (k n : Nat) : digitsVal (pad k n) = n % 10 ^ k := by
  induction k generalizing n with
  | zero => simp [pad, digitsVal, Nat.mod_one]
  | succ k ih =>
    rw [pad, digitsVal_append, ih]
    have : digitsVal [digitChar (n % 10)] = n % 10 := by
      simp [digitsVal, (digit_cases (n % 10) (Nat.mod_lt _ (by norm_num))).2.1]
    rw [this, List.length_singleton, pow_one, pow_succ, mul_comm (10 ^ k) 10, Nat.mod_mul]
    omega

theorem AllDigits.isDigit {s : List Char} (h : AllDigits s) : ∀ c ∈ s, isDigit c = true := fun c hc => by
  obtain ⟨d, hd, rfl⟩ := h c hc; exact (digit_cases d hd).1

theorem AllDigits.append {a b : List Char} (ha : AllDigits a) (hb : AllDigits b) : AllDigits (a ++ b) := fun c hc => by
  rcases List.mem_append.1 hc with h | h
  · exact ha c h
  · exact hb c h

theorem natText_all (n : Nat) : AllDigits (natText n) := (natText_digits n).2

/-- What follows a number: nothing or an exponent. -/
def Follow (r : List Char) : Prop := r = [] ∨ ∃ s, r = 'e' :: s

theorem span_digits (a r : List Char) (ha : AllDigits a) (hr : r = [] ∨ ∃ c s, r = c :: s ∧ isDigit c = false) :
    (a ++ r).takeWhile isDigit = a ∧ (a ++ r).dropWhile isDigit = r := by
  rcases hr with rfl | ⟨c, s, rfl, hc⟩
  · rw [List.append_nil]
    exact takeWhile_all _ _ ha.isDigit
  · induction a with
    | nil => simp [hc]
    | cons x a ih =>
      have := ih fun y hy => ha y (List.mem_cons_of_mem _ hy)
      have hx := ha.isDigit x (List.mem_cons_self ..)
      simp [hx, this.1, this.2]

/-- The fraction with its point. -/
def dotted (fp : List Char) : List Char := if fp.isEmpty then [] else '.' :: fp

theorem readDec_dotted (ip fp r : List Char) (hi : AllDigits ip) (hf : AllDigits fp) (hr : Follow r) :
    readDec (ip ++ (dotted fp ++ r)) = (ip, fp, r) := by
  have hr' : r = [] ∨ ∃ c s, r = c :: s ∧ isDigit c = false := by
    rcases hr with rfl | ⟨s, rfl⟩
    · exact Or.inl rfl
    · exact Or.inr ⟨'e', s, rfl, by decide⟩
  unfold readDec
  cases fp with
  | nil =>
    have := span_digits ip r hi hr'
    simp only [dotted, List.isEmpty_nil, if_true, List.nil_append, this.1, this.2]
    rcases hr with rfl | ⟨s, rfl⟩
    · rfl
    · rfl
  | cons c fp =>
    have h1 := span_digits ip ('.' :: ((c :: fp) ++ r)) hi (Or.inr ⟨'.', _, rfl, by decide⟩)
    have h2 := span_digits (c :: fp) r hf hr'
    have e : dotted (c :: fp) ++ r = '.' :: ((c :: fp) ++ r) := rfl
    simp only [e, h1.1, h1.2, if_true, h2.1, h2.2]

theorem stod_dec (neg : Bool) (ip fp r : List Char) (hi : AllDigits ip) (hn : ip ≠ []) (hf : AllDigits fp) (hr : Follow r) :
    stod (' ' :: ((if neg then ['-'] else []) ++ (ip ++ (dotted fp ++ r)))) =
      toDouble (if neg then -((digitsVal (ip ++ fp) : ℚ) * 10 ^ (readExp r - fp.length)) else (digitsVal (ip ++ fp) : ℚ) * 10 ^ (readExp r - fp.length)) := by
  obtain ⟨c, ip', rfl⟩ := List.exists_cons_of_ne_nil hn
  obtain ⟨d, hd, rfl⟩ := hi c (List.mem_cons_self ..)
  obtain ⟨_, _, c3, _, _, c6, c7⟩ := digit_cases d hd
  have ci : digitChar d ≠ 'i' ∧ digitChar d ≠ 'n' := by interval_cases d <;> decide
  have habs : stodAbs neg ((digitChar d :: ip') ++ (dotted fp ++ r)) =
      toDouble (if neg then -((digitsVal ((digitChar d :: ip') ++ fp) : ℚ) * 10 ^ (readExp r - fp.length)) else (digitsVal ((digitChar d :: ip') ++ fp) : ℚ) * 10 ^ (readExp r - fp.length)) := by
    unfold stodAbs
    rw [if_neg (by simp [List.isPrefixOf, Ne.symm ci.1]), if_neg (by simp [List.isPrefixOf, Ne.symm ci.2]), readDec_dotted _ _ _ hi hf hr]
    simp
  unfold stod
  cases neg with
  | true => exact habs
  | false =>
    have hs : (' ' :: ((if false then ['-'] else []) ++ ((digitChar d :: ip') ++ (dotted fp ++ r)))).dropWhile isSpace = (digitChar d :: ip') ++ (dotted fp ++ r) := by
      simp only [Bool.false_eq_true, if_false, List.nil_append, List.cons_append]
      rw [List.dropWhile_cons, if_pos (by decide), List.dropWhile_cons, if_neg (by simp [c3])]
    have hg : sign ((digitChar d :: ip') ++ (dotted fp ++ r)) = (false, (digitChar d :: ip') ++ (dotted fp ++ r)) := by
      rw [List.cons_append, sign, if_neg c6, if_neg c7]
    simp only [hs, hg]
    exact habs

/-! ### Six decimals -/

/-- The nearest multiple of a millionth. -/
def micro (x : ℚ) : ℚ := (if x < 0 then -1 else 1) * (nearest (|x| * 10 ^ 6) : ℚ) / 10 ^ 6

theorem nearest_nonneg {y : ℚ} (h : 0 ≤ y) : 0 ≤ nearest y := by
  have := nearest_mono (x := ((0 : ℤ) : ℚ)) (y := y) (by simpa using h)
  rwa [nearest_int] at this

theorem fixed_read (x : ℚ) : stod (' ' :: fixedText x) = toDouble (micro x) := by
  unfold fixedText micro
  have hm : 0 ≤ nearest (|x| * 10 ^ 6) := nearest_nonneg (by positivity)
  obtain ⟨m, hm'⟩ := Int.eq_ofNat_of_zero_le hm
  simp only [hm', Int.toNat_natCast]
  have := stod_dec (decide (x < 0)) (natText (m / 10 ^ 6)) (pad 6 (m % 10 ^ 6)) [] (natText_all _) (natText_digits _).1 (pad_digits _ _) (Or.inl rfl)
  have hd : dotted (pad 6 (m % 10 ^ 6)) = '.' :: pad 6 (m % 10 ^ 6) := by
    unfold dotted
    rw [if_neg]
    have := pad_length 6 (m % 10 ^ 6)
    intro h
    rw [List.isEmpty_iff.1 h] at this
    simp at this
  have hv : digitsVal (natText (m / 10 ^ 6) ++ pad 6 (m % 10 ^ 6)) = m := by
    rw [digitsVal_append, digitsVal_natText, digitsVal_pad, pad_length]
    omega
  rw [hd, hv, pad_length, List.append_nil] at this
  simp only [decide_eq_true_eq] at this
  rw [← List.append_assoc] at this
  rw [this]
  congr 1
  have e : (10 : ℚ) ^ (readExp [] - ((6 : ℕ) : ℤ)) = (10 ^ 6)⁻¹ := by
    simp only [readExp]
    norm_num
  rw [e]
  split
  · push_cast; ring
  · push_cast; ring

theorem micro_error (x : ℚ) : |micro x - x| ≤ 1 / 2000000 := by
  have h := nearest_error (|x| * 10 ^ 6)
  unfold micro
  rw [abs_le] at h ⊢
  split
  · rename_i hx
    rw [abs_of_neg hx] at h ⊢
    constructor <;> linarith [h.1, h.2]
  · rename_i hx
    rw [abs_of_nonneg (not_lt.1 hx)] at h ⊢
    constructor <;> linarith [h.1, h.2]

/-! ### Six significant digits -/

theorem stripFrac_eq (fp : List Char) : ∃ r k, fp = r ++ List.replicate k '0' ∧ stripFrac fp = dotted r := by
  refine ⟨(fp.reverse.dropWhile (· = '0')).reverse, (fp.reverse.takeWhile (· = '0')).length, ?_, rfl⟩
  have h1 : fp.reverse.takeWhile (· = '0') = List.replicate (fp.reverse.takeWhile (· = '0')).length '0' := by
    rw [List.eq_replicate_iff]
    refine ⟨rfl, fun c hc => ?_⟩
    have := List.all_takeWhile (p := fun c => decide (c = '0')) (l := fp.reverse)
    rw [List.all_eq_true] at this
    simpa using this c hc
  have h2 := List.takeWhile_append_dropWhile (p := fun c => decide (c = '0')) (l := fp.reverse)
  have h3 := congrArg List.reverse h2
  rw [List.reverse_reverse, List.reverse_append] at h3
  conv_lhs => rw [← h3]
  congr 1
  conv_lhs => rw [h1]
  rw [List.reverse_replicate]

theorem digitsVal_zeros (k : Nat) : digitsVal (List.replicate k '0') = 0 := by
  induction k with
  | zero => rfl
  | succ k ih =>
    rw [List.replicate_succ, ← List.singleton_append, digitsVal_append, ih, show digitsVal ['0'] = 0 by decide, zero_mul]

/-- Reading a number whose fraction was stripped. -/
theorem stod_strip (neg : Bool) (ip fp r : List Char) (hi : AllDigits ip) (hn : ip ≠ []) (hf : AllDigits fp) (hr : Follow r) :
    stod (' ' :: ((if neg then ['-'] else []) ++ (ip ++ (stripFrac fp ++ r)))) =
      toDouble (if neg then -((digitsVal (ip ++ fp) : ℚ) * 10 ^ (readExp r - fp.length)) else (digitsVal (ip ++ fp) : ℚ) * 10 ^ (readExp r - fp.length)) := by
  obtain ⟨q, k, hq, hs⟩ := stripFrac_eq fp
  rw [hs, stod_dec neg ip q r hi hn (fun c hc => hf c (by rw [hq]; exact List.mem_append_left _ hc)) hr]
  have e : (digitsVal (ip ++ fp) : ℚ) * 10 ^ (readExp r - fp.length) = (digitsVal (ip ++ q) : ℚ) * 10 ^ (readExp r - q.length) := by
    rw [hq, ← List.append_assoc, digitsVal_append (ip ++ q), digitsVal_zeros, List.length_append, List.length_replicate, add_zero]
    push_cast
    rw [mul_assoc, ← zpow_natCast, ← zpow_add₀ (by norm_num)]
    congr 2
    ring
  rw [e]

theorem readExp_expText (e : Int) : readExp (expText e) = e := by
  have hw : ∀ l : List Char, AllDigits l → l.takeWhile isDigit = l := fun l hl => (takeWhile_all _ _ hl.isDigit).1
  have hv : digitsVal ((if e.natAbs < 100 then pad 2 e.natAbs else natText e.natAbs).takeWhile isDigit) = e.natAbs := by
    split
    · rename_i h
      rw [hw _ (pad_digits _ _), digitsVal_pad, Nat.mod_eq_of_lt (by simpa using h)]
    · rw [hw _ (natText_all _), digitsVal_natText]
  unfold expText readExp
  simp only [true_or, if_true]
  by_cases he : e < 0
  · simp only [if_pos he, sign, if_true, hv]; omega
  · simp only [if_neg he, sign, hv, show ('+' : Char) ≠ '-' by decide, if_false, if_true, Bool.false_eq_true]; omega

/-- Six significant digits of a number of any sign; zero for zero. -/
def six (x : ℚ) : ℚ :=
  if x = 0 then 0 else (if x < 0 then -1 else 1) * ((sixDigits |x|).1 : ℚ) * 10 ^ ((sixDigits |x|).2 - 5)

theorem generalPos_read (neg : Bool) (x : ℚ) :
    stod (' ' :: ((if neg then ['-'] else []) ++ generalPos x)) =
      toDouble (if neg then -(((sixDigits x).1 : ℚ) * 10 ^ ((sixDigits x).2 - 5)) else ((sixDigits x).1 : ℚ) * 10 ^ ((sixDigits x).2 - 5)) := by
  unfold generalPos
  generalize hs : sixDigits x = p
  obtain ⟨m, e⟩ := p
  have hv : ∀ k, digitsVal (natText (m / 10 ^ k) ++ pad k (m % 10 ^ k)) = m := by
    intro k
    rw [digitsVal_append, digitsVal_natText, digitsVal_pad, pad_length, Nat.mod_mod, mul_comm, Nat.div_add_mod]
  simp only
  by_cases he : -4 ≤ e ∧ e < 6
  · rw [if_pos he]
    have := stod_strip neg (natText (m / 10 ^ (5 - e).toNat)) (pad (5 - e).toNat (m % 10 ^ (5 - e).toNat)) [] (natText_all _) (natText_digits _).1 (pad_digits _ _) (Or.inl rfl)
    rw [hv, pad_length, List.append_nil, show readExp [] - (((5 - e).toNat : ℕ) : ℤ) = e - 5 by simp only [readExp]; omega] at this
    exact this
  · rw [if_neg he]
    have := stod_strip neg (natText (m / 10 ^ 5)) (pad 5 (m % 10 ^ 5)) (expText e) (natText_all _) (natText_digits _).1 (pad_digits _ _) (Or.inr ⟨_, rfl⟩)
    rw [hv, pad_length, readExp_expText] at this
    rw [List.append_assoc]
    exact_mod_cast this

theorem general_read (x : ℚ) : stod (' ' :: generalText x) = toDouble (six x) := by
  unfold generalText six
  split
  · rw [toDouble, if_pos rfl]; decide +kernel
  · rename_i h0
    split
    · rename_i hx
      have := generalPos_read true (-x)
      rw [abs_of_neg hx]
      simp only [if_true] at this
      rw [show (-1 : ℚ) * ((sixDigits (-x)).1 : ℚ) * 10 ^ ((sixDigits (-x)).2 - 5) = -(((sixDigits (-x)).1 : ℚ) * 10 ^ ((sixDigits (-x)).2 - 5)) by ring]
      exact this
    · rename_i hx
      have := generalPos_read false x
      rw [abs_of_nonneg (not_lt.1 hx)]
      simp only [Bool.false_eq_true, if_false, List.nil_append] at this
      rw [one_mul]
      exact this

/-! ### Characters -/

/-- A text without the separators of the file format. -/
def Plain (s : List Char) : Prop := ∀ c ∈ s, c ≠ ',' ∧ c ≠ '\n'

theorem Plain.append {a b : List Char} (ha : Plain a) (hb : Plain b) : Plain (a ++ b) := fun c hc => by
  rcases List.mem_append.1 hc with h | h
  · exact ha c h
  · exact hb c h

theorem Plain.cons {c : Char} {a : List Char} (hc : c ≠ ',' ∧ c ≠ '\n') (ha : Plain a) : Plain (c :: a) := fun d hd => by
  rcases List.mem_cons.1 hd with rfl | h
  · exact hc
  · exact ha d h

theorem Plain.nil : Plain [] := fun c hc => by simp at hc

theorem AllDigits.plain {a : List Char} (h : AllDigits a) : Plain a := fun c hc => by
  obtain ⟨d, hd, rfl⟩ := h c hc
  exact ⟨(digit_cases d hd).2.2.2.1, (digit_cases d hd).2.2.2.2.1⟩

theorem stripFrac_plain {a : List Char} (h : Plain a) : Plain (stripFrac a) := by
  obtain ⟨r, k, h1, h2⟩ := stripFrac_eq a
  rw [h2, dotted]
  split
  · exact Plain.nil
  · exact Plain.cons (by decide) fun c hc => h c (by rw [h1]; exact List.mem_append_left _ hc)

theorem toString6_chars (v : XVal ℚ) : Plain (toString6 v) := by
  cases v with
  | fin x =>
    show Plain (fixedText x)
    unfold fixedText
    refine Plain.append (Plain.append ?_ (natText_all _).plain) (Plain.cons (by decide) (pad_digits _ _).plain)
    split
    · exact Plain.cons (by decide) Plain.nil
    · exact Plain.nil
  | pinf => exact fun c hc => by revert c; decide
  | ninf => exact fun c hc => by revert c; decide
  | nan => exact fun c hc => by revert c; decide

theorem generalPos_chars (x : ℚ) : Plain (generalPos x) := by
  unfold generalPos
  generalize sixDigits x = p
  obtain ⟨m, e⟩ := p
  simp only
  split
  · exact (natText_all _).plain.append (stripFrac_plain (pad_digits _ _).plain)
  · refine ((natText_all _).plain.append (stripFrac_plain (pad_digits _ _).plain)).append (Plain.cons (by decide) (Plain.cons ?_ ?_))
    · split <;> decide
    · split
      · exact (pad_digits _ _).plain
      · exact (natText_all _).plain

theorem stream6_chars (v : XVal ℚ) : Plain (stream6 v) := by
  cases v with
  | fin x =>
    show Plain (generalText x)
    unfold generalText
    split
    · exact Plain.cons (by decide) Plain.nil
    · split
      · exact Plain.cons (by decide) (generalPos_chars _)
      · exact generalPos_chars _
  | pinf => exact fun c hc => by revert c; decide
  | ninf => exact fun c hc => by revert c; decide
  | nan => exact fun c hc => by revert c; decide

end Verif.Config
