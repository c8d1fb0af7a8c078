import Verif.Logger.Logger
import Mathlib.Data.Nat.Notation
import Mathlib.Tactic.ByContra
/-!
Model of the text of a message of the `StreamLogWriter`: `begin`, `end` and `endl` (src/logger/StreamLogWriter.cpp:39-94), a text of characters.
The numbers of the date are those which are shown (`1900 + tm_year`, `tm_mon + 1`, ...); how they follow from the clock is left out here, see `Verif.Logger.Stamp` for
seconds and milliseconds.  `colored` is always set (lines 24, 26).
-/
namespace Verif.Logger.Header

structure Time where
  year : ℕ
  mon : ℕ
  mday : ℕ
  hour : ℕ
  min : ℕ
  sec : ℕ
  ms : ℕ
deriving DecidableEq

/-- A field of a stream: `setw(w)` with the fill character set by `setfill`, right adjusted. -/
def field (fill : Char) (w : ℕ) (text : List Char) : List Char := List.leftpad w fill text

/-- `std::setw(w) << n` after `std::setfill('0')`, StreamLogWriter.cpp:47-50. -/
def number (w n : ℕ) : List Char := field '0' w (Nat.toDigits 10 n)

/-- The codes of the colours, StreamLogWriter.cpp:5-21. -/
def reset : List Char := ['\x1b', '[', '0', 'm']

/-- StreamLogWriter.cpp:60-69. -/
def colour : Level → List Char
  | .fatal => ['\x1b', '[', '2', '2', ';', '3', '5', 'm']
  | .error => ['\x1b', '[', '2', '2', ';', '3', '1', 'm']
  | .warn => ['\x1b', '[', '2', '2', ';', '3', '3', 'm']
  | .info => ['\x1b', '[', '2', '2', ';', '3', '6', 'm']
  | .trace => reset

/-- StreamLogWriter.cpp:71-78. -/
def letter : Level → Char
  | .fatal => 'F' | .error => 'E' | .warn => 'W' | .info => 'I' | .trace => 'T'

/-- StreamLogWriter.cpp:53-57. -/
def categoryText (c : ℕ) : List Char :=
  if c = 0 then [' '] else if 65 ≤ c ∧ c ≤ 90 then [Char.ofNat c] else Nat.toDigits 10 c

/-- StreamLogWriter.cpp:47-51. -/
def stamp (t : Time) : List Char :=
  number 4 t.year ++ '-' :: number 2 t.mon ++ '-' :: number 2 t.mday ++ ' ' :: number 2 t.hour ++ ':' :: number 2 t.min ++ ':' :: number 2 t.sec ++
    ':' :: number 3 t.ms ++ [' ', ' ']

/-- `StreamLogWriter::begin`, StreamLogWriter.cpp:39-80. -/
def header (t : Time) (c : ℕ) (l : Level) : List Char :=
  stamp t ++ (categoryText c ++ ' ' :: (colour l ++ letter l :: [':', ' ', ' ']))

/-- `StreamLogWriter::endl`, StreamLogWriter.cpp:91-93: a new line and the space in front of its text. -/
def newLine : List Char := ['\n', '\t', '\t', '\t', ' ', ' ', ' ', ' ', ' ', ' ', ' ']

/-- The text of a message: the first line and the lines begun with `endl`. -/
def body (first : List Char) (more : List (List Char)) : List Char := first ++ more.flatMap (newLine ++ ·)

/-- `begin`, the insertions and `end` (StreamLogWriter.cpp:82-88). -/
def message (t : Time) (c : ℕ) (l : Level) (first : List Char) (more : List (List Char)) : List Char :=
  header t c l ++ body first more ++ reset ++ ['\n']

/-! ### Specification: a terminal -/

/-- Column of the cursor, number of the row, the colour set last (the characters between escape and `m`), and the characters of an escape sequence which has begun. -/
structure Term where
  col : ℕ
  row : ℕ
  colour : List Char
  esc : Option (List Char)
deriving DecidableEq

/-- One character: tabs go to the next multiple of eight. -/
def Term.put (s : Term) (c : Char) : Term :=
  match s.esc with
  | some p => if c = 'm' then { s with colour := p, esc := none } else { s with esc := some (p ++ [c]) }
  | none =>
    if c = '\x1b' then { s with esc := some [] }
    else if c = '\n' then { s with col := 0, row := s.row + 1 }
    else if c = '\t' then { s with col := (s.col / 8 + 1) * 8 }
    else { s with col := s.col + 1 }

def Term.puts (s : Term) (text : List Char) : Term := text.foldl Term.put s

/-- A character which moves the cursor by one column. -/
def Plain (c : Char) : Prop := c ≠ '\x1b' ∧ c ≠ '\n' ∧ c ≠ '\t'

instance (c : Char) : Decidable (Plain c) := inferInstanceAs (Decidable (_ ∧ _ ∧ _))

/-- The numbers of a date have the usual number of digits. -/
structure Valid (t : Time) : Prop where
  year : t.year < 10000
  mon : t.mon < 100
  mday : t.mday < 100
  hour : t.hour < 100
  min : t.min < 100
  sec : t.sec < 100
  ms : t.ms < 1000

/-! ### Lemmas -/

theorem puts_append (s : Term) (a b : List Char) : s.puts (a ++ b) = (s.puts a).puts b := List.foldl_append

theorem puts_plain (a : List Char) (h : ∀ c ∈ a, Plain c) (r : ℕ) (q : List Char) : ∀ k : ℕ, Term.puts ⟨k, r, q, none⟩ a = ⟨k + a.length, r, q, none⟩ := by
  induction a with
  | nil => intro k; rfl
  | cons c a ih =>
    intro k
    obtain ⟨h1, h2, h3⟩ := h c (List.mem_cons_self ..)
    have hp : Term.put ⟨k, r, q, none⟩ c = ⟨k + 1, r, q, none⟩ := by simp [Term.put, h1, h2, h3]
    have := ih (fun c hc => h c (List.mem_cons_of_mem _ hc)) (k + 1)
    rw [Term.puts] at this
    rw [Term.puts, List.foldl_cons, hp, this, List.length_cons]
    congr 1; omega

theorem plain_digit {c : Char} (h : c.isDigit = true) : Plain c := by
  refine ⟨?_, ?_, ?_⟩ <;> rintro rfl <;> revert h <;> decide

theorem digit_of_digits {n : ℕ} {c : Char} (h : c ∈ Nat.toDigits 10 n) : c.isDigit = true := Nat.isDigit_of_mem_toDigits (by decide) (by decide) h

theorem digit_number {w n : ℕ} {c : Char} (h : c ∈ number w n) : c.isDigit = true := by
  rw [number, field, List.leftpad, List.mem_append] at h
  rcases h with h | h
  · rw [(List.mem_replicate.1 h).2]; decide
  · exact digit_of_digits h

theorem digits_length (n k : ℕ) (hk : 0 < k) : (Nat.toDigits 10 n).length ≤ k ↔ n < 10 ^ k := Nat.length_toDigits_le_iff (by decide) hk

theorem number_length (w n : ℕ) (hw : 0 < w) (h : n < 10 ^ w) : (number w n).length = w := by
  have := (digits_length n w hw).2 h
  rw [number, field, List.leftpad, List.length_append, List.length_replicate]
  omega

theorem ofDigitChars_number (w n : ℕ) : Nat.ofDigitChars 10 (number w n) 0 = n := by
  rw [number, field, List.leftpad]
  have : ∀ k : ℕ, Nat.ofDigitChars 10 (List.replicate k '0' ++ Nat.toDigits 10 n) 0 = n := by
    intro k
    induction k with
    | zero => simp
    | succ k ih =>
      rw [List.replicate_succ, List.cons_append, Nat.ofDigitChars_cons]
      simpa using ih
  exact this _

theorem number_inj {w n m : ℕ} (h : number w n = number w m) : n = m := by
  rw [← ofDigitChars_number w n, h, ofDigitChars_number]

theorem letters : ∀ i : Fin 26, (Char.ofNat (i.val + 65)).toNat = i.val + 65 ∧ Plain (Char.ofNat (i.val + 65)) ∧ Char.ofNat (i.val + 65) ≠ ' ' ∧
    (Char.ofNat (i.val + 65)).isDigit = false := by decide +kernel

theorem letter_of {c : ℕ} (h : 65 ≤ c ∧ c ≤ 90) : (Char.ofNat c).toNat = c ∧ Plain (Char.ofNat c) ∧ Char.ofNat c ≠ ' ' ∧ (Char.ofNat c).isDigit = false := by
  have := letters ⟨c - 65, by omega⟩
  simpa [Nat.sub_add_cancel h.1] using this

theorem plain_category (c : ℕ) : ∀ x ∈ categoryText c, Plain x := by
  intro x hx
  unfold categoryText at hx
  by_cases h1 : c = 0
  · rw [if_pos h1, List.mem_singleton] at hx; subst hx; decide
  · rw [if_neg h1] at hx
    by_cases h2 : 65 ≤ c ∧ c ≤ 90
    · rw [if_pos h2, List.mem_singleton] at hx; subst hx; exact (letter_of h2).2.1
    · rw [if_neg h2] at hx; exact plain_digit (digit_of_digits hx)

theorem plain_stamp (t : Time) : ∀ x ∈ stamp t, Plain x := by
  have hd : ∀ w n, ∀ x ∈ number w n, Plain x := fun w n x h => plain_digit (digit_number h)
  have happ : ∀ a b : List Char, (∀ x ∈ a, Plain x) → (∀ x ∈ b, Plain x) → ∀ x ∈ a ++ b, Plain x := by
    intro a b ha hb x hx
    rcases List.mem_append.1 hx with h | h
    · exact ha x h
    · exact hb x h
  have hcons : ∀ (c : Char) (a : List Char), Plain c → (∀ x ∈ a, Plain x) → ∀ x ∈ c :: a, Plain x := by
    intro c a hc ha x hx
    rcases List.mem_cons.1 hx with h | h
    · rw [h]; exact hc
    · exact ha x h
  unfold stamp
  repeat' first
    | exact hd _ _
    | apply happ
    | (apply hcons _ _ (by decide))
    | decide

theorem stamp_length (t : Time) (h : Valid t) : (stamp t).length = 25 := by
  have h1 := number_length 4 t.year (by decide) (by simpa using h.year)
  have h2 := number_length 2 t.mon (by decide) (by simpa using h.mon)
  have h3 := number_length 2 t.mday (by decide) (by simpa using h.mday)
  have h4 := number_length 2 t.hour (by decide) (by simpa using h.hour)
  have h5 := number_length 2 t.min (by decide) (by simpa using h.min)
  have h6 := number_length 2 t.sec (by decide) (by simpa using h.sec)
  have h7 := number_length 3 t.ms (by decide) (by simpa using h.ms)
  simp [stamp, h1, h2, h3, h4, h5, h6, h7]

/-- The characters of the colour without escape and `m`. -/
def code (l : Level) : List Char := (colour l).tail.dropLast

theorem puts_colour (k r : ℕ) (q : List Char) (l : Level) : Term.puts ⟨k, r, q, none⟩ (colour l) = ⟨k, r, code l, none⟩ := by
  cases l <;> simp [Term.puts, Term.put, colour, code, reset]

theorem puts_reset (k r : ℕ) (q : List Char) : Term.puts ⟨k, r, q, none⟩ reset = ⟨k, r, ['[', '0'], none⟩ := puts_colour k r q .trace

theorem puts_newLine (k r : ℕ) (q : List Char) : Term.puts ⟨k, r, q, none⟩ newLine = ⟨31, r + 1, q, none⟩ := by
  simp [Term.puts, Term.put, newLine]

theorem puts_header (r : ℕ) (q : List Char) (t : Time) (h : Valid t) (c : ℕ) (l : Level) :
    Term.puts ⟨0, r, q, none⟩ (header t c l) = ⟨30 + (categoryText c).length, r, code l, none⟩ := by
  rw [header, puts_append, puts_plain _ (plain_stamp t), puts_append, puts_plain _ (plain_category c), stamp_length t h,
    show (' ' :: (colour l ++ letter l :: [':', ' ', ' '])) = [' '] ++ (colour l ++ [letter l, ':', ' ', ' ']) from rfl, puts_append, puts_append,
    puts_plain [' '] (by decide), puts_colour, puts_plain _ (by cases l <;> decide)]
  simp only [List.length_cons, List.length_nil]
  congr 1; omega

/-- The lines of a text which are begun with `endl`. -/
theorem puts_more (more : List (List Char)) (hm : ∀ x ∈ more, ∀ c ∈ x, Plain c) (q : List Char) : ∀ k r : ℕ,
    ∃ k', Term.puts ⟨k, r, q, none⟩ (more.flatMap (newLine ++ ·)) = ⟨k', r + more.length, q, none⟩ := by
  induction more with
  | nil => intro k r; exact ⟨k, rfl⟩
  | cons x more ih =>
    intro k r
    obtain ⟨k', hk⟩ := ih (fun y hy => hm y (List.mem_cons_of_mem _ hy)) (31 + x.length) (r + 1)
    refine ⟨k', ?_⟩
    rw [List.flatMap_cons, puts_append, puts_append, puts_newLine, puts_plain x (hm x (List.mem_cons_self ..)), hk, List.length_cons]
    congr 1; omega

/-! ### C340: alignment -/

theorem category_length (c : ℕ) : (categoryText c).length = 1 ↔ c < 10 ∨ (65 ≤ c ∧ c ≤ 90) := by
  unfold categoryText
  by_cases h1 : c = 0
  · simp [h1]
  · by_cases h2 : 65 ≤ c ∧ c ≤ 90
    · simp [h1, h2]
    · rw [if_neg h1, if_neg h2]
      have hd := digits_length c 1 (by decide)
      have hp : 0 < (Nat.toDigits 10 c).length := Nat.length_toDigits_pos
      constructor
      · intro h; left; simpa using hd.1 (by omega)
      · rintro (h | h)
        · have := hd.2 (by simpa using h); omega
        · exact absurd h h2

/-- **C340.** The text of a line begun with `endl` begins in column 31, whatever was written before. -/
theorem continued_column (k r : ℕ) (q : List Char) : (Term.puts ⟨k, r, q, none⟩ newLine).col = 31 := by rw [puts_newLine]

example : (Term.puts ⟨77, 4, ['[', '0'], none⟩ newLine).col = 31 := continued_column 77 4 _

/-- **C340.** The text of the first line begins in the same column exactly for the categories 0 to 9 and `'A'` to `'Z'`; permitted are 0 and capital letters
(includes/eeros/logger/Logger.hpp:71-72). -/
theorem aligned_iff (r : ℕ) (q : List Char) (t : Time) (h : Valid t) (c : ℕ) (l : Level) :
    (Term.puts ⟨0, r, q, none⟩ (header t c l)).col = 31 ↔ c < 10 ∨ (65 ≤ c ∧ c ≤ 90) := by
  rw [puts_header r q t h c l, ← category_length c]
  simp only
  omega

def now : Time := ⟨2026, 11, 17, 5, 9, 3, 42⟩

theorem now_valid : Valid now := ⟨by decide, by decide, by decide, by decide, by decide, by decide, by decide⟩

example : (Term.puts ⟨0, 0, [], none⟩ (header now 'S'.toNat .warn)).col = 31 := (aligned_iff 0 [] now now_valid _ .warn).2 (by decide)

example : String.ofList (header now 'S'.toNat .warn) = "2026-11-17 05:09:03:042  S \x1b[22;33mW:  " := by decide +kernel

/-- **C340.** With any other category, a small letter for instance, the text of the first line begins further to the right than the other lines. -/
theorem other_shifted (r : ℕ) (q : List Char) (t : Time) (h : Valid t) (c : ℕ) (l : Level) (hc : 10 ≤ c) (h2 : c < 65 ∨ 90 < c) (k r' : ℕ) (q' : List Char) :
    (Term.puts ⟨k, r', q', none⟩ newLine).col < (Term.puts ⟨0, r, q, none⟩ (header t c l)).col := by
  have h1 : (categoryText c).length ≠ 1 := fun e => by have := (category_length c).1 e; omega
  have h0 : 0 < (categoryText c).length := by
    unfold categoryText
    rw [if_neg (by omega), if_neg (by omega)]
    exact Nat.length_toDigits_pos
  rw [puts_newLine, puts_header r q t h c l]
  simp only
  omega

example : (Term.puts ⟨50, 0, [], none⟩ newLine).col < (Term.puts ⟨0, 0, [], none⟩ (header now 'x'.toNat .info)).col :=
  other_shifted 0 [] now now_valid _ .info (by decide) (by decide) 50 0 []

/-! ### C341: the beginning of a message tells time, category and level -/

theorem stamp_inj {t t' : Time} (h : Valid t) (h' : Valid t') (e : stamp t = stamp t') : t = t' := by
  have n : ∀ {w a b : ℕ} {x y : List Char}, 0 < w → a < 10 ^ w → b < 10 ^ w → number w a ++ x = number w b ++ y → a = b ∧ x = y := by
    intro w a b x y hw ha hb e
    obtain ⟨e1, e2⟩ := List.append_inj e (by rw [number_length w a hw ha, number_length w b hw hb])
    exact ⟨number_inj e1, e2⟩
  have tl : ∀ {c : Char} {x y : List Char}, c :: x = c :: y → x = y := fun e => (List.cons.inj e).2
  simp only [stamp, List.append_assoc, List.cons_append] at e
  obtain ⟨e1, e⟩ := n (by decide) (by simpa using h.year) (by simpa using h'.year) e
  obtain ⟨e2, e⟩ := n (by decide) (by simpa using h.mon) (by simpa using h'.mon) (tl e)
  obtain ⟨e3, e⟩ := n (by decide) (by simpa using h.mday) (by simpa using h'.mday) (tl e)
  obtain ⟨e4, e⟩ := n (by decide) (by simpa using h.hour) (by simpa using h'.hour) (tl e)
  obtain ⟨e5, e⟩ := n (by decide) (by simpa using h.min) (by simpa using h'.min) (tl e)
  obtain ⟨e6, e⟩ := n (by decide) (by simpa using h.sec) (by simpa using h'.sec) (tl e)
  obtain ⟨e7, _⟩ := n (by decide) (by simpa using h.ms) (by simpa using h'.ms) (tl e)
  cases t; cases t'
  simp only at e1 e2 e3 e4 e5 e6 e7
  subst e1 e2 e3 e4 e5 e6 e7
  rfl

theorem no_space {c : ℕ} (h : c ≠ 0) : ∀ x ∈ categoryText c, x ≠ ' ' := by
  intro x hx
  unfold categoryText at hx
  rw [if_neg h] at hx
  by_cases h2 : 65 ≤ c ∧ c ≤ 90
  · rw [if_pos h2, List.mem_singleton] at hx; subst hx; exact (letter_of h2).2.2.1
  · rw [if_neg h2] at hx
    have := digit_of_digits hx
    rintro rfl
    revert this; decide

theorem category_ne {c : ℕ} : categoryText c ≠ [] := by
  unfold categoryText
  by_cases h1 : c = 0
  · simp [h1]
  · by_cases h2 : 65 ≤ c ∧ c ≤ 90
    · simp [h1, h2]
    · rw [if_neg h1, if_neg h2]
      exact List.ne_nil_of_length_pos Nat.length_toDigits_pos

theorem split_space : ∀ (a b x y : List Char), (∀ c ∈ a, c ≠ ' ') → (∀ c ∈ b, c ≠ ' ') → a ++ ' ' :: x = b ++ ' ' :: y → a = b ∧ x = y
  | [], [], _, _, _, _, e => ⟨rfl, (List.cons.inj e).2⟩
  | [], c :: b, _, _, _, hb, e => absurd (List.cons.inj e).1.symm (hb c (List.mem_cons_self ..))
  | c :: a, [], _, _, ha, _, e => absurd (List.cons.inj e).1 (ha c (List.mem_cons_self ..))
  | c :: a, d :: b, x, y, ha, hb, e => by
    obtain ⟨e1, e2⟩ := List.cons.inj e
    obtain ⟨h1, h2⟩ := split_space a b x y (fun z hz => ha z (List.mem_cons_of_mem _ hz)) (fun z hz => hb z (List.mem_cons_of_mem _ hz)) e2
    exact ⟨by rw [e1, h1], h2⟩

theorem category_inj {c d : ℕ} (hc : c ≠ 0) (hd : d ≠ 0) (e : categoryText c = categoryText d) : c = d := by
  unfold categoryText at e
  rw [if_neg hc, if_neg hd] at e
  have mixed : ∀ a b : ℕ, 65 ≤ a ∧ a ≤ 90 → [Char.ofNat a] ≠ Nat.toDigits 10 b := by
    intro a b ha e
    have := digit_of_digits (n := b) (c := Char.ofNat a) (by rw [← e]; exact List.mem_singleton.2 rfl)
    rw [(letter_of ha).2.2.2] at this
    exact Bool.noConfusion this
  by_cases h1 : 65 ≤ c ∧ c ≤ 90
  · by_cases h2 : 65 ≤ d ∧ d ≤ 90
    · rw [if_pos h1, if_pos h2] at e
      have := congrArg Char.toNat (List.cons.inj e).1
      rwa [(letter_of h1).1, (letter_of h2).1] at this
    · rw [if_pos h1, if_neg h2] at e; exact absurd e (mixed _ _ h1)
  · by_cases h2 : 65 ≤ d ∧ d ≤ 90
    · rw [if_neg h1, if_pos h2] at e; exact absurd e.symm (mixed _ _ h2)
    · rw [if_neg h1, if_neg h2] at e
      have := congrArg (Nat.ofDigitChars 10 · 0) e
      simpa [Nat.ofDigitChars_ten_toDigits] using this

theorem level_inj (l l' : Level) (x y : List Char) (e : colour l ++ letter l :: x = colour l' ++ letter l' :: y) : l = l' ∧ x = y := by
  cases l <;> cases l' <;> simp [colour, letter, reset] at e ⊢ <;> exact e

/-- **C341.** Two lines with equal text have the same time, the same category and the same level, and the same text behind it: what is written can be read back. -/
theorem header_inj (t t' : Time) (h : Valid t) (h' : Valid t') (c c' : ℕ) (l l' : Level) (x x' : List Char) (e : header t c l ++ x = header t' c' l' ++ x') :
    t = t' ∧ c = c' ∧ l = l' ∧ x = x' := by
  simp only [header, List.append_assoc] at e
  obtain ⟨e1, e2⟩ := List.append_inj e (by rw [stamp_length t h, stamp_length t' h'])
  have ht := stamp_inj h h' e1
  simp only [List.cons_append, List.append_assoc] at e2
  have key : c = c' ∧ colour l ++ letter l :: (':' :: ' ' :: ' ' :: x) = colour l' ++ letter l' :: (':' :: ' ' :: ' ' :: x') := by
    by_cases hc : c = 0
    · by_cases hc' : c' = 0
      · subst hc hc'
        exact ⟨rfl, by simpa [categoryText] using e2⟩
      · exfalso
        obtain ⟨y, ys, hy⟩ := List.exists_cons_of_ne_nil (category_ne (c := c'))
        have hn := no_space hc' y (by rw [hy]; exact List.mem_cons_self ..)
        rw [hy, hc, show categoryText 0 = [' '] from rfl] at e2
        exact hn (List.cons.inj e2).1.symm
    · by_cases hc' : c' = 0
      · exfalso
        obtain ⟨y, ys, hy⟩ := List.exists_cons_of_ne_nil (category_ne (c := c))
        have hn := no_space hc y (by rw [hy]; exact List.mem_cons_self ..)
        rw [hy, hc', show categoryText 0 = [' '] from rfl] at e2
        exact hn (List.cons.inj e2).1
      · obtain ⟨a1, a2⟩ := split_space _ _ _ _ (no_space hc) (no_space hc') e2
        exact ⟨category_inj hc hc' a1, by simpa using a2⟩
  obtain ⟨hcc, e3⟩ := key
  obtain ⟨hl, e4⟩ := level_inj l l' _ _ e3
  refine ⟨ht, hcc, hl, ?_⟩
  simpa using e4

example : header now 7 .fatal ≠ header now 7 .trace := fun e =>
  Level.noConfusion (header_inj now now now_valid now_valid 7 7 .fatal .trace [] [] (by simpa using e)).2.2.1

/-! ### C342: colours and lines -/

/-- **C342.** A message without control characters in its text takes one line and one more for each `endl`, leaves the cursor at the beginning of a line and the colour
reset, whatever the colour was before. -/
theorem message_lines (r : ℕ) (q : List Char) (t : Time) (h : Valid t) (c : ℕ) (l : Level) (first : List Char) (more : List (List Char)) (hf : ∀ x ∈ first, Plain x)
    (hm : ∀ x ∈ more, ∀ y ∈ x, Plain y) :
    Term.puts ⟨0, r, q, none⟩ (message t c l first more) = ⟨0, r + more.length + 1, ['[', '0'], none⟩ := by
  obtain ⟨k, hk⟩ := puts_more more hm (code l) (30 + (categoryText c).length + first.length) r
  rw [message, body, puts_append, puts_append, puts_append, puts_header r q t h c l, puts_append, puts_plain first hf, hk, puts_reset]
  rfl

/-- **C342.** The text of a message is shown in the colour of its level, on all its lines. -/
theorem message_colour (r : ℕ) (q : List Char) (t : Time) (h : Valid t) (c : ℕ) (l : Level) (first : List Char) (more : List (List Char)) (hf : ∀ x ∈ first, Plain x)
    (hm : ∀ x ∈ more, ∀ y ∈ x, Plain y) :
    (Term.puts ⟨0, r, q, none⟩ (header t c l ++ body first more)).colour = match l with
      | .fatal => ['[', '2', '2', ';', '3', '5'] | .error => ['[', '2', '2', ';', '3', '1'] | .warn => ['[', '2', '2', ';', '3', '3']
      | .info => ['[', '2', '2', ';', '3', '6'] | .trace => ['[', '0'] := by
  obtain ⟨k, hk⟩ := puts_more more hm (code l) (30 + (categoryText c).length + first.length) r
  rw [body, puts_append, puts_append, puts_header r q t h c l, puts_plain first hf, hk]
  cases l <;> rfl

/-- The message is in the log as a whole: what a terminal shows after any number of messages, one after the other. -/
def screen (s : Term) : List (Time × ℕ × Level × List Char × List (List Char)) → Term
  | [] => s
  | (t, c, l, first, more) :: rest => screen (s.puts (message t c l first more)) rest

/-- **C342.** After any number of messages the rows are those of all of them, and the next one begins in column 0 with the colour reset. -/
theorem screen_rows (msgs : List (Time × ℕ × Level × List Char × List (List Char)))
    (hv : ∀ m ∈ msgs, Valid m.1 ∧ (∀ x ∈ m.2.2.2.1, Plain x) ∧ ∀ x ∈ m.2.2.2.2, ∀ y ∈ x, Plain y) : ∀ r : ℕ,
    screen ⟨0, r, ['[', '0'], none⟩ msgs = ⟨0, r + (msgs.map fun m => m.2.2.2.2.length + 1).sum, ['[', '0'], none⟩ := by
  induction msgs with
  | nil => intro r; rfl
  | cons m msgs ih =>
    intro r
    obtain ⟨t, c, l, first, more⟩ := m
    obtain ⟨h1, h2, h3⟩ := hv _ (List.mem_cons_self ..)
    rw [screen, message_lines r _ t h1 c l first more h2 h3, ih (fun x hx => hv x (List.mem_cons_of_mem _ hx)), List.map_cons, List.sum_cons]
    congr 1
    simp only
    omega

example : screen ⟨0, 0, ['[', '0'], none⟩ [(now, 83, .error, ['o', 'n'], [['o', 'f', 'f'], []]), (now, 0, .info, [], [])] = ⟨0, 4, ['[', '0'], none⟩ :=
  screen_rows _ (by
    intro m hm
    simp only [List.mem_cons, List.not_mem_nil, or_false] at hm
    rcases hm with rfl | rfl <;> exact ⟨now_valid, by decide, by decide⟩) 0

/-! ### C343: fields in the text of a message -/

/-- The stream of a `LogEntry` (includes/eeros/logger/LogEntry.hpp:86), or any other: its fill character and its text. -/
structure Os where
  fill : Char
  text : List Char
deriving DecidableEq

/-- A new stream. -/
def Os.fresh : Os := ⟨' ', []⟩

/-- `StreamLogWriter::begin`: the fill character is set in line 47 and not set back. -/
def Os.begin (t : Time) (c : ℕ) (l : Level) (o : Os) : Os := ⟨'0', o.text ++ header t c l⟩

/-- `o << std::setw(w) << x`, LogEntry.hpp:53-70. -/
def Os.put (w : ℕ) (x : List Char) (o : Os) : Os := { o with text := o.text ++ field o.fill w x }

/-- **C343 (partial).** A value inserted with `std::setw(w)` looks as in a new stream exactly if it fills its field.  Missing: shorter ones, see `field_violated`. -/
theorem field_partial (t : Time) (c : ℕ) (l : Level) (w : ℕ) (x : List Char) :
    ((Os.fresh.begin t c l).put w x).text = header t c l ++ (Os.fresh.put w x).text ↔ w ≤ x.length := by
  simp only [Os.put, Os.begin, Os.fresh, List.nil_append, List.append_cancel_left_eq]
  constructor
  · intro h
    by_contra hw
    obtain ⟨k, hk⟩ : ∃ k, w - x.length = k + 1 := ⟨w - x.length - 1, by omega⟩
    rw [field, field, List.leftpad, List.leftpad, hk, List.replicate_succ, List.replicate_succ] at h
    exact absurd (List.cons.inj h).1 (by decide)
  · intro h
    rw [field, field, List.leftpad, List.leftpad, Nat.sub_eq_zero_of_le h]
    rfl

example : ((Os.fresh.begin now 0 .info).put 3 ['-', '1', '2']).text = header now 0 .info ++ ['-', '1', '2'] :=
  (field_partial now 0 .info 3 ['-', '1', '2']).2 (by decide)

/-- **C343, violated.** `begin` leaves the fill character of the stream at `'0'`: a shorter text in the message gets zeros in front of it, also in front of a sign, where
a new stream has spaces. -/
theorem field_violated (t : Time) (c : ℕ) (l : Level) (w : ℕ) (x : List Char) (h : x.length < w) : ∃ n, 0 < n ∧
    ((Os.fresh.begin t c l).put w x).text = header t c l ++ List.replicate n '0' ++ x ∧ (Os.fresh.put w x).text = List.replicate n ' ' ++ x :=
  ⟨w - x.length, by omega, by simp [Os.put, Os.begin, Os.fresh, field, List.leftpad], by simp [Os.put, Os.fresh, field, List.leftpad]⟩

example : ((Os.fresh.begin now 0 .info).put 6 ['-', '5']).text = header now 0 .info ++ ['0', '0', '0', '0', '-', '5'] := by decide +kernel

end Verif.Logger.Header
