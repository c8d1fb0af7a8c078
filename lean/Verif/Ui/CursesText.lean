import Verif.Ui.CursesProps
import Mathlib.Tactic.SplitIfs
import Mathlib.Data.Nat.Digits.Defs
/-!
C335: where the texts of the user interface stand on a line and what is left of the former text; C336: the number which the user types.

`/repo/src/ui/CursesUI.cpp`: titles 59, 81; commands 161-180; status 110-136; `promptForInt` 298-310.  `mvprintw` at a negative column or beyond the last one prints nothing.
-/
namespace Verif.Ui.CursesText

/-! ### Columns of the titles (59, 81) -/

/-- `(COLS - text.size()) / 2` as argument of type `int`: the difference is a `size_t` of 64 bits, its half is cut to 32 bits and read as signed number. -/
def column (COLS n : Nat) : Int :=
  let d : Int := ((COLS : Int) - n) % 2 ^ 64
  let h : Int := (d / 2) % 2 ^ 32
  if h < 2 ^ 31 then h else h - 2 ^ 32

/-- The text of `n` characters is on the screen from its first to its last one. -/
def Visible (COLS n : Nat) (c : Int) : Prop := 0 ≤ c ∧ c + n ≤ COLS

/-- **C335** A title is completely on the screen exactly if it is not longer than a line. -/
theorem visible_iff (COLS n : Nat) (hC : COLS < 2 ^ 31) (hn : n < 2 ^ 31) : Visible COLS n (column COLS n) ↔ n ≤ COLS := by
  unfold Visible column
  simp only
  constructor
  · intro h
    by_contra hlt
    have e : ((COLS : Int) - n) % 2 ^ 64 = COLS - n + 2 ^ 64 := by omega
    rw [e] at h
    split_ifs at h <;> omega
  · intro h
    have e : ((COLS : Int) - n) % 2 ^ 64 = COLS - n := by omega
    rw [e]
    split_ifs <;> omega

/-- **C335** ... and then it is in the middle: the margins differ by at most one. -/
theorem centred (COLS n : Nat) (hC : COLS < 2 ^ 31) (h : n ≤ COLS) :
    let left := column COLS n
    let right := (COLS : Int) - n - column COLS n
    left ≤ right ∧ right ≤ left + 1 := by
  unfold column
  simp only
  have e : ((COLS : Int) - n) % 2 ^ 64 = COLS - n := by omega
  rw [e]
  split_ifs <;> omega

/-- **C335 violated**: on a screen narrower than the title nothing of it is shown, since its column is negative. -/
theorem narrow_violated (COLS n : Nat) (hn : n < 2 ^ 31) (h : COLS < n) : column COLS n < 0 := by
  unfold column
  simp only
  have e : ((COLS : Int) - n) % 2 ^ 64 = COLS - n + 2 ^ 64 := by omega
  rw [e]
  split_ifs <;> omega

/-- `User interface for sequencer ` has 29 characters: in the middle of 80 columns, missing on 20. -/
example : column 80 29 = 25 ∧ column 20 29 = -5 := by decide

/-! ### Commands (161-180) -/

/-- The five commands: the length of the description and the index (163-167). -/
def commands : List (Nat × Nat) := [(16, 0), (15, 1), (7, 2), (5, 4), (4, 5)]

/-- Line within the area and columns from (included) to (excluded) of a command (174-178): three characters of the key, a gap, the description. -/
def place (COLS : Nat) (c : Nat × Nat) : Nat × Nat × Nat :=
  let start := if c.2 % 2 > 0 then COLS / 2 + 1 else 1
  (1 + c.2 / 2, start, start + 4 + c.1)

/-- No two commands share a place on the screen, and all of them are completely shown. -/
def Legible (COLS : Nat) : Prop :=
  (∀ c ∈ commands, (place COLS c).2.2 ≤ COLS) ∧
  ∀ c ∈ commands, ∀ d ∈ commands, c ≠ d → (place COLS c).1 = (place COLS d).1 → (place COLS c).2.2 ≤ (place COLS d).2.1 ∨ (place COLS d).2.2 ≤ (place COLS c).2.1

/-- **C335** The commands are legible exactly on screens with at least 40 columns. -/
theorem legible_iff (COLS : Nat) : Legible COLS ↔ 40 ≤ COLS := by
  constructor
  · intro h
    have h1 := h.2 (16, 0) (by simp [commands]) (15, 1) (by simp [commands]) (by simp) (by simp [place])
    simp only [place] at h1
    simp at h1
    omega
  · intro h
    constructor
    · intro c hc
      simp only [commands, List.mem_cons, List.not_mem_nil, or_false] at hc
      rcases hc with rfl | rfl | rfl | rfl | rfl <;> simp [place] <;> omega
    · intro c hc d hd hcd
      simp only [commands, List.mem_cons, List.not_mem_nil, or_false] at hc hd
      rcases hc with rfl | rfl | rfl | rfl | rfl <;> rcases hd with rfl | rfl | rfl | rfl | rfl <;> simp [place] at hcd ⊢ <;> omega

example : Legible 80 ∧ ¬ Legible 39 := ⟨(legible_iff 80).2 (by omega), fun h => absurd ((legible_iff 39).1 h) (by omega)⟩

/-! ### Status (110-136) -/

/-- `SequenceState` (`/repo/includes/eeros/sequencer/BaseSequence.hpp` 18-26). -/
inductive SeqState where
  | idle | starting | running | paused | aborting | terminated | restarting
deriving DecidableEq

/-- The value of the enumerator. -/
def SeqState.value : SeqState → Nat
  | .idle => 0 | .starting => 1 | .running => 2 | .paused => 3 | .aborting => 4 | .terminated => 5 | .restarting => 6

/-- What is printed at column 9 (115-136).  The label `SequenceState::aborted` (119) names no enumerator: the file does not compile and its directory is taken out
of the build (`/repo/src/CMakeLists.txt` 28). -/
def statusText : SeqState → String
  | .running => "running    "
  | .aborting => "aborting   "
  | .terminated => "terminated "
  | .idle => "idle       "
  | .restarting => "restarting "
  | s => "unknown (" ++ toString s.value ++ ")"

/-- Print a text over what stands on the line. -/
def over (line : List Char) (text : List Char) : List Char := text ++ line.drop text.length

/-- **C335** After every sequence of states the place of the status shows the text of the last one and no rest of a former one. -/
theorem status_last (ss : List SeqState) (s : SeqState) :
    (ss ++ [s]).foldl (fun l x => over l (statusText x).toList) [] = (statusText s).toList := by
  have h11 : ∀ x, (statusText x).toList.length = 11 := by intro x; cases x <;> decide +kernel
  rw [List.foldl_append, List.foldl_cons, List.foldl_nil]
  have hl : ∀ (ss : List SeqState) (l : List Char), l.length ≤ 11 → (ss.foldl (fun l x => over l (statusText x).toList) l).length ≤ 11 := by
    intro ss
    induction ss with
    | nil => intro l h; exact h
    | cons x ss ih =>
      intro l h
      refine ih _ ?_
      simp only [over, List.length_append, List.length_drop, h11]
      omega
  unfold over
  rw [List.drop_eq_nil_of_le (by rw [h11]; exact hl ss [] (by simp)), List.append_nil]

example : ([SeqState.terminated, .idle] : List SeqState).foldl (fun l x => over l (statusText x).toList) [] = "idle       ".toList :=
  status_last [.terminated] .idle

/-- **C335 violated**: a sequence which is starting is shown as unknown; the text shows the state exactly if it is none of `starting` and `paused`. -/
theorem named_iff (s : SeqState) : (∃ n, statusText s = "unknown (" ++ toString n ++ ")" ∧ n = s.value) ↔ s = .starting ∨ s = .paused := by
  cases s
  case starting => exact ⟨fun _ => .inl rfl, fun _ => ⟨1, rfl, rfl⟩⟩
  case paused => exact ⟨fun _ => .inr rfl, fun _ => ⟨3, rfl, rfl⟩⟩
  all_goals
    refine ⟨?_, fun h => by simp at h⟩
    rintro ⟨n, h, rfl⟩
    exact absurd h (by decide +kernel)

/-! ### The prompt (298-310) -/

/-- Outcome of `promptForInt`: the number, or a write behind the array `input` of ten characters. -/
inductive Prompt where
  | value (n : Int)
  | overrun
deriving DecidableEq

/-- The digits at the beginning of a text, as number. -/
def digits (acc : Nat) : List Char → Nat
  | [] => acc
  | c :: cs => if c.isDigit then digits (10 * acc + (c.toNat - 48)) cs else acc

/-- `atoi`: blanks, a sign, digits.  Numbers outside of `int` do not occur with at most nine characters. -/
def atoi : List Char → Int
  | ' ' :: cs => atoi cs
  | '-' :: cs => - (digits 0 cs : Int)
  | '+' :: cs => digits 0 cs
  | cs => digits 0 cs

/-- `mvgetstr` writes the typed characters and a terminating zero, without limit (304); then `atoi` (309). -/
def prompt (typed : List Char) : Prompt := if typed.length + 1 > 10 then .overrun else .value (atoi typed)

/-- **C336** The array is overrun exactly if ten or more characters are typed. -/
theorem overrun_iff (typed : List Char) : prompt typed = .overrun ↔ 10 ≤ typed.length := by
  unfold prompt
  split_ifs with h
  · simp; omega
  · simp; omega

/-- The decimal digits of a number. -/
def decimal (n : Nat) : List Char := (Nat.toDigits 10 n)

theorem digits_append (l : List Char) (c : Char) (acc : Nat) (hl : ∀ x ∈ l, x.isDigit = true) (hc : c.isDigit = true) :
    digits acc (l ++ [c]) = 10 * digits acc l + (c.toNat - 48) := by
  induction l generalizing acc with
  | nil => simp [digits, hc]
  | cons x l ih =>
    simp only [List.cons_append, digits, hl x (by simp), ↓reduceIte]
    exact ih _ (fun y hy => hl y (by simp [hy]))

theorem digitChar_props : ∀ d : Nat, d < 10 → (Nat.digitChar d).isDigit = true ∧ (Nat.digitChar d).toNat - 48 = d := by decide

theorem decimal_all (n : Nat) : (∀ c ∈ decimal n, c.isDigit = true) ∧ digits 0 (decimal n) = n := by
  induction n using Nat.strong_induction_on with
  | _ n ih =>
    unfold decimal
    rcases Nat.lt_or_ge n 10 with h | h
    · rw [Nat.toDigits_of_lt_base h]
      obtain ⟨h1, h2⟩ := digitChar_props n h
      refine ⟨?_, ?_⟩
      · intro c hc; simp only [List.mem_singleton] at hc; subst hc; exact h1
      · simp [digits, h1, h2]
    · rw [Nat.toDigits_of_base_le (by decide) h]
      obtain ⟨i1, i2⟩ := ih (n / 10) (by omega)
      obtain ⟨h1, h2⟩ := digitChar_props (n % 10) (by omega)
      refine ⟨?_, ?_⟩
      · intro c hc
        rcases List.mem_append.1 hc with hc | hc
        · exact i1 c hc
        · simp only [List.mem_singleton] at hc; subst hc; exact h1
      · unfold decimal at i1 i2
        rw [digits_append _ _ _ i1 h1, i2, h2]; omega

/-- **C336 (partial)** A number below 1000000000 which is typed is the result.  Missing: longer inputs (`overrun_iff`). -/
theorem typed_partial (n : Nat) (h : n < 10 ^ 9) : prompt (decimal n) = .value n := by
  obtain ⟨h1, h2⟩ := decimal_all n
  have hl : (decimal n).length ≤ 9 := Nat.toDigits_length 10 n 9 (by decide) h
  unfold prompt
  rw [if_neg (by omega)]
  have : atoi (decimal n) = digits 0 (decimal n) := by
    cases hd : decimal n with
    | nil => rfl
    | cons c cs =>
      have hc := h1 c (by rw [hd]; simp)
      unfold atoi
      split
      · rename_i e; simp only [List.cons.injEq] at e; rw [e.1] at hc; exact absurd hc (by decide)
      · rename_i e; simp only [List.cons.injEq] at e; rw [e.1] at hc; exact absurd hc (by decide)
      · rename_i e; simp only [List.cons.injEq] at e; rw [e.1] at hc; exact absurd hc (by decide)
      · rfl
  rw [this, h2]

example : prompt "42".toList = .value 42 ∧ prompt "-7".toList = .value (-7) ∧ prompt "1234567890".toList = .overrun := by decide +kernel

end Verif.Ui.CursesText
