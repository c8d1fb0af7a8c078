/-
Lemmas about text: numbers, lines and fields.
-/
import Verif.Config.Text
import Mathlib.Data.Nat.Digits.Lemmas

namespace Verif.Config

/-! ### Numbers -/

theorem digit_cases (d : Nat) (h : d < 10) : isDigit (digitChar d) = true ∧ digitVal (digitChar d) = d ∧
    isSpace (digitChar d) = false ∧ digitChar d ≠ ',' ∧ digitChar d ≠ '\n' ∧ digitChar d ≠ '-' ∧ digitChar d ≠ '+' := by
  interval_cases d <;> decide

theorem natText_digits (n : Nat) : natText n ≠ [] ∧ ∀ c ∈ natText n, ∃ d, d < 10 ∧ c = digitChar d := by
  unfold natText
  split
  · exact ⟨by simp, fun c hc => ⟨0, by simp, by simp at hc; subst hc; rfl⟩⟩
  · rename_i h
    refine ⟨by simp [Nat.digits_eq_nil_iff_eq_zero, h], fun c hc => ?_⟩
    simp only [List.mem_map, List.mem_reverse] at hc
    obtain ⟨d, hd, rfl⟩ := hc
    exact ⟨d, Nat.digits_lt_base (by simp) hd, rfl⟩

theorem foldl_ofDigits (l : List Nat) (h : ∀ d ∈ l, d < 10) :
    (l.reverse.map digitChar).foldl (fun n c => n * 10 + digitVal c) 0 = Nat.ofDigits 10 l := by
  induction l with
  | nil => rfl
  | cons d l ih =>
    rw [List.reverse_cons, List.map_append, List.foldl_append, ih fun d hd => h d (List.mem_cons_of_mem _ hd)]
    simp only [List.map_cons, List.map_nil, List.foldl_cons, List.foldl_nil]
    rw [(digit_cases d (h d (List.mem_cons_self ..))).2.1, Nat.ofDigits_cons]
    omega

theorem natText_value (n : Nat) : (natText n).foldl (fun n c => n * 10 + digitVal c) 0 = n := by
  unfold natText
  split
  · rename_i h; subst h; decide
  · rw [foldl_ofDigits _ fun d hd => Nat.digits_lt_base (by simp) hd, Nat.ofDigits_digits]

theorem takeWhile_all {α : Type} (p : α → Bool) (l : List α) (h : ∀ a ∈ l, p a = true) : l.takeWhile p = l ∧ l.dropWhile p = [] := by
  induction l with
  | nil => simp
  | cons a l ih =>
    have := ih fun b hb => h b (List.mem_cons_of_mem _ hb)
    simp [h a (List.mem_cons_self ..), this.1, this.2]

theorem natText_cons (n : Nat) : ∃ d l, d < 10 ∧ natText n = digitChar d :: l := by
  obtain ⟨h1, h2⟩ := natText_digits n
  obtain ⟨c, l, hl⟩ := List.exists_cons_of_ne_nil h1
  obtain ⟨d, hd, rfl⟩ := h2 c (by rw [hl]; exact List.mem_cons_self ..)
  exact ⟨d, l, hd, hl⟩

/-- Reading a number which was written gives the number, also after a space. -/
theorem stoi_intText (v : Int) (h : inInt v = true) : stoi (' ' :: intText v) = .ok v := by
  have hw : ∀ n, (natText n).takeWhile isDigit = natText n := fun n =>
    (takeWhile_all _ _ fun c hc => by obtain ⟨d, hd, rfl⟩ := (natText_digits n).2 c hc; exact (digit_cases d hd).1).1
  have he : ∀ n, (natText n).isEmpty = false := fun n => by simp [(natText_digits n).1]
  by_cases hv : v < 0
  · have hs : (' ' :: intText v).dropWhile isSpace = '-' :: natText v.natAbs := by
      rw [intText, if_pos hv]; rfl
    unfold stoi
    have hm : sign ('-' :: natText v.natAbs) = (true, natText v.natAbs) := rfl
    simp only [hs, hm, hw, he, natText_value, Bool.false_eq_true, if_false, if_true]
    rw [show -((v.natAbs : Nat) : Int) = v by omega, if_pos h]
  · have hs : (' ' :: intText v).dropWhile isSpace = natText v.natAbs := by
      rw [intText, if_neg hv]
      obtain ⟨d, l, hd, hl⟩ := natText_cons v.natAbs
      rw [hl]
      simp [List.dropWhile_cons, isSpace]
      have := (digit_cases d hd).2.2.1
      simp [isSpace] at this
      simp [this]
    obtain ⟨d, l, hd, hl⟩ := natText_cons v.natAbs
    have hm : sign (natText v.natAbs) = (false, natText v.natAbs) := by
      have h1 := (digit_cases d hd).2.2.2.2.2.1
      have h2 := (digit_cases d hd).2.2.2.2.2.2
      rw [hl, sign, if_neg h1, if_neg h2]
    unfold stoi
    simp only [hs, hm, hw, he, natText_value, Bool.false_eq_true, if_false]
    rw [show ((v.natAbs : Nat) : Int) = v by omega, if_pos h]

theorem intText_chars (v : Int) : intText v ≠ [] ∧ ∀ c ∈ intText v, c ≠ ',' ∧ c ≠ '\n' := by
  have hn : ∀ c ∈ natText v.natAbs, c ≠ ',' ∧ c ≠ '\n' := fun c hc => by
    obtain ⟨d, hd, rfl⟩ := (natText_digits _).2 c hc
    exact ⟨(digit_cases d hd).2.2.2.1, (digit_cases d hd).2.2.2.2.1⟩
  unfold intText
  split
  · refine ⟨by simp, fun c hc => ?_⟩
    rcases List.mem_cons.1 hc with rfl | hc
    · decide
    · exact hn c hc
  · exact ⟨(natText_digits _).1, hn⟩

/-! ### Lines and fields -/

theorem getlines_append (sep : Char) (a b : List Char) (h : sep ∉ a) : getlines sep (a ++ sep :: b) = a :: getlines sep b := by
  induction a with
  | nil => simp [getlines]
  | cons c a ih =>
    rw [List.cons_append, getlines, if_neg (by rintro rfl; exact h (List.mem_cons_self ..)),
      ih fun hm => h (List.mem_cons_of_mem _ hm)]

theorem getlines_one (sep : Char) (a : List Char) (h : sep ∉ a) (hn : a ≠ []) : getlines sep a = [a] := by
  induction a with
  | nil => exact absurd rfl hn
  | cons c a ih =>
    rw [getlines, if_neg (by rintro rfl; exact h (List.mem_cons_self ..))]
    by_cases ha : a = []
    · subst ha; rfl
    · rw [ih (fun hm => h (List.mem_cons_of_mem _ hm)) ha]

end Verif.Config
