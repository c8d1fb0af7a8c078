import Verif.Math.MatrixProps
/-!
Model of the output of a matrix to a stream, `operator<<(std::ostream&, const Matrix&)` (`/repo/includes/eeros/math/Matrix.hpp` 943-956).  How a
single element is written is a parameter: a function to the text of the element.
-/
namespace Verif.Math.Print
open Verif.Math Verif.Math.Mat
variable {M N : Nat} {T : Type}

/-- The elements of a column with blanks between, 948-951. -/
def column (write : T → List Char) (A : Mat M N T) (n : Nat) : List Char :=
  (List.range M).foldl (fun os m => let os := os ++ write (A.at' m n); if m < M - 1 then os ++ [' '] else os) []

/-- `operator<<`, 944-956. -/
def print (write : T → List Char) (A : Mat M N T) : List Char :=
  let os : List Char := if N > 1 then ['[', ' '] else []
  let os := (List.range N).foldl (fun os n => os ++ ['['] ++ column write A n ++ [']', '\'', ' ']) os
  if N > 1 then os ++ [']'] else os

/-- Specification: the text of an element contains neither blanks nor closing brackets, and different elements have different texts. -/
structure Good (write : T → List Char) : Prop where
  blank : ∀ x, ' ' ∉ write x
  bracket : ∀ x, ']' ∉ write x
  inj : ∀ x y, write x = write y → x = y

/-- The text of the first `k` elements of a column, each followed by a blank. -/
def front (write : T → List Char) (A : Mat M N T) (n k : Nat) : List Char := (List.range k).flatMap fun m => write (A.at' m n) ++ [' ']

theorem column_eq (write : T → List Char) (A : Mat (M + 1) N T) (n : Nat) : column write A n = front write A n M ++ write (A.at' M n) := by
  have h : ∀ k, k ≤ M → (List.range k).foldl (fun os m => let os := os ++ write (A.at' m n); if m < M + 1 - 1 then os ++ [' '] else os) [] = front write A n k := by
    intro k
    induction k with
    | zero => intro _; rfl
    | succ k ih =>
      intro hk
      rw [List.range_succ, List.foldl_append, ih (by omega)]
      have hlt : k < M := by omega
      simp [front, hlt, List.range_succ]
  unfold column
  rw [List.range_succ, List.foldl_append, h M (le_refl _)]
  simp

/-- Two words without the separator which are followed by it, inside equal texts, are equal. -/
theorem split_eq (c : Char) : ∀ (a b x y : List Char), c ∉ a → c ∉ b → a ++ c :: x = b ++ c :: y → a = b ∧ x = y := by
  intro a
  induction a with
  | nil =>
    intro b x y _ hb h
    cases b with
    | nil => simpa using h
    | cons d b => simp at h; exact absurd (by simp [h.1]) hb
  | cons e a ih =>
    intro b x y ha hb h
    cases b with
    | nil => simp at h; exact absurd (by simp [h.1]) ha
    | cons d b =>
      simp only [List.cons_append, List.cons.injEq] at h
      obtain ⟨h1, h2⟩ := ih b x y (fun h' => ha (by simp [h'])) (fun h' => hb (by simp [h'])) h.2
      exact ⟨by rw [h.1, h1], h2⟩

theorem front_inj (write : T → List Char) (hw : Good write) (A B : Mat M N T) (n : Nat) : ∀ (k : Nat) (s : Nat) (x y : List Char),
    ((List.range' s k).flatMap fun m => write (A.at' m n) ++ [' ']) ++ x = ((List.range' s k).flatMap fun m => write (B.at' m n) ++ [' ']) ++ y →
    (∀ m, s ≤ m → m < s + k → A.at' m n = B.at' m n) ∧ x = y := by
  intro k
  induction k with
  | zero => intro s x y h; exact ⟨fun m h1 h2 => absurd h1 (by omega), by simpa using h⟩
  | succ k ih =>
    intro s x y h
    rw [List.range'_succ] at h
    simp only [List.flatMap_cons, List.append_assoc, List.singleton_append] at h
    obtain ⟨h1, h2⟩ := split_eq ' ' _ _ _ _ (hw.blank _) (hw.blank _) h
    obtain ⟨h3, h4⟩ := ih (s + 1) x y h2
    refine ⟨fun m hm1 hm2 => ?_, h4⟩
    by_cases he : m = s
    · rw [he]; exact hw.inj _ _ h1
    · exact h3 m (by omega) (by omega)

theorem column_inj (write : T → List Char) (hw : Good write) (A B : Mat M N T) (n : Nat) (x y : List Char)
    (h : column write A n ++ ']' :: x = column write B n ++ ']' :: y) : (∀ m, m < M → A.at' m n = B.at' m n) ∧ x = y := by
  cases M with
  | zero => exact ⟨fun m hm => absurd hm (by omega), by simpa [column] using h⟩
  | succ M =>
    rw [column_eq, column_eq] at h
    unfold front at h
    rw [List.range_eq_range', List.append_assoc, List.append_assoc] at h
    obtain ⟨h1, h2⟩ := front_inj write hw A B n M 0 _ _ h
    obtain ⟨h3, h4⟩ := split_eq ']' _ _ _ _ (hw.bracket _) (hw.bracket _) h2
    refine ⟨fun m hm => ?_, h4⟩
    by_cases he : m = M
    · rw [he]; exact hw.inj _ _ h3
    · exact h1 m (by omega) (by omega)

theorem columns_eq (write : T → List Char) (A : Mat M N T) (ns : List Nat) (os : List Char) :
    ns.foldl (fun os n => os ++ ['['] ++ column write A n ++ [']', '\'', ' ']) os =
      os ++ ns.flatMap fun n => '[' :: column write A n ++ [']', '\'', ' '] := by
  induction ns generalizing os with
  | nil => simp
  | cons n ns ih => rw [List.foldl_cons, ih]; simp

/-- C325: the text of a matrix determines all its elements, for all sizes, if the texts of the elements are distinct and without blanks and brackets. -/
theorem print_inj (write : T → List Char) (hw : Good write) (A B : Mat M N T) (h : print write A = print write B) : toM A = toM B := by
  have key : ∀ (ns : List Nat) (x y : List Char),
      (ns.flatMap fun n => '[' :: column write A n ++ [']', '\'', ' ']) ++ x = (ns.flatMap fun n => '[' :: column write B n ++ [']', '\'', ' ']) ++ y →
      ∀ n ∈ ns, ∀ m, m < M → A.at' m n = B.at' m n := by
    intro ns
    induction ns with
    | nil => intro x y _ n hn; simp at hn
    | cons n ns ih =>
      intro x y hxy k hk
      simp only [List.flatMap_cons, List.cons_append, List.append_assoc, List.cons.injEq, true_and] at hxy
      obtain ⟨h1, h2⟩ := column_inj write hw A B n _ _ hxy
      rcases List.mem_cons.1 hk with rfl | hk
      · exact h1
      · refine ih x y ?_ k hk
        simpa using h2
  have hall : ∀ n ∈ List.range N, ∀ m, m < M → A.at' m n = B.at' m n := by
    unfold print at h
    simp only [columns_eq] at h
    split at h
    · simp only [List.append_assoc] at h
      exact key _ _ _ (List.append_cancel_left h)
    · simp only [List.nil_append] at h
      refine key _ [] [] ?_
      simpa using h
  ext i j
  exact hall j (by simp) i i.2

/-- A way to write numbers which is good: digits only. -/
def digits (n : Nat) : List Char := (List.replicate n '1')

example : Good digits := ⟨fun x h => by simp [digits] at h, fun x h => by simp [digits] at h, fun x y h => by simpa [digits] using congrArg List.length h⟩
example : String.ofList (print digits (⟨fun i => i⟩ : Mat 2 2 Nat)) = "[ [ 1]' [11 111]' ]" := by decide
example : String.ofList (print digits (⟨fun i => i + 1⟩ : Mat 3 1 Nat)) = "[1 11 111]' " := by decide

/-- C325: the text has one pair of brackets for every column, and one more if there is more than one column. -/
theorem brackets (write : T → List Char) (hw : ∀ x, ']' ∉ write x) (A : Mat M N T) : (print write A).count ']' = if N > 1 then N + 1 else N := by
  have hc : ∀ n, (column write A n).count ']' = 0 := by
    intro n
    rw [List.count_eq_zero]
    cases M with
    | zero => simp [column]
    | succ M =>
      rw [column_eq]
      intro h
      rcases List.mem_append.1 h with h | h
      · simp only [front, List.mem_flatMap, List.mem_append, List.mem_singleton] at h
        obtain ⟨m, _, h | h⟩ := h
        · exact hw _ h
        · exact absurd h (by decide)
      · exact hw _ h
  have hs : ∀ ns : List Nat, (ns.flatMap fun n => '[' :: column write A n ++ [']', '\'', ' ']).count ']' = ns.length := by
    intro ns
    induction ns with
    | nil => rfl
    | cons n ns ih =>
      rw [List.flatMap_cons, List.count_append, ih]
      simp [hc]
      omega
  unfold print
  simp only [columns_eq]
  split
  · rw [List.count_append, List.count_append, hs]
    simp
  · rw [List.count_append, hs]; simp

example : (print digits (⟨fun i => i⟩ : Mat 2 3 Nat)).count ']' = 4 := by decide

end Verif.Math.Print
