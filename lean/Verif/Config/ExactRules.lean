/-
C283: exact rule behind the partial claim C46: when loading an array writes outside of it.
No new model; the definitions are those of `Config.lean`.
-/
import Verif.Config.ConfigProps
import Mathlib.Data.List.Basic

namespace Verif.Config

theorem stoi_error (s : List Char) : stoi s ≠ .error .outOfBounds := by
  unfold stoi
  simp only
  split
  · simp
  · generalize (if (sign (s.dropWhile isSpace)).1 = true then _ else _ : Int) = v
    split <;> simp

theorem readArr_outOfBounds_iff {α : Type} (rd : List Char → Except Err α) (hrd : ∀ s, rd s ≠ .error .outOfBounds) (els : List (List Char)) (old : List α) :
    readArr rd els old = .error .outOfBounds ↔ old.length < els.length ∧ ∀ i, i ≤ old.length → ∀ el, els[i]? = some el → ∃ v, rd el = .ok v := by
  induction els generalizing old with
  | nil => simp [readArr]
  | cons e els ih =>
    rw [readArr]
    cases he : rd e with
    | error x =>
      constructor
      · intro h
        cases h
        exact absurd he (hrd e)
      · rintro ⟨-, h⟩
        obtain ⟨v, hv⟩ := h 0 (Nat.zero_le _) e rfl
        rw [he] at hv; cases hv
    | ok v =>
      cases old with
      | nil =>
        change (Except.error Err.outOfBounds = _) ↔ _
        simp only [List.length_nil, List.length_cons, Nat.zero_lt_succ, true_and, Nat.le_zero, true_iff]
        rintro i rfl el hel
        cases hel
        exact ⟨v, he⟩
      | cons o old =>
        have hstep : (readArr rd els old = .error .outOfBounds) ↔
            ((do let (new, rest) ← readArr rd els old; Except.ok (v :: new, rest)) = Except.error Err.outOfBounds) := by
          cases hr : readArr rd els old with
          | error x => exact ⟨fun h => by cases h; rfl, fun h => by cases h; rfl⟩
          | ok q => exact ⟨fun h => (by cases h), fun h => by cases h⟩
        change ((do let (new, rest) ← readArr rd els old; Except.ok (v :: new, rest)) = _) ↔ _
        rw [← hstep, ih old]
        constructor
        · rintro ⟨h1, h2⟩
          refine ⟨by simpa using h1, fun i hi el hel => ?_⟩
          cases i with
          | zero => cases hel; exact ⟨v, he⟩
          | succ i => exact h2 i (by simpa using hi) el hel
        · rintro ⟨h1, h2⟩
          exact ⟨by simpa using h1, fun i hi el hel => h2 (i + 1) (by simpa using hi) el hel⟩

/-- **C283** Reading a line into an array writes beyond its end exactly if the line has more fields than the array elements and the fields up to and including the first surplus one are numbers. -/
theorem array_overflow_iff (l : List Int) (d : Int) (s : List Char) :
    parse (.arr l d) s = .error .outOfBounds ↔
      l.length < (getlines ',' s).length ∧ ∀ i, i ≤ l.length → ∀ el, (getlines ',' s)[i]? = some el → ∃ v, stoi el = .ok v := by
  rw [← readArr_outOfBounds_iff stoi stoi_error]
  unfold parse
  simp only
  cases hr : readArr stoi (getlines ',' s) l with
  | error x => exact ⟨fun h => by cases h; rfl, fun h => by cases h; rfl⟩
  | ok q => exact ⟨fun h => (by cases h), fun h => by cases h⟩

theorem readArr_isOk_iff {α : Type} (rd : List Char → Except Err α) (els : List (List Char)) (old : List α) :
    (∃ r, readArr rd els old = .ok r) ↔ els.length ≤ old.length ∧ ∀ el ∈ els, ∃ v, rd el = .ok v := by
  induction els generalizing old with
  | nil => simp [readArr]
  | cons e els ih =>
    rw [readArr]
    cases he : rd e with
    | error x =>
      constructor
      · rintro ⟨r, h⟩; cases h
      · rintro ⟨-, h⟩
        obtain ⟨v, hv⟩ := h e (List.mem_cons_self ..)
        rw [he] at hv; cases hv
    | ok v =>
      cases old with
      | nil =>
        constructor
        · rintro ⟨r, h⟩; cases h
        · rintro ⟨h, -⟩; simp at h
      | cons o old =>
        have hstep : (∃ r, readArr rd els old = .ok r) ↔
            ∃ r, ((do let (new, rest) ← readArr rd els old; Except.ok (v :: new, rest)) = Except.ok (ε := Err) r) := by
          cases hr : readArr rd els old with
          | error x => exact ⟨fun ⟨r, h⟩ => (by cases h), fun ⟨r, h⟩ => by cases h⟩
          | ok q => exact ⟨fun _ => ⟨_, rfl⟩, fun _ => ⟨_, rfl⟩⟩
        change (∃ r, (do let (new, rest) ← readArr rd els old; Except.ok (v :: new, rest)) = Except.ok r) ↔ _
        rw [← hstep, ih old]
        constructor
        · rintro ⟨h1, h2⟩
          refine ⟨by simpa using h1, fun el hel => ?_⟩
          rcases List.mem_cons.1 hel with rfl | hel
          · exact ⟨v, he⟩
          · exact h2 el hel
        · rintro ⟨h1, h2⟩
          exact ⟨by simpa using h1, fun el hel => h2 el (List.mem_cons_of_mem _ hel)⟩

/-- **C283** An array is loaded exactly if the line has at most as many fields as the array elements and all of them are numbers; otherwise an exception is thrown or memory behind the array is overwritten. -/
theorem array_loaded_iff (l : List Int) (d : Int) (s : List Char) :
    (∃ l', parse (.arr l d) s = .ok (.arr l' d)) ↔ (getlines ',' s).length ≤ l.length ∧ ∀ el ∈ getlines ',' s, ∃ v, stoi el = .ok v := by
  rw [← readArr_isOk_iff]
  unfold parse
  simp only
  cases hr : readArr stoi (getlines ',' s) l with
  | error x => exact ⟨fun ⟨r, h⟩ => (by cases h), fun ⟨r, h⟩ => by cases h⟩
  | ok q => exact ⟨fun _ => ⟨_, rfl⟩, fun _ => ⟨_, rfl⟩⟩

/-- An array of two: three numbers overflow; three fields of which the second is no number throw; two numbers are loaded. -/
example : parse (.arr [1, 2] 9) "17, -5, 3, x".toList = .error .outOfBounds ∧ parse (.arr [1, 2] 9) "17, x, 3".toList = .error .invalid ∧
    parse (.arr [1, 2] 9) "17, 4".toList = .ok (.arr [17, 4] 9) := by decide +kernel

end Verif.Config
