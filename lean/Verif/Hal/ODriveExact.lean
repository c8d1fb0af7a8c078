/-
C296: the outcome of `get_vel_from_encoder` for every text on the line (exact rule behind the partial claim C100).
No new model; the definitions are those of `ODrive.lean`.
-/
import Verif.Hal.ODriveProps
import Mathlib.Data.List.TakeWhile

namespace Verif.Hal.ODrive

/-- Specification: a text which begins (after white space and a sign) with a digit. -/
def IsNumber (t : List Char) : Prop :=
  ∃ (ws sign : List Char) (c : Char) (rest : List Char), t = ws ++ sign ++ c :: rest ∧ (∀ x ∈ ws, x.isWhitespace = true) ∧ (sign = [] ∨ sign = ['-'] ∨ sign = ['+']) ∧ c.isDigit = true

theorem dropWhile_ws (ws l : List Char) (h : ∀ x ∈ ws, x.isWhitespace = true) : (ws ++ l).dropWhile Char.isWhitespace = l.dropWhile Char.isWhitespace := by
  induction ws with
  | nil => rfl
  | cons c ws ih => rw [List.cons_append, List.dropWhile_cons, if_pos (h c (by simp)), ih fun x hx => h x (by simp [hx])]

theorem digit_not (c : Char) (h : c.isDigit = true) : c.isWhitespace = false ∧ c ≠ '-' ∧ c ≠ '+' := by
  refine ⟨?_, ?_, ?_⟩
  · unfold Char.isDigit at h
    unfold Char.isWhitespace
    simp only [Bool.and_eq_true, decide_eq_true_eq, ge_iff_le] at h
    simp only [Bool.or_eq_false_iff, decide_eq_false_iff_not]
    refine ⟨⟨⟨?_, ?_⟩, ?_⟩, ?_⟩ <;> rintro rfl <;> revert h <;> decide
  · rintro rfl; revert h; decide
  · rintro rfl; revert h; decide

theorem stod_some_iff (t : List Char) : (∃ v, stod t = some v) ↔ IsNumber t := by
  constructor
  · rintro ⟨v, h⟩
    unfold stod at h
    have ht := List.takeWhile_append_dropWhile (p := Char.isWhitespace) (l := t)
    have hws : ∀ x ∈ t.takeWhile Char.isWhitespace, x.isWhitespace = true := fun x hx => List.mem_takeWhile_imp hx
    have digit : ∀ l : List Char, l.takeWhile Char.isDigit ≠ [] → ∃ c rest, l = c :: rest ∧ c.isDigit = true := by
      intro l hl
      cases l with
      | nil => simp at hl
      | cons c rest =>
        rw [List.takeWhile_cons] at hl
        by_cases hc : c.isDigit = true
        · exact ⟨c, rest, rfl, hc⟩
        · rw [if_neg hc] at hl; exact absurd rfl hl
    generalize t.dropWhile Char.isWhitespace = u at h ht
    generalize t.takeWhile Char.isWhitespace = ws at ht hws
    have aux : ∀ (neg : Bool) (l : List Char), (if l.takeWhile Char.isDigit = [] then none else some (if neg then - (digitsValue (l.takeWhile Char.isDigit) : Int) else digitsValue (l.takeWhile Char.isDigit))) = some v →
        ∃ c rest, l = c :: rest ∧ c.isDigit = true := by
      intro neg l hl
      by_cases h0 : l.takeWhile Char.isDigit = []
      · rw [if_pos h0] at hl; cases hl
      · exact digit l h0
    dsimp only at h
    split at h
    · rename_i l
      obtain ⟨c, rest, rfl, hc⟩ := aux true _ h
      exact ⟨ws, ['-'], c, rest, by rw [← ht]; simp, hws, .inr (.inl rfl), hc⟩
    · rename_i l
      obtain ⟨c, rest, rfl, hc⟩ := aux false _ h
      exact ⟨ws, ['+'], c, rest, by rw [← ht]; simp, hws, .inr (.inr rfl), hc⟩
    · obtain ⟨c, rest, rfl, hc⟩ := aux false _ h
      exact ⟨ws, [], c, rest, by rw [← ht]; simp, hws, .inl rfl, hc⟩
  · rintro ⟨ws, sign, c, rest, rfl, hws, hs, hc⟩
    obtain ⟨h1, h2, h3⟩ := digit_not c hc
    have hd : (c :: rest).takeWhile Char.isDigit ≠ [] := by rw [List.takeWhile_cons, if_pos hc]; simp
    unfold stod
    rw [List.append_assoc, dropWhile_ws ws _ hws]
    rcases hs with rfl | rfl | rfl
    · rw [List.nil_append, List.dropWhile_cons, h1]
      simp only [Bool.false_eq_true, if_false]
      split
      · rename_i e; cases e; exact absurd rfl h2
      · rename_i e; cases e; exact absurd rfl h3
      · rename_i e1 e2
        simp only [hd, if_false]
        exact ⟨_, rfl⟩
    · have : (['-'] ++ c :: rest).dropWhile Char.isWhitespace = '-' :: c :: rest := rfl
      rw [this]
      simp only [hd, if_false]
      exact ⟨_, rfl⟩
    · have : (['+'] ++ c :: rest).dropWhile Char.isWhitespace = '+' :: c :: rest := rfl
      rw [this]
      simp only [hd, if_false]
      exact ⟨_, rfl⟩

example : IsNumber " -12abc".toList ∧ ¬ IsNumber "x1".toList := by
  constructor
  · exact (stod_some_iff _).1 ⟨-12, by decide +kernel⟩
  · rw [← stod_some_iff]
    have : stod "x1".toList = none := by decide +kernel
    rw [this]; simp

theorem readPoint_spec (n : Nat) (l : List Char) :
    (∀ t r, readPoint n l = .ok t r ↔ l = t ++ '.' :: r ∧ '.' ∉ t ∧ t.length < n) ∧
    (readPoint n l = .overflow ↔ n < l.length ∧ '.' ∉ l.take n) ∧
    (readPoint n l = .blocked ↔ l.length ≤ n ∧ '.' ∉ l) := by
  induction n generalizing l with
  | zero =>
    cases l with
    | nil => simp [readPoint]
    | cons c l => simp [readPoint]
  | succ n ih =>
    cases l with
    | nil => simp [readPoint]
    | cons c l =>
      obtain ⟨h1, h2, h3⟩ := ih l
      rw [readPoint]
      by_cases hc : c = '.'
      · subst hc
        rw [if_pos rfl]
        refine ⟨fun t r => ?_, by simp, by simp⟩
        constructor
        · intro e; cases e; exact ⟨rfl, by simp, by simp⟩
        · rintro ⟨e, hn, -⟩
          cases t with
          | nil => cases e; rfl
          | cons d t => injection e with e1; exact absurd (by rw [← e1]; simp) hn
      · rw [if_neg hc]
        have ok : ∀ t r, (match readPoint n l with | .ok t r => Read.ok (c :: t) r | x => x) = .ok t r ↔ ∃ t', t = c :: t' ∧ readPoint n l = .ok t' r := by
          intro t r
          cases hr : readPoint n l with
          | ok t' r' =>
            simp only [Read.ok.injEq]
            constructor
            · rintro ⟨rfl, rfl⟩; exact ⟨t', rfl, rfl, rfl⟩
            · rintro ⟨_, rfl, rfl, rfl⟩; exact ⟨rfl, rfl⟩
          | overflow => simp
          | blocked => simp
        have ov : (match readPoint n l with | .ok t r => Read.ok (c :: t) r | x => x) = .overflow ↔ readPoint n l = .overflow := by cases readPoint n l <;> simp
        have bl : (match readPoint n l with | .ok t r => Read.ok (c :: t) r | x => x) = .blocked ↔ readPoint n l = .blocked := by cases readPoint n l <;> simp
        refine ⟨fun t r => ?_, ?_, ?_⟩
        · refine (ok t r).trans ?_
          constructor
          · rintro ⟨t', rfl, hr⟩
            obtain ⟨e, hn, hl⟩ := (h1 t' r).1 hr
            refine ⟨by rw [e]; rfl, ?_, by simpa using hl⟩
            rw [List.mem_cons, not_or]
            exact ⟨fun e => hc e.symm, hn⟩
          · rintro ⟨e, hn, hl⟩
            cases t with
            | nil => injection e with e1; exact absurd e1 hc
            | cons d t =>
              injection e with e1 e2
              subst e1
              exact ⟨t, rfl, (h1 t r).2 ⟨e2, fun h => hn (by simp [h]), by simpa using hl⟩⟩
        · refine ov.trans ?_
          rw [h2]
          simp only [List.length_cons, List.take_succ_cons, List.mem_cons, not_or]
          exact ⟨fun ⟨a, b⟩ => ⟨by omega, fun e => hc e.symm, b⟩, fun ⟨a, _, b⟩ => ⟨by omega, b⟩⟩
        · refine bl.trans ?_
          rw [h3]
          simp only [List.length_cons, List.mem_cons, not_or]
          exact ⟨fun ⟨a, b⟩ => ⟨by omega, fun e => hc e.symm, b⟩, fun ⟨a, _, b⟩ => ⟨by omega, b⟩⟩

theorem skipReturn_spec (l : List Char) :
    (∀ r, skipReturn l = some r ↔ ∃ f, l = f ++ '\r' :: r ∧ '\r' ∉ f) ∧ (skipReturn l = none ↔ '\r' ∉ l) := by
  induction l with
  | nil => simp [skipReturn]
  | cons c l ih =>
    rw [skipReturn]
    by_cases hc : c = '\r'
    · subst hc
      rw [if_pos rfl]
      refine ⟨fun r => ?_, by simp⟩
      constructor
      · intro e; cases e; exact ⟨[], rfl, by simp⟩
      · rintro ⟨f, e, hf⟩
        cases f with
        | nil => cases e; rfl
        | cons d f => injection e with e1; exact absurd (by rw [← e1]; simp) hf
    · rw [if_neg hc]
      refine ⟨fun r => ?_, ?_⟩
      · rw [ih.1]
        constructor
        · rintro ⟨f, rfl, hf⟩
          refine ⟨c :: f, rfl, ?_⟩
          rw [List.mem_cons, not_or]
          exact ⟨fun e => hc e.symm, hf⟩
        · rintro ⟨f, e, hf⟩
          cases f with
          | nil => injection e with e1; exact absurd e1 hc
          | cons d f => injection e with e1 e2; exact ⟨f, e2, fun h => hf (by simp [h])⟩
      · rw [ih.2, List.mem_cons, not_or]
        exact ⟨fun h => ⟨fun e => hc e.symm, h⟩, fun h => h.2⟩

/-- **C296** The outcome of a request for the velocity, for every text which is on the line or arrives later (`got`: bytes which the last read gets):
the buffer is overrun exactly if there is no point among the first hundred of more than a hundred characters; the program ends with an exception exactly if there is no number in front of the first point; the thread waits for
ever exactly if there is no point in a shorter text, or no carriage return behind number and point; and a velocity is returned in all other cases, the one in front of the point. -/
theorem getVel_exact (got : Nat) (line : List Char) :
    (getVel got line = .overflow ↔ 100 < line.length ∧ '.' ∉ line.take 100) ∧
    (getVel got line = .exception ↔ ∃ t f, line = t ++ '.' :: f ∧ '.' ∉ t ∧ t.length < 100 ∧ ¬ IsNumber t) ∧
    (getVel got line = .blocked ↔ (line.length ≤ 100 ∧ '.' ∉ line) ∨ ∃ t f, line = t ++ '.' :: f ∧ '.' ∉ t ∧ t.length < 100 ∧ IsNumber t ∧ '\r' ∉ f) ∧
    (∀ v rest, getVel got line = .velocity v rest ↔ ∃ t f l, line = t ++ '.' :: (f ++ '\r' :: l) ∧ '.' ∉ t ∧ t.length < 100 ∧ '\r' ∉ f ∧ stod t = some v ∧ rest = l.drop got) := by
  obtain ⟨h1, h2, h3⟩ := readPoint_spec 100 line
  have uniq : ∀ t f t' f' : List Char, t ++ '.' :: f = t' ++ '.' :: f' → '.' ∉ t → '.' ∉ t' → t = t' ∧ f = f' := by
    intro t
    induction t with
    | nil =>
      intro f t' f' e _ hn
      cases t' with
      | nil => cases e; exact ⟨rfl, rfl⟩
      | cons d t' => injection e with e1; exact absurd (by rw [← e1]; simp) hn
    | cons c t ih =>
      intro f t' f' e hn hn'
      cases t' with
      | nil => injection e with e1; exact absurd (by rw [e1]; simp) hn
      | cons d t' =>
        injection e with e1 e2
        obtain ⟨a, b⟩ := ih f t' f' e2 (fun h => hn (by simp [h])) (fun h => hn' (by simp [h]))
        exact ⟨by rw [e1, a], b⟩
  unfold getVel
  rw [show bufferSize = 100 from rfl]
  cases hr : readPoint 100 line with
  | overflow =>
    have ho := h2.1 hr
    have hno : ∀ t f, line = t ++ '.' :: f → '.' ∉ t → t.length < 100 → False := by
      intro t f e hn hl
      have := (h1 t f).2 ⟨e, hn, hl⟩
      rw [hr] at this; cases this
    refine ⟨by simp only [true_iff]; exact ho, ?_, ?_, fun v rest => ?_⟩
    · simp only [reduceCtorEq, false_iff]; rintro ⟨t, f, e, hn, hl, -⟩; exact hno t f e hn hl
    · simp only [reduceCtorEq, false_iff]; rintro (⟨h, -⟩ | ⟨t, f, e, hn, hl, -⟩)
      · omega
      · exact hno t f e hn hl
    · simp only [reduceCtorEq, false_iff]; rintro ⟨t, f, l, e, hn, hl, -⟩; exact hno t _ e hn hl
  | blocked =>
    have ho := h3.1 hr
    have hno : ∀ t f, line = t ++ '.' :: f → False := fun t f e => ho.2 (by rw [e]; simp)
    refine ⟨?_, ?_, ?_, fun v rest => ?_⟩
    · simp only [reduceCtorEq, false_iff]; rintro ⟨h, -⟩; omega
    · simp only [reduceCtorEq, false_iff]; rintro ⟨t, f, e, -⟩; exact hno t f e
    · simp only [true_iff]; exact .inl ho
    · simp only [reduceCtorEq, false_iff]; rintro ⟨t, f, l, e, -⟩; exact hno t _ e
  | ok t r =>
    obtain ⟨e, hn, hl⟩ := (h1 t r).1 hr
    have hnov : ¬ (100 < line.length ∧ '.' ∉ line.take 100) := fun h => by rw [h2.2 h] at hr; cases hr
    have hnbl : ¬ (line.length ≤ 100 ∧ '.' ∉ line) := fun h => by rw [h3.2 h] at hr; cases hr
    have hu : ∀ t' f', line = t' ++ '.' :: f' → '.' ∉ t' → t' = t ∧ f' = r := fun t' f' e' hn' => uniq t' f' t r (e'.symm.trans e) hn' hn
    simp only
    cases hs : stod t with
    | none =>
      have hnum : ¬ IsNumber t := by rw [← stod_some_iff, hs]; simp
      refine ⟨by simpa using hnov, by simp only [true_iff]; exact ⟨t, r, e, hn, hl, hnum⟩, ?_, fun v rest => ?_⟩
      · simp only [reduceCtorEq, false_iff]
        rintro (h | ⟨t', f', e', hn', -, h, -⟩)
        · exact hnbl h
        · rw [(hu t' f' e' hn').1] at h; exact hnum h
      · simp only [reduceCtorEq, false_iff]
        rintro ⟨t', f', l, e', hn', -, -, h, -⟩
        rw [(hu t' _ e' hn').1, hs] at h; cases h
    | some v =>
      have hnum : IsNumber t := (stod_some_iff t).1 ⟨v, hs⟩
      obtain ⟨k1, k2⟩ := skipReturn_spec r
      simp only
      have hex : ¬ ∃ t f, line = t ++ '.' :: f ∧ '.' ∉ t ∧ t.length < 100 ∧ ¬ IsNumber t := by
        rintro ⟨t', f', e', hn', -, h⟩
        rw [(hu t' f' e' hn').1] at h; exact h hnum
      cases hk : skipReturn r with
      | none =>
        have hcr := k2.1 hk
        refine ⟨by simpa using hnov, by simpa using hex, by simp only [true_iff]; exact .inr ⟨t, r, e, hn, hl, hnum, hcr⟩, fun w rest => ?_⟩
        simp only [reduceCtorEq, false_iff]
        rintro ⟨t', f', l, e', hn', -⟩
        exact hcr (by rw [← (hu t' _ e' hn').2]; simp)
      | some l =>
        obtain ⟨f, rfl, hf⟩ := (k1 l).1 hk
        refine ⟨by simpa using hnov, by simpa using hex, ?_, fun w rest => ?_⟩
        · simp only [reduceCtorEq, false_iff]
          rintro (h | ⟨t', f', e', hn', -, -, h⟩)
          · exact hnbl h
          · rw [(hu t' f' e' hn').2] at h; exact h (by simp)
        · simp only [Outcome.velocity.injEq]
          constructor
          · rintro ⟨rfl, rfl⟩; exact ⟨t, f, l, e, hn, hl, hf, hs, rfl⟩
          · rintro ⟨t', f', l', e', hn', -, hf', h, rfl⟩
            obtain ⟨rfl, er⟩ := hu t' _ e' hn'
            rw [hs] at h
            have : skipReturn (f ++ '\r' :: l) = some l' := (k1 l').2 ⟨f', er.symm, hf'⟩
            rw [hk] at this
            cases this
            exact ⟨Option.some.inj h, rfl⟩

/-- An error message with a point. -/
example : getVel 1 "no axis. try again\r\n".toList = .exception := by decide +kernel

end Verif.Hal.ODrive
