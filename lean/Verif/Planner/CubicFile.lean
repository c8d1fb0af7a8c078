import Verif.Planner.CubicProps
/-!
Reading the table of `control::PathPlannerCubic` from a file (`init`, includes/eeros/control/PathPlannerCubic.hpp:55-90) character by character, and what
`init` and `reset` do to a motion which is under way (C252, C253).

`file >> tmp_string` is `operator>>(istream&, string&)` of the C++ library: if the stream is not good, or if only white space is left, the bit `fail` is set
and the string keeps its value; otherwise the white space is skipped and the string becomes the characters up to the next white space or the end of the
file, where the bit `eof` is set.  `::atof` is a parameter `num`; it gives 0 for what is not a number.  White space is given by a predicate `ws` (the locale).
-/
namespace Verif.Planner.CubicFile
open Cubic
variable {K : Type}

/-- State of the stream. -/
structure In where
  rest : List Char
  eof : Bool
  fail : Bool

/-- A file which has just been opened (56-58). -/
def opened (text : List Char) : In := ⟨text, false, false⟩

/-- `file >> tmp_string`. -/
def extract (ws : Char → Bool) (s : In) (tmp : List Char) : In × List Char :=
  if s.eof || s.fail then ({ s with fail := true }, tmp)
  else match s.rest.dropWhile ws with
    | [] => (⟨[], true, true⟩, tmp)
    | c :: l =>
      let word := (c :: l).takeWhile (fun c => !ws c)
      let rest := (c :: l).dropWhile (fun c => !ws c)
      (⟨rest, rest.isEmpty, false⟩, word)

/-- One pass of the loop, 61-88; `none`: left by `break` (67). -/
def pass (ws : Char → Bool) (num : List Char → K) (s : In) : In × Option (Row K) :=
  let a := extract ws s []
  if a.2 = [] then (a.1, none)
  else
    let b := extract ws a.1 a.2
    let c := extract ws b.1 b.2
    let d := extract ws c.1 c.2
    let e := extract ws d.1 d.2
    (e.1, some ⟨num a.2, num b.2, num c.2, num d.2, num e.2⟩)

/-- `while (!file.eof())`, 60-89.  `n` bounds the number of passes; `none`: more are needed. -/
def loop (ws : Char → Bool) (num : List Char → K) : Nat → In → Option (List (Row K))
  | 0, _ => none
  | n + 1, s =>
    if s.eof then some []
    else match pass ws num s with
      | (_, none) => some []
      | (s', some r) => (loop ws num n s').map (r :: ·)

/-! ### Specification -/

/-- The words of a text: the longest pieces without white space. -/
inductive Words (ws : Char → Bool) : List Char → List (List Char) → Prop where
  | nil : Words ws [] []
  | skip (c l w) : ws c = true → Words ws l w → Words ws (c :: l) w
  | last (a) : a ≠ [] → (∀ c ∈ a, ws c = false) → Words ws a [a]
  | word (a c l w) : a ≠ [] → (∀ c ∈ a, ws c = false) → ws c = true → Words ws l w → Words ws (a ++ c :: l) (a :: w)

/-- The table meant by a file: five numbers a row; a row which is not complete means nothing. -/
def table (num : List Char → K) : List (List Char) → Option (List (Row K))
  | [] => some []
  | a :: b :: c :: d :: e :: l => (table num l).map (⟨num a, num b, num c, num d, num e⟩ :: ·)
  | _ => none

/-- What is read: an incomplete row is filled up with its last number. -/
def filled (num : List Char → K) : List (List Char) → List (Row K)
  | [] => []
  | [a] => [⟨num a, num a, num a, num a, num a⟩]
  | [a, b] => [⟨num a, num b, num b, num b, num b⟩]
  | [a, b, c] => [⟨num a, num b, num c, num c, num c⟩]
  | [a, b, c, d] => [⟨num a, num b, num c, num d, num d⟩]
  | a :: b :: c :: d :: e :: l => ⟨num a, num b, num c, num d, num e⟩ :: filled num l

/-! ### Extraction of words -/

variable {ws : Char → Bool} {num : List Char → K}

theorem takeWhile_append_stop {p : Char → Bool} {a l : List Char} {c : Char} (ha : ∀ x ∈ a, p x = true) (hc : p c = false) :
    (a ++ c :: l).takeWhile p = a ∧ (a ++ c :: l).dropWhile p = c :: l := by
  induction a with
  | nil => simp [hc]
  | cons x a ih =>
    obtain ⟨h1, h2⟩ := ih (fun y hy => ha y (by simp [hy]))
    simp [ha x (by simp), h1, h2]

theorem takeWhile_all {p : Char → Bool} {a : List Char} (ha : ∀ x ∈ a, p x = true) : a.takeWhile p = a ∧ a.dropWhile p = [] := by
  induction a with
  | nil => simp
  | cons x a ih =>
    obtain ⟨h1, h2⟩ := ih (fun y hy => ha y (by simp [hy]))
    simp [ha x (by simp), h1, h2]

theorem words_no_ws {l : List Char} {w : List (List Char)} (h : Words ws l w) : ∀ a ∈ w, a ≠ [] := by
  induction h with
  | nil => simp
  | skip _ _ _ _ _ ih => exact ih
  | last a ha _ => simpa using ha
  | word a c l w ha _ _ _ ih => simp only [List.mem_cons]; rintro x (rfl | hx); exacts [ha, ih x hx]

/-- Reading a word when one is left. -/
theorem extract_word {s : In} {a : List Char} {w : List (List Char)} (he : s.eof = false) (hf : s.fail = false) (h : Words ws s.rest (a :: w))
    (tmp : List Char) : ∃ rest, extract ws s tmp = (⟨rest, rest.isEmpty, false⟩, a) ∧ Words ws rest w ∧ rest.length < s.rest.length := by
  obtain ⟨r, e, f⟩ := s
  subst he; subst hf
  simp only at h
  generalize hw : a :: w = w' at h
  induction h with
  | nil => cases hw
  | skip c l w0 hc hl ih =>
    obtain ⟨rest, h1, h2, h3⟩ := ih hw
    refine ⟨rest, ?_, h2, by simp only [List.length_cons] at h3 ⊢; omega⟩
    simp only [extract, Bool.or_self, Bool.false_eq_true, if_false, List.dropWhile_cons, hc, if_true] at h1 ⊢
    exact h1
  | last b hb hn =>
    cases hw
    obtain ⟨x, b', rfl⟩ := List.exists_cons_of_ne_nil hb
    have hx : ws x = false := hn x (by simp)
    have hall := takeWhile_all (p := fun c => !ws c) (a := x :: b') (fun y hy => by simp [hn y hy])
    refine ⟨[], ?_, .nil, by simp⟩
    simp only [extract, Bool.or_self, Bool.false_eq_true, if_false, List.dropWhile_cons, hx]
    simp only [List.takeWhile_cons, hx, Bool.not_false, if_true, List.dropWhile_cons] at hall
    simp [hx, hall]
  | word b c l w0 hb hn hc hl ih =>
    cases hw
    obtain ⟨x, b', rfl⟩ := List.exists_cons_of_ne_nil hb
    have hx : ws x = false := hn x (by simp)
    have hall := takeWhile_append_stop (p := fun c => !ws c) (a := x :: b') (l := l) (c := c) (fun y hy => by simp [hn y hy]) (by simp [hc])
    refine ⟨c :: l, ?_, .skip _ _ _ hc hl, by simp only [List.length_append, List.length_cons]; omega⟩
    simp only [extract, Bool.or_self, Bool.false_eq_true, if_false]
    rw [show (x :: b' ++ c :: l).dropWhile ws = x :: (b' ++ c :: l) by simp [hx]]
    simp only
    rw [List.cons_append] at hall
    rw [hall.1, hall.2]

/-- Reading when no word is left: the string keeps its value. -/
theorem extract_none {s : In} (h : Words ws s.rest []) (tmp : List Char) :
    (extract ws s tmp).2 = tmp ∧ ((extract ws s tmp).1.eof = true ∨ s.eof = false ∧ s.fail = true) := by
  obtain ⟨r, e, f⟩ := s
  simp only at h
  have hr : r.dropWhile ws = [] := by
    generalize hw : ([] : List (List Char)) = w' at h
    induction h with
    | nil => rfl
    | skip c l w0 hc hl ih => simpa [hc] using ih hw
    | last => cases hw
    | word => cases hw
  unfold extract
  cases e <;> cases f <;> simp [hr]

/-- The stream has the words `w` left and is at the end only if there are none. -/
structure Ok (ws : Char → Bool) (s : In) (w : List (List Char)) : Prop where
  words : Words ws s.rest w
  fail : s.fail = false ∨ s.eof = true
  eof : s.eof = true → w = []

theorem ok_word {s : In} {a : List Char} {w : List (List Char)} (h : Ok ws s (a :: w)) (tmp : List Char) :
    (extract ws s tmp).2 = a ∧ Ok ws (extract ws s tmp).1 w ∧ (extract ws s tmp).1.rest.length < s.rest.length := by
  have he : s.eof = false := by
    cases hb : s.eof with
    | false => rfl
    | true => have := h.eof hb; cases this
  have hf : s.fail = false := by rcases h.fail with h | h; exacts [h, by rw [he] at h; cases h]
  obtain ⟨rest, h1, h2, h3⟩ := extract_word he hf h.words tmp
  rw [h1]
  refine ⟨rfl, ⟨h2, .inl rfl, fun hr => ?_⟩, h3⟩
  simp only [List.isEmpty_iff] at hr
  subst hr
  generalize hl : ([] : List Char) = l at h2
  cases h2 with
  | nil => rfl
  | skip => cases hl
  | last b hb => exact absurd hl.symm hb
  | word b c l w hb => simp at hl

theorem ok_none {s : In} (h : Ok ws s []) (tmp : List Char) :
    (extract ws s tmp).2 = tmp ∧ Ok ws (extract ws s tmp).1 [] ∧ (extract ws s tmp).1.eof = true := by
  obtain ⟨h1, h2⟩ := extract_none h.words tmp
  have h3 : (extract ws s tmp).1.eof = true := by
    rcases h2 with h2 | ⟨h2, h4⟩
    · exact h2
    · rcases h.fail with h5 | h5
      · rw [h4] at h5; cases h5
      · rw [h2] at h5; cases h5
  refine ⟨h1, ⟨?_, .inr h3, fun _ => rfl⟩, h3⟩
  unfold extract
  split
  · exact h.words
  · rename_i hn
    split
    · exact .nil
    · rename_i c l hd
      exfalso
      have := (extract_none h.words tmp).1
      simp only [Bool.or_eq_true, not_or, Bool.not_eq_true] at hn
      have h4 : (extract ws s tmp).1.eof = ((c :: l).dropWhile (fun c => !ws c)).isEmpty := by
        simp [extract, hn, hd]
      have h6 : ∀ r, Words ws r [] → r.dropWhile ws = [] := by
        intro r h
        generalize hw : ([] : List (List Char)) = w' at h
        induction h with
        | nil => rfl
        | skip c l w0 hc hl ih => simpa [hc] using ih hw
        | last => cases hw
        | word => cases hw
      rw [h6 _ h.words] at hd
      cases hd

/-- Every text has words. -/
theorem words_exist (ws : Char → Bool) (text : List Char) : ∃ w, Words ws text w := by
  suffices H : ∀ n (text : List Char), text.length ≤ n → ∃ w, Words ws text w from H _ text le_rfl
  intro n
  induction n with
  | zero => intro text h; simp at h; subst h; exact ⟨_, .nil⟩
  | succ n ih =>
    intro text h
    match text, h with
    | [], _ => exact ⟨_, .nil⟩
    | c :: l, h =>
      simp only [List.length_cons, Nat.add_le_add_iff_right] at h
      by_cases hc : ws c = true
      · obtain ⟨w, hw⟩ := ih l h
        exact ⟨w, .skip _ _ _ hc hw⟩
      · have h1 : ∀ x ∈ (c :: l).takeWhile (fun c => !ws c), ws x = false := fun x hx => by
          have := List.all_takeWhile (p := fun c => !ws c) (l := c :: l)
          rw [List.all_eq_true] at this
          simpa using this x hx
        have h2 : (c :: l).takeWhile (fun c => !ws c) ≠ [] := by simp [hc]
        have h3 := List.takeWhile_append_dropWhile (p := fun c => !ws c) (l := c :: l)
        match hd : (c :: l).dropWhile (fun c => !ws c) with
        | [] =>
          rw [hd, List.append_nil] at h3
          rw [h3] at h1 h2
          exact ⟨_, .last _ h2 h1⟩
        | d :: r =>
          have hdw : ws d = true := by
            have := List.head_dropWhile_not (fun c => !ws c) (l := c :: l) (by rw [hd]; simp)
            simp only [hd, List.head_cons] at this
            simpa using this
          have hlen : r.length ≤ n := by
            have := congrArg List.length h3
            rw [hd] at this
            simp only [List.length_append, List.length_cons] at this
            omega
          obtain ⟨w, hw⟩ := ih r hlen
          rw [← h3, hd]
          exact ⟨_, .word _ d r w h2 h1 hdw hw⟩

/-! ### C252 -/

theorem loop_filled : ∀ (n : Nat) (s : In) (w : List (List Char)), Ok ws s w → s.rest.length < n → (s.eof = true → w = []) →
    loop ws num n s = some (filled num w) := by
  intro n
  induction n with
  | zero => intro s w _ h; omega
  | succ n ih =>
    intro s w h hn _
    unfold loop
    by_cases he : s.eof = true
    · rw [if_pos he, h.eof he]; rfl
    rw [if_neg he]
    match w, h with
    | [], h =>
      have h1 := (ok_none h []).1
      simp [pass, h1, filled]
    | a :: w, h =>
      have ha : a ≠ [] := words_no_ws h.words a (by simp)
      obtain ⟨h1, k1, l1⟩ := ok_word h []
      generalize hs1 : extract ws s [] = r1 at *
      obtain ⟨s1, t1⟩ := r1
      simp only at h1 k1 l1; subst h1
      simp only [pass, hs1, if_neg ha]
      clear hs1
      match w, k1 with
      | [], k1 =>
        obtain ⟨h2, k2, e2⟩ := ok_none k1 t1
        generalize extract ws s1 t1 = r2 at *
        obtain ⟨s2, t2⟩ := r2
        simp only at h2 k2 e2; subst h2
        obtain ⟨h3, k3, e3⟩ := ok_none k2 t2
        generalize extract ws s2 t2 = r3 at *
        obtain ⟨s3, t3⟩ := r3
        simp only at h3 k3 e3; subst h3
        obtain ⟨h4, k4, e4⟩ := ok_none k3 t3
        generalize extract ws s3 t3 = r4 at *
        obtain ⟨s4, t4⟩ := r4
        simp only at h4 k4 e4; subst h4
        obtain ⟨h5, k5, e5⟩ := ok_none k4 t4
        generalize extract ws s4 t4 = r5 at *
        obtain ⟨s5, t5⟩ := r5
        simp only at h5 k5 e5; subst h5
        simp only [filled]
        cases n with
        | zero => omega
        | succ n => simp [loop, e5]
      | b :: w, k1 =>
        obtain ⟨h2, k2, l2⟩ := ok_word k1 t1
        generalize extract ws s1 t1 = r2 at *
        obtain ⟨s2, t2⟩ := r2
        simp only at h2 k2 l2; subst h2
        match w, k2 with
        | [], k2 =>
          obtain ⟨h3, k3, e3⟩ := ok_none k2 t2
          generalize extract ws s2 t2 = r3 at *
          obtain ⟨s3, t3⟩ := r3
          simp only at h3 k3 e3; subst h3
          obtain ⟨h4, k4, e4⟩ := ok_none k3 t3
          generalize extract ws s3 t3 = r4 at *
          obtain ⟨s4, t4⟩ := r4
          simp only at h4 k4 e4; subst h4
          obtain ⟨h5, k5, e5⟩ := ok_none k4 t4
          generalize extract ws s4 t4 = r5 at *
          obtain ⟨s5, t5⟩ := r5
          simp only at h5 k5 e5; subst h5
          simp only [filled]
          cases n with
          | zero => omega
          | succ n => simp [loop, e5]
        | c :: w, k2 =>
          obtain ⟨h3, k3, l3⟩ := ok_word k2 t2
          generalize extract ws s2 t2 = r3 at *
          obtain ⟨s3, t3⟩ := r3
          simp only at h3 k3 l3; subst h3
          match w, k3 with
          | [], k3 =>
            obtain ⟨h4, k4, e4⟩ := ok_none k3 t3
            generalize extract ws s3 t3 = r4 at *
            obtain ⟨s4, t4⟩ := r4
            simp only at h4 k4 e4; subst h4
            obtain ⟨h5, k5, e5⟩ := ok_none k4 t4
            generalize extract ws s4 t4 = r5 at *
            obtain ⟨s5, t5⟩ := r5
            simp only at h5 k5 e5; subst h5
            simp only [filled]
            cases n with
            | zero => omega
            | succ n => simp [loop, e5]
          | d :: w, k3 =>
            obtain ⟨h4, k4, l4⟩ := ok_word k3 t3
            generalize extract ws s3 t3 = r4 at *
            obtain ⟨s4, t4⟩ := r4
            simp only at h4 k4 l4; subst h4
            match w, k4 with
            | [], k4 =>
              obtain ⟨h5, k5, e5⟩ := ok_none k4 t4
              generalize extract ws s4 t4 = r5 at *
              obtain ⟨s5, t5⟩ := r5
              simp only at h5 k5 e5; subst h5
              simp only [filled]
              cases n with
              | zero => omega
              | succ n => simp [loop, e5]
            | e :: w, k4 =>
              obtain ⟨h5, k5, l5⟩ := ok_word k4 t4
              generalize extract ws s4 t4 = r5 at *
              obtain ⟨s5, t5⟩ := r5
              simp only at h5 k5 l5; subst h5
              have := ih s5 w k5 (by omega) k5.eof
              simp only [this, filled, Option.map_some]

/-- **C252, what is read.** From every text with the words `w` the planner reads the table `filled w`, after at most one pass of the loop more than
the text has characters. -/
theorem read_filled (text : List Char) (w : List (List Char)) (h : Words ws text w) :
    loop ws num (text.length + 1) (opened text) = some (filled num w) :=
  loop_filled _ _ _ ⟨h, .inl rfl, fun h => by cases h⟩ (by simp [opened]) (fun h => by cases h)

theorem filled_table : ∀ (w : List (List Char)) (rows : List (Row K)), table num w = some rows → filled num w = rows
  | [], rows, h => by simpa [table, filled] using h
  | [_], _, h | [_, _], _, h | [_, _, _], _, h | [_, _, _, _], _, h => by simp [table] at h
  | a :: b :: c :: d :: e :: l, rows, h => by
    simp only [table, Option.map_eq_some_iff] at h
    obtain ⟨r, hr, rfl⟩ := h
    simp [filled, filled_table l r hr]

/-- **C252, complete files.** A file of complete rows is read as the table it means, whatever white space separates the numbers and
whether or not the last line ends with a newline. -/
theorem reads_table_partial (text : List Char) (w : List (List Char)) (rows : List (Row K)) (h : Words ws text w) (ht : table num w = some rows) :
    loop ws num (text.length + 1) (opened text) = some rows := by
  rw [read_filled text w h, filled_table w rows ht]

/-- **C252 violated.** A file whose last row is not complete means no table, but it is accepted: the missing numbers are copies of the last one. -/
theorem truncated_violated (text : List Char) (w last : List (List Char)) (rows : List (Row K)) (h : Words ws text (w ++ last))
    (ht : table num w = some rows) (h1 : last ≠ []) (h4 : last.length < 5) :
    table num (w ++ last) = none ∧
    ∃ r, loop ws num (text.length + 1) (opened text) = some (rows ++ [r]) ∧ (∀ a ∈ last.getLast?, r.pos = num a) ∧
      (∀ a b c, last = [a, b, c] → r.vel = num c) := by
  have key : ∀ (w : List (List Char)) (rows : List (Row K)), table num w = some rows →
      table num (w ++ last) = none ∧ filled num (w ++ last) = rows ++ filled num last := by
    intro w
    induction w using table.induct with
    | case1 =>
      intro rows h
      cases h
      match last, h1, h4 with
      | [_], _, _ | [_, _], _, _ | [_, _, _], _, _ | [_, _, _, _], _, _ => simp [table]
      | _ :: _ :: _ :: _ :: _ :: _, _, h => simp only [List.length_cons] at h; omega
    | case2 a b c d e l ih =>
      intro rows h
      simp only [table, Option.map_eq_some_iff] at h
      obtain ⟨r, hr, rfl⟩ := h
      obtain ⟨i1, i2⟩ := ih r hr
      simp [table, filled, i1, i2]
    | case3 w hn1 hn2 =>
      intro rows h
      match w, hn1, hn2, h with
      | [], h, _, _ => exact absurd rfl h
      | [_], _, _, h | [_, _], _, _, h | [_, _, _], _, _, h | [_, _, _, _], _, _, h => simp [table] at h
      | _ :: _ :: _ :: _ :: _ :: _, _, h, _ => exact absurd rfl (h _ _ _ _ _ _)
  obtain ⟨k1, k2⟩ := key w rows ht
  refine ⟨k1, ?_⟩
  rw [read_filled text _ h, k2]
  match last, h1, h4 with
  | [a], _, _ => exact ⟨_, rfl, by simp, by simp⟩
  | [a, b], _, _ => exact ⟨_, rfl, by simp, by simp⟩
  | [a, b, c], _, _ => exact ⟨_, rfl, by simp, by simp⟩
  | [a, b, c, d], _, _ => exact ⟨_, rfl, by simp, by simp⟩
  | _ :: _ :: _ :: _ :: _ :: _, _, h => simp only [List.length_cons] at h; omega

/-! ### Concrete files -/

def isWs (c : Char) : Bool := c = ' ' || c = '\n' || c = '\t'

/-- A number of one digit. -/
def digit (l : List Char) : ℚ := match l with | [c] => (c.toNat : ℚ) - 48 | _ => 0

/-- The hypotheses of `reads_table_partial` for the file `1 6 0 0 0`, newline, `2 3 6 3 1`. -/
example : loop isWs digit 20 (opened "1 6 0 0 0\n2 3 6 3 1".toList) = some [⟨1, 6, 0, 0, 0⟩, ⟨2, 3, 6, 3, 1⟩] :=
  reads_table_partial (ws := isWs) (num := digit) "1 6 0 0 0\n2 3 6 3 1".toList
    [['1'], ['6'], ['0'], ['0'], ['0'], ['2'], ['3'], ['6'], ['3'], ['1']] _
    (by
      refine .word ['1'] _ _ _ (by simp) (by decide) (by decide) ?_
      refine .word ['6'] _ _ _ (by simp) (by decide) (by decide) ?_
      refine .word ['0'] _ _ _ (by simp) (by decide) (by decide) ?_
      refine .word ['0'] _ _ _ (by simp) (by decide) (by decide) ?_
      refine .word ['0'] _ _ _ (by simp) (by decide) (by decide) ?_
      refine .word ['2'] _ _ _ (by simp) (by decide) (by decide) ?_
      refine .word ['3'] _ _ _ (by simp) (by decide) (by decide) ?_
      refine .word ['6'] _ _ _ (by simp) (by decide) (by decide) ?_
      refine .word ['3'] _ _ _ (by simp) (by decide) (by decide) ?_
      exact .last ['1'] (by simp) (by decide))
    (by decide +kernel)

/-- The same file without its last two numbers: velocity and position of the second row become 6. -/
example : loop isWs digit 20 (opened "1 6 0 0 0\n2 3 6\n".toList) = some [⟨1, 6, 0, 0, 0⟩, ⟨2, 3, 6, 6, 6⟩] := by decide +kernel

/-! ### C253: `init` and `reset` during a motion -/

section moving
variable [Field K] [LinearOrder K]

/-- What is given out when nothing moves. -/
def held (s : St K) : Y K := ⟨s.prevJerk.getD 0, s.prevAcc, s.prevVel, s.prevPos⟩

/-- The planner is idle: it has reached its end, or its table is empty. -/
def Idle (s : St K) : Prop := s.finished = true ∨ s.coef = []

theorem run_idle (s : St K) (h : Idle s) :
    ∃ s', run s = some s' ∧ Idle s' ∧ s'.finished = s.finished ∧ s'.coef = s.coef ∧ s'.raw = s.raw ∧ s'.out = some (held s) ∧ held s' = held s := by
  refine ⟨write { s with index := 0, interval := -s.dt, first := true } 0 (held s), ?_, ?_⟩
  · unfold run
    rw [if_neg]
    · rfl
    rintro ⟨h1, h2, _⟩
    rcases h with h | h
    · rw [h] at h1; cases h1
    · rw [h] at h2; simp at h2
  · refine ⟨?_, rfl, rfl, rfl, rfl, rfl⟩
    rcases h with h | h
    · exact .inl h
    · exact .inr h

theorem runs_idle (s : St K) (h : Idle s) (k : Nat) :
    ∃ s', runs (k + 1) s = some s' ∧ Idle s' ∧ s'.finished = s.finished ∧ s'.coef = s.coef ∧ s'.raw = s.raw ∧ s'.out = some (held s) ∧ held s' = held s := by
  induction k with
  | zero =>
    obtain ⟨s', h1, h2⟩ := run_idle s h
    exact ⟨s', by simp [runs, h1], h2⟩
  | succ k ih =>
    obtain ⟨s', h1, h2, h3, h4, h5, h6, h7⟩ := ih
    obtain ⟨s'', k1, k2, k3, k4, k5, k6, k7⟩ := run_idle s' h2
    exact ⟨s'', by rw [runs, h1]; exact k1, k2, k3.trans h3, k4.trans h4, k5.trans h5, by rw [k6, h7], k7.trans h7⟩

/-- **C253 violated** (`init`).  When a table is loaded while a motion is under way, the motion ends where it is, but the planner never reports the
end: however often it runs, `endReached` is false and every `move` is refused, though the table is there.  The outputs are frozen, the velocity with the
value it had in the motion. -/
theorem init_moving_violated (s : St K) (rows : List (Row K)) (hf : s.finished = false) (k : Nat) :
    ∃ s', runs (k + 1) (init s rows) = some s' ∧ s'.finished = false ∧ s'.out = some (held s) ∧ s'.raw = rows ∧
      (∀ p, moveRaw s' p = some (s', false)) := by
  obtain ⟨s', h1, _, h3, _, h5, h6, _⟩ := runs_idle (init s rows) (.inr rfl) k
  refine ⟨s', h1, h3.trans hf, h6, h5, fun p => ?_⟩
  have : s'.finished = false := h3.trans hf
  simp [moveRaw, this]

/-- **C253 violated** (`reset`).  After `reset` the position stands still, but the velocity and acceleration outputs keep the values of the motion
which was stopped. -/
theorem reset_moving_violated (s : St K) (k : Nat) :
    ∃ s', runs (k + 1) (reset s) = some s' ∧ s'.finished = true ∧ s'.out = some (held s) := by
  obtain ⟨s', h1, _, h3, _, _, h6, _⟩ := runs_idle (reset s) (.inl rfl) k
  exact ⟨s', h1, h3.trans rfl, h6⟩

omit [LinearOrder K] in
/-- **C253, the part which holds.** Loaded while the planner stands, the table is the one of the next motion, which starts. -/
theorem init_standing_partial (s : St K) (r : Row K) (rows : List (Row K)) (p : K) (hf : s.finished = true) :
    ∃ s', moveRaw (init s (r :: rows)) p = some (s', true) ∧ s'.finished = false ∧
      s'.coef = (r :: rows).map (fun r => { r with pos := r.pos + p }) := by
  have : (init s (r :: rows)).finished = true := hf
  refine ⟨{ init s (r :: rows) with coef := (r :: rows).map (fun r => { r with pos := r.pos + p }), finished := false }, ?_, rfl, rfl⟩
  rw [moveRaw, this]
  rfl

end moving

/-- Three runs into a motion with velocity 1 a new table is loaded: hundred runs later the velocity output is 1, the position 3 and the end not reported. -/
example : ((do
    let s1 ← run (init (new (1 : ℚ)) [⟨10, 0, 0, 1, 0⟩])
    let (s2, _) ← moveRaw s1 0
    let s3 ← runs 4 s2
    let s4 ← runs 100 (init s3 [⟨1, 0, 0, 0, 0⟩])
    pure (s4.finished, s4.out, (moveRaw s4 0).map (·.2))) : Option _) = some (false, some ⟨0, 0, 1, 3⟩, some false) := by decide +kernel

end Verif.Planner.CubicFile
