import Verif.Control.CorrectorProps
/-!
C259, C260: the file of `control::Vector2Corrector` (`load`, src/control/Vector2Corrector.cpp:8-62) read character by character.

`fscanf` works through its format: white space in the format skips any white space in the text, `%lf` skips white space and converts the longest number it finds, every
other character has to come next in the text.  At the first directive which fails it returns with the number of conversions made so far and leaves the rest of
the text unread.  White space is given by a predicate `ws` (the locale), the conversion of a number by `num`: the value and the rest of the text, or `none`.  What is left
of the text after a failed conversion is not modelled, as nothing is read afterwards.
-/
namespace Verif.Control.CorrectorFile
open Corrector Verif.Math
variable {K : Type}

/-- A directive of a format. -/
inductive D where
  | space
  | lit (c : Char)
  | num
deriving DecidableEq

/-- The directives of a format string which uses `%lf` only. -/
def directives : List Char → List D
  | [] => []
  | '%' :: 'l' :: 'f' :: r => .num :: directives r
  | ' ' :: r => .space :: directives r
  | c :: r => .lit c :: directives r

/-- The format of line 19. -/
def format : List D := directives " ( %lf , %lf ) => ( %lf , %lf ) ; ".toList

theorem format_eq : format = [.space, .lit '(', .space, .num, .space, .lit ',', .space, .num, .space, .lit ')', .space, .lit '=', .lit '>', .space, .lit '(', .space, .num, .space,
    .lit ',', .space, .num, .space, .lit ')', .space, .lit ';', .space] := by decide +kernel

/-- `fscanf`: the converted numbers and the rest of the text. -/
def scan (ws : Char → Bool) (num : List Char → Option (K × List Char)) : List D → List Char → List K → List K × List Char
  | [], t, acc => (acc, t)
  | .space :: f, t, acc => scan ws num f (t.dropWhile ws) acc
  | .lit _ :: _, [], acc => (acc, [])
  | .lit c :: f, d :: t, acc => if d = c then scan ws num f t acc else (acc, d :: t)
  | .num :: f, t, acc => match num (t.dropWhile ws) with
    | some (v, r) => scan ws num f r (acc ++ [v])
    | none => (acc, t)

/-- 18-27; `none`: `r != 4`. -/
def line (ws : Char → Bool) (num : List Char → Option (K × List Char)) (text : List Char) : Option (Line K × List Char) :=
  match scan ws num format text [] with
  | ([xr, yr, xm, ym], rest) => some ((⟨xr, yr⟩, ⟨xm, ym⟩), rest)
  | _ => none

/-- The loop 17-28; `none`: left by `break`. -/
def three (ws : Char → Bool) (num : List Char → Option (K × List Char)) (text : List Char) : Option (Tri K × List Char) :=
  match line ws num text with
  | none => none
  | some (a, r1) => match line ws num r1 with
    | none => none
    | some (b, r2) => match line ws num r2 with
      | none => none
      | some (c, r3) => some (⟨a, b, c⟩, r3)

/-- The loop 14-52: the triangles which are read.  `n` bounds the number of passes; `none`: more are needed. -/
def loop (ws : Char → Bool) (num : List Char → Option (K × List Char)) : Nat → List Char → Option (List (Tri K))
  | 0, _ => none
  | n + 1, text => match three ws num text with
    | none => some []
    | some (t, rest) => (loop ws num n rest).map (t :: ·)

/-- `load` (8-62) of a file with this text: 30-51 and 54-61 as in `Corrector.load`. -/
def loadFile [Field K] [LinearOrder K] (ws : Char → Bool) (num : List Char → Option (K × List Char)) (g : (k : Nat) → Mat k k K) (s : St K) (text : List Char) :
    Option (St K × Bool) :=
  (loop ws num (text.length + 1) text).map fun ts =>
    let maps := ts.filterMap (entry g)
    if 0 < maps.length then ({ s with maps := maps, capacity := max s.capacity maps.length }, true) else (s, false)

/-! ### Specification -/

/-- `text` consists of these words with any white space in front of each of them, and of `tail` after the last one. -/
inductive Spells (ws : Char → Bool) (tail : List Char) : List Char → List (List Char) → Prop where
  | nil : Spells ws tail tail []
  | word (w t rest l) : (∀ c ∈ w, ws c = true) → Spells ws tail rest l → Spells ws tail (w ++ (t ++ rest)) (t :: l)

/-- The text `t` is a number with value `v`, wherever white space, a comma, a bracket or the end of the file follows. -/
structure Numeral (ws : Char → Bool) (num : List Char → Option (K × List Char)) (t : List Char) (v : K) : Prop where
  start : ∃ c l, t = c :: l ∧ ws c = false
  value : ∀ r, (∀ c l, r = c :: l → ws c = true ∨ c = ',' ∨ c = ')') → num (t ++ r) = some (v, r)

/-- A line of a table as it is written: four numbers and their values. -/
structure Written (K : Type) where
  xr : List Char × K
  yr : List Char × K
  xm : List Char × K
  ym : List Char × K

/-- The numbers of the line are numbers. -/
def Written.Ok (ws : Char → Bool) (num : List Char → Option (K × List Char)) (l : Written K) : Prop :=
  Numeral ws num l.xr.1 l.xr.2 ∧ Numeral ws num l.yr.1 l.yr.2 ∧ Numeral ws num l.xm.1 l.xm.2 ∧ Numeral ws num l.ym.1 l.ym.2

/-- `( xr , yr ) => ( xm , ym ) ;` -/
def Written.words (l : Written K) : List (List Char) :=
  [['('], l.xr.1, [','], l.yr.1, [')'], ['=', '>'], ['('], l.xm.1, [','], l.ym.1, [')'], [';']]

/-- The pair of points meant. -/
def Written.points (l : Written K) : Line K := (⟨l.xr.2, l.yr.2⟩, ⟨l.xm.2, l.ym.2⟩)

/-- White space are neither brackets nor the other signs of the table. -/
def Signs (ws : Char → Bool) : Prop := ∀ c ∈ ['(', ')', ',', '=', '>', ';'], ws c = false

/-- No further line begins here. -/
def Stop (ws : Char → Bool) (tail : List Char) : Prop := ∀ c l, tail.dropWhile ws = c :: l → c ≠ '('

/-! ### Reading a line -/

variable {ws : Char → Bool} {num : List Char → Option (K × List Char)}

theorem dropWhile_ws {w t : List Char} (h : ∀ c ∈ w, ws c = true) : (w ++ t).dropWhile ws = t.dropWhile ws := by
  induction w with
  | nil => rfl
  | cons c w ih => simp [h c (by simp), ih (fun x hx => h x (by simp [hx]))]

theorem scan_sign {tail text : List Char} {c : Char} {l : List (List Char)} (hc : ws c = false) (h : Spells ws tail text ([c] :: l)) :
    ∃ rest, Spells ws tail rest l ∧ rest.length < text.length ∧ ∀ f (acc : List K), scan ws num (.space :: .lit c :: f) text acc = scan ws num f rest acc := by
  cases h with
  | word w t rest l hw hr =>
    refine ⟨rest, hr, by simp only [List.length_append, List.length_cons]; omega, fun f acc => ?_⟩
    simp only [scan]
    rw [dropWhile_ws hw]
    simp [hc, scan]

theorem scan_arrow {tail text : List Char} {c d : Char} {l : List (List Char)} (hc : ws c = false) (h : Spells ws tail text ([c, d] :: l)) :
    ∃ rest, Spells ws tail rest l ∧ rest.length < text.length ∧ ∀ f (acc : List K), scan ws num (.space :: .lit c :: .lit d :: f) text acc = scan ws num f rest acc := by
  cases h with
  | word w t rest l hw hr =>
    refine ⟨rest, hr, by simp only [List.length_append, List.length_cons]; omega, fun f acc => ?_⟩
    simp only [scan]
    rw [dropWhile_ws hw]
    simp [hc, scan]

/-- What follows a word. -/
theorem spells_head {tail text : List Char} {c : Char} {l : List (List Char)} (h : Spells ws tail text ([c] :: l)) :
    ∀ d r, text = d :: r → ws d = true ∨ d = c := by
  cases h with
  | word w t rest l hw hr =>
    intro d r hd
    cases w with
    | nil =>
      simp only [List.nil_append, List.cons_append, List.cons.injEq] at hd
      exact Or.inr hd.1.symm
    | cons x w =>
      simp only [List.cons_append, List.cons.injEq] at hd
      exact Or.inl (hd.1 ▸ hw x (by simp))

theorem dropWhile_start {t r : List Char} (h : ∃ c l, t = c :: l ∧ ws c = false) : (t ++ r).dropWhile ws = t ++ r := by
  obtain ⟨c, l, rfl, hc⟩ := h
  simp [hc]

theorem scan_num {tail text t : List Char} {v : K} {l : List (List Char)} (ht : Numeral ws num t v) (h : Spells ws tail text (t :: l))
    (hl : ∀ r, Spells ws tail r l → ∀ c q, r = c :: q → ws c = true ∨ c = ',' ∨ c = ')') :
    ∃ rest, Spells ws tail rest l ∧ rest.length < text.length ∧ ∀ f acc, scan ws num (.space :: .num :: f) text acc = scan ws num f rest (acc ++ [v]) := by
  cases h with
  | word w t rest l hw hr =>
    have hs := ht.start
    refine ⟨rest, hr, ?_, fun f acc => ?_⟩
    · obtain ⟨c, q, rfl, _⟩ := hs
      simp only [List.length_append, List.length_cons]; omega
    · simp only [scan]
      rw [dropWhile_ws hw, dropWhile_start hs, dropWhile_start hs, ht.value rest (hl rest hr)]

theorem spells_drop {tail text : List Char} {l : List (List Char)} (hl : ∀ t ∈ l, ∃ c r, t = c :: r ∧ ws c = false) (h : Spells ws tail text l) :
    ∃ tail', Spells ws tail' (text.dropWhile ws) l ∧ (tail' = tail ∨ tail' = tail.dropWhile ws) ∧ (l = [] → tail' = tail.dropWhile ws) := by
  cases h with
  | nil => exact ⟨_, .nil, .inr rfl, fun _ => rfl⟩
  | word w t rest l hw hr =>
    rw [dropWhile_ws hw, dropWhile_start (hl t (by simp))]
    exact ⟨tail, .word [] t rest l (by simp) hr, .inl rfl, by simp⟩

theorem ends_comma {tail : List Char} {l : List (List Char)} :
    ∀ r, Spells ws tail r ([','] :: l) → ∀ c q, r = c :: q → ws c = true ∨ c = ',' ∨ c = ')' := by
  intro r h c q hq
  rcases spells_head h c q hq with h1 | h1
  · exact .inl h1
  · exact .inr (.inl h1)

theorem ends_bracket {tail : List Char} {l : List (List Char)} :
    ∀ r, Spells ws tail r ([')'] :: l) → ∀ c q, r = c :: q → ws c = true ∨ c = ',' ∨ c = ')' := by
  intro r h c q hq
  rcases spells_head h c q hq with h1 | h1
  · exact .inl h1
  · exact .inr (.inr h1)

/-- The first ten words of a line: the numbers, up to the closing bracket. -/
theorem scan_front (hsig : Signs ws) {tail text : List Char} {l : Written K} (hl : l.Ok ws num) {more : List (List Char)}
    (hm : ∀ r, Spells ws tail r more → ∀ c q, r = c :: q → ws c = true ∨ c = ',' ∨ c = ')')
    (h : Spells ws tail text (['('] :: l.xr.1 :: [','] :: l.yr.1 :: [')'] :: ['=', '>'] :: ['('] :: l.xm.1 :: [','] :: l.ym.1 :: more)) :
    ∃ rest, Spells ws tail rest more ∧ rest.length < text.length ∧
      scan ws num format text [] = scan ws num [.space, .lit ')', .space, .lit ';', .space] rest [l.xr.2, l.yr.2, l.xm.2, l.ym.2] := by
  obtain ⟨n1, n2, n3, n4⟩ := hl
  obtain ⟨r1, h1, l1, e1⟩ := scan_sign (num := num) (hsig '(' (by simp)) h
  obtain ⟨r2, h2, l2, e2⟩ := scan_num n1 h1 ends_comma
  obtain ⟨r3, h3, l3, e3⟩ := scan_sign (num := num) (hsig ',' (by simp)) h2
  obtain ⟨r4, h4, l4, e4⟩ := scan_num n2 h3 ends_bracket
  obtain ⟨r5, h5, l5, e5⟩ := scan_sign (num := num) (hsig ')' (by simp)) h4
  obtain ⟨r6, h6, l6, e6⟩ := scan_arrow (num := num) (hsig '=' (by simp)) h5
  obtain ⟨r7, h7, l7, e7⟩ := scan_sign (num := num) (hsig '(' (by simp)) h6
  obtain ⟨r8, h8, l8, e8⟩ := scan_num n3 h7 ends_comma
  obtain ⟨r9, h9, l9, e9⟩ := scan_sign (num := num) (hsig ',' (by simp)) h8
  obtain ⟨r10, h10, l10, e10⟩ := scan_num n4 h9 hm
  refine ⟨r10, h10, by omega, ?_⟩
  rw [format_eq, e1, e2, e3, e4, e5, e6, e7, e8, e9, e10]
  rfl

theorem words_start (hsig : Signs ws) {l : Written K} (hl : l.Ok ws num) : ∀ t ∈ l.words, ∃ c r, t = c :: r ∧ ws c = false := by
  obtain ⟨n1, n2, n3, n4⟩ := hl
  intro t ht
  simp only [Written.words, List.mem_cons, List.not_mem_nil, or_false] at ht
  rcases ht with rfl | rfl | rfl | rfl | rfl | rfl | rfl | rfl | rfl | rfl | rfl | rfl
  · exact ⟨_, _, rfl, hsig _ (by simp)⟩
  · exact n1.start
  · exact ⟨_, _, rfl, hsig _ (by simp)⟩
  · exact n2.start
  · exact ⟨_, _, rfl, hsig _ (by simp)⟩
  · exact ⟨_, _, rfl, hsig _ (by simp)⟩
  · exact ⟨_, _, rfl, hsig _ (by simp)⟩
  · exact n3.start
  · exact ⟨_, _, rfl, hsig _ (by simp)⟩
  · exact n4.start
  · exact ⟨_, _, rfl, hsig _ (by simp)⟩
  · exact ⟨_, _, rfl, hsig _ (by simp)⟩

theorem stop_drop {tail : List Char} (h : Stop ws tail) : Stop ws (tail.dropWhile ws) := by
  have h1 : ∀ t : List Char, (t.dropWhile ws).dropWhile ws = t.dropWhile ws := by
    intro t
    induction t with
    | nil => rfl
    | cons c t ih =>
      by_cases hc : ws c = true
      · simpa [hc] using ih
      · simp [hc]
  intro c l hc
  rw [h1] at hc
  exact h c l hc

theorem line_reads (hsig : Signs ws) {tail text : List Char} {l : Written K} (hl : l.Ok ws num) {more : List (List Char)}
    (hm : ∀ t ∈ more, ∃ c r, t = c :: r ∧ ws c = false) (h : Spells ws tail text (l.words ++ more)) (hs : Stop ws tail) :
    ∃ rest tail', line ws num text = some (l.points, rest) ∧ Spells ws tail' rest more ∧ Stop ws tail' ∧ rest.length < text.length := by
  obtain ⟨r1, h1, l1, e1⟩ := scan_front hsig hl (more := [')'] :: [';'] :: more) ends_bracket h
  obtain ⟨r2, h2, l2, e2⟩ := scan_sign (num := num) (hsig ')' (by simp)) h1
  obtain ⟨r3, h3, l3, e3⟩ := scan_sign (num := num) (hsig ';' (by simp)) h2
  obtain ⟨tail', h4, ht, _⟩ := spells_drop hm h3
  refine ⟨r3.dropWhile ws, tail', ?_, h4, ?_, ?_⟩
  · rw [line, e1, e2, e3]
    rfl
  · rcases ht with rfl | rfl
    · exact hs
    · exact stop_drop hs
  · have := (List.dropWhile_suffix (l := r3) (p := ws)).length_le
    omega

theorem line_stops {tail : List Char} (hs : Stop ws tail) : line ws num tail = none := by
  have h : scan ws num format tail [] = (([] : List K), tail.dropWhile ws) := by
    rw [format_eq]
    simp only [scan]
    cases hd : tail.dropWhile ws with
    | nil => rfl
    | cons c l => simp only [scan, hs c l hd, if_false]
  rw [line, h]

/-! ### Reading a file -/

theorem loop_reads (hsig : Signs ws) : ∀ (n : Nat) (tail text : List Char) (ls : List (Written K)), (∀ l ∈ ls, l.Ok ws num) →
    Spells ws tail text (ls.flatMap Written.words) → Stop ws tail → text.length < n → loop ws num n text = some (triangles (ls.map Written.points)) := by
  intro n
  induction n with
  | zero => intro tail text ls _ _ _ hn; omega
  | succ n ih =>
    intro tail text ls hok h hs hn
    have hw : ∀ ls : List (Written K), (∀ l ∈ ls, l.Ok ws num) → ∀ t ∈ ls.flatMap Written.words, ∃ c r, t = c :: r ∧ ws c = false := by
      intro ls hok t ht
      obtain ⟨l, hl, ht⟩ := List.mem_flatMap.1 ht
      exact words_start hsig (hok l hl) t ht
    match ls, hok, h with
    | [], _, h =>
      cases h with
      | nil => simp [loop, three, line_stops hs, triangles]
    | [a], hok, h =>
      obtain ⟨r1, t1, e1, h1, s1, _⟩ := line_reads hsig (hok a (by simp)) (hw [] (by simp)) h hs
      cases h1 with
      | nil => simp [loop, three, e1, line_stops s1, triangles]
    | [a, b], hok, h =>
      obtain ⟨r1, t1, e1, h1, s1, _⟩ := line_reads hsig (hok a (by simp)) (hw [b] (fun l hl => hok l (by simp at hl; simp [hl]))) h hs
      obtain ⟨r2, t2, e2, h2, s2, _⟩ := line_reads hsig (hok b (by simp)) (hw [] (by simp)) h1 s1
      cases h2 with
      | nil => simp [loop, three, e1, e2, line_stops s2, triangles]
    | a :: b :: c :: ls, hok, h =>
      obtain ⟨r1, t1, e1, h1, s1, l1⟩ := line_reads hsig (hok a (by simp)) (hw (b :: c :: ls) (fun l hl => hok l (List.mem_cons_of_mem _ hl))) h hs
      obtain ⟨r2, t2, e2, h2, s2, l2⟩ := line_reads hsig (hok b (by simp))
        (hw (c :: ls) (fun l hl => hok l (List.mem_cons_of_mem _ (List.mem_cons_of_mem _ hl)))) h1 s1
      obtain ⟨r3, t3, e3, h3, s3, l3⟩ := line_reads hsig (hok c (by simp))
        (hw ls (fun l hl => hok l (List.mem_cons_of_mem _ (List.mem_cons_of_mem _ (List.mem_cons_of_mem _ hl))))) h2 s2
      have h4 := ih t3 r3 ls (fun l hl => hok l (List.mem_cons_of_mem _ (List.mem_cons_of_mem _ (List.mem_cons_of_mem _ hl)))) h3 s3 (by omega)
      simp [loop, three, e1, e2, e3, h4, triangles]

/-- Three lines for each triangle. -/
theorem triangles_all {ls : List (Line K)} (h : ls.length % 3 = 0) :
    (triangles ls).flatMap (fun t => [t.a, t.b, t.c]) = ls := by
  match ls, h with
  | [], _ => rfl
  | [_], h => simp at h
  | [_, _], h => simp at h
  | a :: b :: c :: ls, h =>
    have := triangles_all (ls := ls) (by simp only [List.length_cons] at h; omega)
    simp [triangles, this]
termination_by ls.length
decreasing_by simp_wf; omega

section
variable [Field K] [LinearOrder K]

/-- C260: a table which is written as it should be, with any white space, is read as it is meant: the triangles are those of all its lines in their order. -/
theorem reads_table (hsig : Signs ws) {tail text : List Char} {ls : List (Written K)} (hok : ∀ l ∈ ls, l.Ok ws num) (h : Spells ws tail text (ls.flatMap Written.words))
    (ht : ∀ c ∈ tail, ws c = true) (h3 : ls.length % 3 = 0) (g : (k : Nat) → Mat k k K) (s : St K) :
    loadFile ws num g s text = some (load g s (ls.map Written.points)) ∧
    (triangles (ls.map Written.points)).flatMap (fun t => [t.a, t.b, t.c]) = ls.map Written.points := by
  have hs : Stop ws tail := by
    intro c l hc
    have := dropWhile_ws (t := []) ht
    simp only [List.append_nil, List.dropWhile_nil] at this
    rw [this] at hc
    cases hc
  refine ⟨?_, triangles_all (by simpa using h3)⟩
  rw [loadFile, loop_reads hsig _ tail text ls hok h hs (Nat.lt_succ_self _)]
  rfl

/-- C259: whatever follows the first lines of a file, if it does not begin like a line, it is neither read nor reported: the file is taken for the table of its
first lines. -/
theorem garbage_violated (hsig : Signs ws) {text : List Char} {ls : List (Written K)} (hok : ∀ l ∈ ls, l.Ok ws num) {c : Char} {rest : List Char}
    (hc : ws c = false) (hb : c ≠ '(') (h : Spells ws (c :: rest) text (ls.flatMap Written.words)) (g : (k : Nat) → Mat k k K) (s : St K) :
    loadFile ws num g s text = some (load g s (ls.map Written.points)) := by
  have hs : Stop ws (c :: rest) := by
    intro d l hd
    simp only [List.dropWhile_cons, hc, Bool.false_eq_true, if_false, List.cons.injEq] at hd
    exact hd.1 ▸ hb
  rw [loadFile, loop_reads hsig _ _ text ls hok h hs (Nat.lt_succ_self _)]
  rfl

/-- C259: one or two lines too many are not reported either. -/
theorem incomplete_violated (hsig : Signs ws) {tail text : List Char} {ls more : List (Written K)} (hok : ∀ l ∈ ls ++ more, l.Ok ws num)
    (h : Spells ws tail text ((ls ++ more).flatMap Written.words)) (ht : ∀ c ∈ tail, ws c = true) (h3 : ls.length % 3 = 0) (hm : more.length < 3)
    (g : (k : Nat) → Mat k k K) (s : St K) : loadFile ws num g s text = some (load g s (ls.map Written.points)) := by
  have hs : Stop ws tail := by
    intro c l hc
    have := dropWhile_ws (t := []) ht
    simp only [List.append_nil, List.dropWhile_nil] at this
    rw [this] at hc
    cases hc
  have htri : ∀ (a b : List (Line K)), a.length % 3 = 0 → b.length < 3 → triangles (a ++ b) = triangles a := by
    intro a b ha hb
    suffices H : ∀ n (a : List (Line K)), a.length ≤ n → a.length % 3 = 0 → triangles (a ++ b) = triangles a from H _ a le_rfl ha
    intro n
    induction n with
    | zero =>
      intro a hn _
      have : a = [] := List.length_eq_zero_iff.1 (by omega)
      subst this
      match b, hb with
      | [], _ => rfl
      | [_], _ => rfl
      | [_, _], _ => rfl
    | succ n ih =>
      intro a hn ha
      match a, hn, ha with
      | [], _, _ =>
        match b, hb with
        | [], _ => rfl
        | [_], _ => rfl
        | [_, _], _ => rfl
      | [_], _, h => simp at h
      | [_, _], _, h => simp at h
      | x :: y :: z :: a, hn, ha =>
        have := ih a (by simp only [List.length_cons] at hn; omega) (by simp only [List.length_cons] at ha; omega)
        simp [triangles, this]
  rw [loadFile, loop_reads hsig _ tail text (ls ++ more) hok h hs (Nat.lt_succ_self _)]
  rw [List.map_append, htri _ _ (by simpa using h3) (by simpa using hm)]
  rfl

end

/-- C259: a line counts as soon as its four numbers are there; what follows them may be anything which does not belong to the number, and the closing bracket may be
missing. -/
theorem unclosed_violated (hsig : Signs ws) {text tail : List Char} {l : Written K} (hl : l.Ok ws num) (ht : ∀ c q, tail = c :: q → ws c = true ∨ c = ',')
    (h : Spells ws tail text (l.words.take 10)) (hb : ∀ c q, tail.dropWhile ws = c :: q → c ≠ ')') : line ws num text = some (l.points, tail.dropWhile ws) := by
  obtain ⟨r1, h1, _, e1⟩ := scan_front hsig hl (more := []) (by
    intro r hr c q hq
    cases hr with
    | nil =>
      rcases ht c q hq with h | h
      · exact .inl h
      · exact .inr (.inl h)) h
  cases h1 with
  | nil =>
    rw [line, e1]
    simp only [scan]
    cases hd : tail.dropWhile ws with
    | nil => rfl
    | cons c q =>
      simp only [scan, hb c q hd, if_false]
      rfl

/-! ### A table -/

/-- Decimal digits, as an example of `num`. -/
def digits (text : List Char) : Option (ℚ × List Char) :=
  let d := text.takeWhile Char.isDigit
  if d = [] then none else some ((d.foldl (fun a c => 10 * a + (c.toNat - 48)) 0 : ℕ), text.dropWhile Char.isDigit)

def blank (c : Char) : Bool := c = ' ' || c = '\n'

theorem blank_signs : Signs blank := by unfold Signs; decide

theorem numeral_digit (c : Char) (hc : c ∈ ['0', '1', '2', '3', '4', '5', '6', '7', '8', '9']) : Numeral blank digits [c] ((c.toNat - 48 : ℕ) : ℚ) := by
  have h1 : c.isDigit = true ∧ blank c = false := by
    revert c; decide
  refine ⟨⟨c, [], rfl, h1.2⟩, fun r hr => ?_⟩
  have hr' : r.takeWhile Char.isDigit = [] ∧ r.dropWhile Char.isDigit = r := by
    cases r with
    | nil => exact ⟨rfl, rfl⟩
    | cons d l =>
      have hd : d.isDigit = false := by
        rcases hr d l rfl with h | rfl | rfl
        · simp only [blank, Bool.or_eq_true, decide_eq_true_eq] at h
          rcases h with rfl | rfl <;> decide
        · decide
        · decide
      simp [hd]
  simp only [digits, List.cons_append, List.nil_append, List.takeWhile_cons, List.dropWhile_cons, h1.1, if_true, hr'.1, hr'.2]
  simp

/-- A triangle which is moved by (1, 2). -/
def demo : List (Written ℚ) :=
  [⟨(['0'], 0), (['0'], 0), (['1'], 1), (['2'], 2)⟩, ⟨(['4'], 4), (['0'], 0), (['5'], 5), (['2'], 2)⟩, ⟨(['0'], 0), (['4'], 4), (['1'], 1), (['6'], 6)⟩]

theorem demo_ok : ∀ l ∈ demo, l.Ok blank digits := by
  have n : ∀ (c : Char) (v : ℚ), c ∈ ['0', '1', '2', '3', '4', '5', '6', '7', '8', '9'] → v = ((c.toNat - 48 : ℕ) : ℚ) → Numeral blank digits [c] v :=
    fun c v hc hv => hv ▸ numeral_digit c hc
  intro l hl
  simp only [demo, List.mem_cons, List.not_mem_nil, or_false] at hl
  rcases hl with rfl | rfl | rfl <;> refine ⟨n _ _ (by decide) ?_, n _ _ (by decide) ?_, n _ _ (by decide) ?_, n _ _ (by decide) ?_⟩ <;> simp

/-- The words one after the other without white space. -/
theorem spells_plain (ws : Char → Bool) (tail text : List Char) (l : List (List Char)) (h : text = l.flatten ++ tail) : Spells ws tail text l := by
  subst h
  induction l with
  | nil => exact .nil
  | cons t l ih =>
    have := Spells.word (ws := ws) [] t _ l (by simp) ih
    simpa using this

/-- What happens to be in the memory of a matrix. -/
def memory (k : Nat) : Mat k k ℚ := ⟨fun _ => 7⟩

example : Spells blank ['\n'] "(0,0)=>(1,2);(4,0)=>(5,2);(0,4)=>(1,6);\n".toList (demo.flatMap Written.words) := spells_plain _ _ _ _ (by decide +kernel)
example : Spells blank [] " ( 0 ,0)\n=>(1,2) ;".toList (⟨(['0'], 0), (['0'], 0), (['1'], 1), (['2'], 2)⟩ : Written ℚ).words := by
  have w : ∀ (w t rest : List Char) (l : List (List Char)), (w.all blank) = true → Spells blank [] rest l → Spells blank [] (w ++ (t ++ rest)) (t :: l) :=
    fun w t rest l h => .word w t rest l (by simpa using h)
  exact w [' '] ['('] _ _ rfl (w [' '] ['0'] _ _ rfl (w [' '] [','] _ _ rfl (w [] ['0'] _ _ rfl (w [] [')'] _ _ rfl (w ['\n'] ['=', '>'] _ _ rfl
    (w [] ['('] _ _ rfl (w [] ['1'] _ _ rfl (w [] [','] _ _ rfl (w [] ['2'] _ _ rfl (w [] [')'] _ _ rfl (w [' '] [';'] [] _ rfl .nil)))))))))))
example (s : St ℚ) : loadFile blank digits memory s "(0,0)=>(1,2);(4,0)=>(5,2);(0,4)=>(1,6);\n".toList = some (load memory s (demo.map Written.points)) :=
  (reads_table blank_signs demo_ok (spells_plain blank ['\n'] _ _ (by decide +kernel)) (by decide) (by decide) memory s).1
-- a fourth line with a typing error and all lines behind it are ignored, and `load` succeeds
example (s : St ℚ) : loadFile blank digits memory s "(0,0)=>(1,2);(4,0)=>(5,2);(0,4)=>(1,6);[9,9)=>(9,9);(8,8)=>(9,9);".toList = some (load memory s (demo.map Written.points)) :=
  garbage_violated blank_signs demo_ok (c := '[') (rest := "9,9)=>(9,9);(8,8)=>(9,9);".toList) (by decide) (by decide) (spells_plain blank _ _ _ (by decide +kernel)) memory s
example (s : St ℚ) : loadFile blank digits memory s "(0,0)=>(1,2);(4,0)=>(5,2);(0,4)=>(1,6);(0,0)=>(1,2);".toList = some (load memory s (demo.map Written.points)) :=
  incomplete_violated blank_signs (ls := demo) (more := [⟨(['0'], 0), (['0'], 0), (['1'], 1), (['2'], 2)⟩])
    (fun l hl => by
      rcases List.mem_append.1 hl with hl | hl
      · exact demo_ok l hl
      · exact demo_ok l (by simp only [List.mem_singleton] at hl; simp [demo, hl]))
    (spells_plain blank [] _ _ (by decide +kernel)) (by simp) (by decide) (by decide) memory s
example : line blank digits "(0,0)=>(1,2".toList = some ((⟨0, 0⟩, ⟨1, 2⟩), []) :=
  unclosed_violated (l := ⟨(['0'], 0), (['0'], 0), (['1'], 1), (['2'], 2)⟩) blank_signs (demo_ok _ (by simp [demo])) (tail := []) (by simp) (spells_plain blank [] _ _ (by decide +kernel)) (by simp)
example : (load memory (new : St ℚ) (demo.map Written.points)).2 = true := by decide +kernel

end Verif.Control.CorrectorFile
