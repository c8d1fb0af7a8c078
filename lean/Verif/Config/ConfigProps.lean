/-
C45, C46: configuration files.
-/
import Verif.Config.Config
import Verif.Config.DoubleExact

namespace Verif.Config

/-! ### Specification -/

/-- A name without white space which is not empty. -/
def GoodName (n : List Char) : Prop := n ≠ [] ∧ ∀ c ∈ n, isSpace c = false

open Verif.Common.Round (rnd)

/-- The finite numbers with a property which a `double` can have, infinity, and not a number. -/
def GoodDouble (p : ℚ → Prop) : XVal ℚ → Prop
  | .fin x => p x ∧ |x| ≤ maxDouble
  | _ => True

/-- The double nearest to a decimal number with six decimals. -/
def SixDecimals (x : ℚ) : Prop := ∃ m : ℤ, x = rnd ((m : ℚ) / 10 ^ 6)

/-- The double nearest to a decimal number with at most six significant digits which is not too small. -/
def SixSignificant (x : ℚ) : Prop := ∃ m k : ℤ, |m| < 10 ^ 6 ∧ x = rnd ((m : ℚ) * 10 ^ k) ∧ (m = 0 ∨ 1 / 2 ^ 1022 ≤ |(m : ℚ) * 10 ^ k|)

/-- A value which a property can have and which the file format can represent: numbers are of type `int`, strings have no newline, arrays are not empty,
numbers of type `double` have few digits. -/
def GoodVal : Val → Prop
  | .int v => inInt v = true
  | .str s => '\n' ∉ s
  | .arr l _ => l ≠ [] ∧ ∀ v ∈ l, inInt v = true
  | .dbl v => GoodDouble SixDecimals v
  | .darr l _ => l ≠ [] ∧ ∀ v ∈ l, GoodDouble SixSignificant v

/-- The same variable at two times: type, length and default value do not change. -/
def SameShape : Val → Val → Prop
  | .int _, .int _ => True
  | .str _, .str _ => True
  | .arr l d, .arr l' d' => l.length = l'.length ∧ d = d'
  | .dbl _, .dbl _ => True
  | .darr l d, .darr l' d' => l.length = l'.length ∧ d = d'
  | _, _ => False

/-! ### Lines and fields -/

theorem arrText_fields {α : Type} (f : α → List Char) (hf : ∀ v, ∀ c ∈ f v, c ≠ ',' ∧ c ≠ '\n') (l : List α) (h : l ≠ []) :
    getlines ',' (' ' :: arrText f l) = l.map fun v => ' ' :: f v := by
  induction l with
  | nil => exact absurd rfl h
  | cons v l ih =>
    have hc : ',' ∉ ' ' :: f v := by
      intro hm
      rcases List.mem_cons.1 hm with hm | hm
      · exact absurd hm (by decide)
      · exact (hf v _ hm).1 rfl
    cases l with
    | nil => rw [arrText, getlines_one _ _ hc (by simp)]; rfl
    | cons w l =>
      rw [arrText, ← List.cons_append, getlines_append _ _ _ hc, ih (by simp)]
      rfl

theorem arrText_no_newline {α : Type} (f : α → List Char) (hf : ∀ v, ∀ c ∈ f v, c ≠ ',' ∧ c ≠ '\n') (l : List α) : '\n' ∉ arrText f l := by
  induction l with
  | nil => simp [arrText]
  | cons v l ih =>
    cases l with
    | nil => exact fun hm => (hf v _ hm).2 rfl
    | cons w l =>
      intro hm
      rw [arrText] at hm
      simp only [List.mem_append, List.mem_cons] at hm
      rcases hm with hm | hm | hm | hm
      · exact (hf v _ hm).2 rfl
      · exact absurd hm (by decide)
      · exact absurd hm (by decide)
      · exact ih hm

theorem text_no_newline (v : Val) (h : ∀ s, v = .str s → '\n' ∉ s) : '\n' ∉ text v := by
  cases v with
  | int v => exact fun hm => ((intText_chars v).2 _ hm).2 rfl
  | str s => exact h s rfl
  | arr l d => exact arrText_no_newline _ (fun v => (intText_chars v).2) l
  | dbl v => exact fun hm => (toString6_chars v _ hm).2 rfl
  | darr l d => exact arrText_no_newline _ stream6_chars l

theorem GoodVal.str {v : Val} (h : GoodVal v) : ∀ s, v = .str s → '\n' ∉ s := by
  rintro s rfl; exact h

/-- A number with six decimals is read as it was. -/
theorem stod_toString6 (v : XVal ℚ) (h : GoodDouble SixDecimals v) : stod (' ' :: toString6 v) = .ok v := by
  cases v with
  | fin x =>
    obtain ⟨h1, h2⟩ := h
    rw [toString6, specialText, scalar_read h2, (scalar_exact_iff x).2 h1]
  | pinf => decide +kernel
  | ninf => decide +kernel
  | nan => decide +kernel

/-- A number with six significant digits is read as it was. -/
theorem stod_stream6 (v : XVal ℚ) (h : GoodDouble SixSignificant v) : stod (' ' :: stream6 v) = .ok v := by
  cases v with
  | fin x =>
    obtain ⟨⟨m, k, h1, h2, h3⟩, h4⟩ := h
    have hs : six x = (m : ℚ) * 10 ^ k := by rw [h2, six_rnd m k h1]
    rw [stream6, specialText, element_read h4, (element_exact_iff x).2 ⟨m, k, h1, h2⟩]
    rw [hs]
    rcases h3 with rfl | h3
    · left; rw [h2]; simp [rnd_zero]
    · exact Or.inr h3
  | pinf => decide +kernel
  | ninf => decide +kernel
  | nan => decide +kernel

theorem readArr_ok {α : Type} (rd : List Char → Except Err α) (l old : List α) (els : List (List Char)) (he : els.map rd = l.map Except.ok) :
    (l.length ≤ old.length → readArr rd els old = .ok (l, old.drop l.length)) ∧
    (old.length < l.length → readArr rd els old = .error .outOfBounds) := by
  induction l generalizing old els with
  | nil =>
    cases els with
    | nil => simp [readArr]
    | cons e els => simp at he
  | cons v l ih =>
    cases els with
    | nil => simp at he
    | cons e els =>
      simp only [List.map_cons, List.cons.injEq] at he
      cases old with
      | nil => constructor
               · intro h; simp at h
               · intro _; rw [readArr, he.1]; rfl
      | cons o old =>
        obtain ⟨i1, i2⟩ := ih old els he.2
        constructor
        · intro h
          rw [readArr, he.1]
          show (do let (new, rest) ← readArr rd els old; Except.ok (v :: new, rest)) = _
          rw [i1 (by simpa using h)]
          rfl
        · intro h
          rw [readArr, he.1]
          show (do let (new, rest) ← readArr rd els old; Except.ok (v :: new, rest)) = _
          rw [i2 (by simpa using h)]
          rfl

theorem parse_text (v old : Val) (h : GoodVal v) (hs : SameShape v old) : parse old (' ' :: text v) = .ok v := by
  cases v with
  | int v =>
    cases old with
    | int o => simp only [parse, text, stoi_intText v h]; rfl
    | _ => exact absurd hs (by simp [SameShape])
  | str s =>
    cases old with
    | str o => simp [parse, text]
    | _ => exact absurd hs (by simp [SameShape])
  | arr l d =>
    cases old with
    | arr o d' =>
      obtain ⟨hl, rfl⟩ := hs
      have := (readArr_ok stoi l o (l.map fun v => ' ' :: intText v) (by
        rw [List.map_map]
        exact List.map_congr_left fun v hv => stoi_intText v (h.2 v hv))).1 hl.le
      simp only [parse, text, arrText_fields _ (fun v => (intText_chars v).2) l h.1, this]
      show Except.ok (Val.arr (l ++ (o.drop l.length).map fun _ => d) d) = _
      rw [List.drop_eq_nil_of_le hl.ge]
      simp
    | _ => exact absurd hs (by simp [SameShape])
  | dbl v =>
    cases old with
    | dbl o => simp only [parse, text, stod_toString6 v h]; rfl
    | _ => exact absurd hs (by simp [SameShape])
  | darr l d =>
    cases old with
    | darr o d' =>
      obtain ⟨hl, rfl⟩ := hs
      have := (readArr_ok stod l o (l.map fun v => ' ' :: stream6 v) (by
        rw [List.map_map]
        exact List.map_congr_left fun v hv => stod_stream6 v (h.2 v hv))).1 hl.le
      simp only [parse, text, arrText_fields _ stream6_chars l h.1, this]
      show Except.ok (Val.darr (l ++ (o.drop l.length).map fun _ => d) d) = _
      rw [List.drop_eq_nil_of_le hl.ge]
      simp
    | _ => exact absurd hs (by simp [SameShape])

theorem span_append {α : Type} (p : α → Bool) (a : List α) (b : α) (r : List α) (h : ∀ x ∈ a, p x = true) (hb : p b = false) :
    (a ++ b :: r).takeWhile p = a ∧ (a ++ b :: r).dropWhile p = b :: r := by
  induction a with
  | nil => simp [hb]
  | cons x a ih =>
    have := ih fun y hy => h y (List.mem_cons_of_mem _ hy)
    simp [h x (List.mem_cons_self ..), this.1, this.2]

/-- A line as it is written is split as intended. -/
theorem splitLine_save (n t : List Char) (h : GoodName n) : splitLine (n ++ [' ', '=', ' '] ++ t) = (n, ' ' :: t) := by
  obtain ⟨h1, h2⟩ := h
  obtain ⟨c, n', rfl⟩ := List.exists_cons_of_ne_nil h1
  have hd : ((c :: n') ++ [' ', '=', ' '] ++ t).dropWhile isSpace = (c :: n') ++ ' ' :: '=' :: ' ' :: t := by
    have := h2 c (List.mem_cons_self ..)
    simp [this]
  have hs := span_append (fun c => !isSpace c) (c :: n') ' ' ('=' :: ' ' :: t) (fun x hx => by simp [h2 x hx]) (by decide)
  unfold splitLine
  simp only [hd, hs.1, hs.2]
  have e1 : (' ' :: '=' :: ' ' :: t).dropWhile isSpace = '=' :: ' ' :: t := by simp [isSpace]
  have e2 : ('=' :: ' ' :: t).dropWhile (fun c => !isSpace c) = ' ' :: t := by simp [isSpace]
  rw [e1, e2]
  rfl

/-! ### Round trip -/

theorem assign_other (key val : List Char) (a b : Props) (h : ∀ p ∈ a, p.1 ≠ key) (n : List Char) (v v' : Val) (hn : n = key)
    (hp : parse v val = .ok v') : assign key val (a ++ (n, v) :: b) = .ok (a ++ (n, v') :: b) := by
  induction a with
  | nil => simp only [List.nil_append, assign, if_pos hn, hp]; rfl
  | cons p a ih =>
    obtain ⟨m, w⟩ := p
    rw [List.cons_append, assign, if_neg (h (m, w) (List.mem_cons_self ..)), ih fun p hp => h p (List.mem_cons_of_mem _ hp)]
    rfl

theorem lines_save (ps : Props) (hn : ∀ p ∈ ps, GoodName p.1) (hv : ∀ p ∈ ps, GoodVal p.2) :
    getlines '\n' (save ps) = ps.map fun p => p.1 ++ [' ', '=', ' '] ++ text p.2 := by
  induction ps with
  | nil => rfl
  | cons p ps ih =>
    have h1 : '\n' ∉ p.1 ++ [' ', '=', ' '] ++ text p.2 := by
      simp only [List.mem_append, not_or]
      refine ⟨⟨fun hm => ?_, by decide⟩, text_no_newline _ (hv p (List.mem_cons_self ..)).str⟩
      exact absurd ((hn p (List.mem_cons_self ..)).2 _ hm) (by decide)
    rw [save, List.flatMap_cons, List.append_assoc, List.singleton_append, getlines_append _ _ _ h1]
    rw [show (ps.flatMap fun p => p.1 ++ [' ', '=', ' '] ++ text p.2 ++ ['\n']) = save ps from rfl,
      ih (fun p hp => hn p (List.mem_cons_of_mem _ hp)) (fun p hp => hv p (List.mem_cons_of_mem _ hp))]
    rfl

/-- **C45 (partial)** (round trip) Whatever values the variables have in the meantime, loading a saved configuration gives every property the value it had when saved, for any number
of properties with distinct, non-empty names without white space.
Missing: empty arrays (`empty_array_throws`), the empty name (`empty_name_lost`), numbers of type `double` with more digits than are written (`DoubleProps.lean`). -/
theorem round_trip_partial (ps ps' : Props) (hd : (ps.map Prod.fst).Nodup) (hn : ∀ p ∈ ps, GoodName p.1) (hv : ∀ p ∈ ps, GoodVal p.2)
    (hs : List.Forall₂ (fun p p' => p.1 = p'.1 ∧ SameShape p.2 p'.2) ps ps') : load (save ps) ps' = .ok ps := by
  unfold load
  rw [lines_save ps hn hv]
  suffices H : ∀ (rest rest' done : Props), (done ++ rest).map Prod.fst |>.Nodup → (∀ p ∈ rest, GoodName p.1) → (∀ p ∈ rest, GoodVal p.2) →
      List.Forall₂ (fun p p' => p.1 = p'.1 ∧ SameShape p.2 p'.2) rest rest' →
      (rest.map fun p => p.1 ++ [' ', '=', ' '] ++ text p.2).foldlM
        (fun ps line => assign (splitLine line).1 (splitLine line).2 ps) (done ++ rest') = Except.ok (done ++ rest) by
    simpa using H ps ps' [] (by simpa using hd) hn hv hs
  intro rest
  induction rest with
  | nil => intro rest' done _ _ _ h; cases h; rfl
  | cons p rest ih =>
    intro rest' done hd hn hv h
    cases h with
    | cons h1 h2 =>
      rename_i p' rest'
      obtain ⟨n, v⟩ := p
      obtain ⟨n', v'⟩ := p'
      obtain ⟨rfl, h1⟩ := h1
      rw [List.map_cons, List.foldlM_cons, splitLine_save n (text v) (hn (n, v) (List.mem_cons_self ..))]
      have ha := assign_other n (' ' :: text v) done rest' (by
        intro q hq
        rw [List.map_append, List.map_cons, List.nodup_append] at hd
        exact hd.2.2 _ (List.mem_map_of_mem hq) _ (List.mem_cons_self ..)) n v' v rfl
        (parse_text v v' (hv (n, v) (List.mem_cons_self ..)) h1)
      simp only at ha ⊢
      rw [ha]
      have := ih rest' (done ++ [(n, v)]) (by simpa using hd) (fun p hp => hn p (List.mem_cons_of_mem _ hp))
        (fun p hp => hv p (List.mem_cons_of_mem _ hp)) h2
      rw [List.append_assoc, List.append_assoc] at this
      exact this

/-- **C45 violated** (empty array): an array property without elements is saved, but loading the file throws. -/
theorem empty_array_throws (n : List Char) (d : Int) (hn : GoodName n) : load (save [(n, .arr [] d)]) [(n, .arr [] d)] = .error .invalid := by
  have hl : getlines '\n' (save [(n, .arr [] d)]) = [n ++ [' ', '=', ' '] ++ []] := by
    have h1 : '\n' ∉ n ++ [' ', '=', ' '] := by
      simp only [List.mem_append, not_or]
      exact ⟨fun hm => absurd (hn.2 _ hm) (by decide), by decide⟩
    have : save [(n, .arr [] d)] = (n ++ [' ', '=', ' ']) ++ '\n' :: [] := by simp [save, text, arrText]
    rw [this, getlines_append _ _ _ h1]
    simp [getlines]
  unfold load
  rw [hl, List.foldlM_cons, splitLine_save n [] hn]
  simp only [assign, if_true]
  rfl


/-- The property `pos`, an array without elements: the file is `pos = ` and can not be loaded. -/
example : load (save [("pos".toList, .arr [] 7)]) [("pos".toList, .arr [] 7)] = .error .invalid :=
  empty_array_throws "pos".toList 7 ⟨by decide, by decide⟩

/-- **C45 violated** (empty name): a property with the empty name is saved, but not loaded. -/
theorem empty_name_lost : load (save [([], .int 5)]) [([], .int 0)] = .ok [([], .int 0)] := by
  rw [save]
  decide +kernel

/-- Value of a property. -/
def lookup (n : List Char) : Props → Option Val
  | [] => none
  | (m, v) :: ps => if m = n then some v else lookup n ps

/-- The keys of a file. -/
def keys (file : List Char) : List (List Char) := (getlines '\n' file).map fun l => (splitLine l).1

theorem assign_keeps (key val : List Char) (ps ps' : Props) (h : assign key val ps = .ok ps') (n : List Char) (hn : n ≠ key) :
    lookup n ps' = lookup n ps ∧ ps'.map Prod.fst = ps.map Prod.fst := by
  induction ps generalizing ps' with
  | nil => simp [assign] at h; subst h; simp
  | cons p ps ih =>
    obtain ⟨m, v⟩ := p
    rw [assign] at h
    split at h
    · rename_i hm
      cases hp : parse v val with
      | error e => rw [hp] at h; cases h
      | ok w =>
        rw [hp] at h
        cases h
        have hmn : m ≠ n := fun e => hn (e.symm.trans hm)
        simp [lookup, hmn]
    · cases hp : assign key val ps with
      | error e => rw [hp] at h; cases h
      | ok qs =>
        rw [hp] at h
        cases h
        obtain ⟨i1, i2⟩ := ih qs hp
        simp [lookup, i1, i2]

/-- **C45** (missing keys) A property which does not occur in the file keeps its value, whatever else the file contains. -/
theorem missing_kept (file : List Char) (ps ps' : Props) (h : load file ps = .ok ps') (n : List Char) (hn : n ∉ keys file) :
    lookup n ps' = lookup n ps := by
  unfold load at h
  unfold keys at hn
  generalize getlines '\n' file = ls at h hn
  induction ls generalizing ps with
  | nil => cases h; rfl
  | cons l ls ih =>
    rw [List.foldlM_cons] at h
    cases ha : assign (splitLine l).1 (splitLine l).2 ps with
    | error e => rw [ha] at h; cases h
    | ok qs =>
      rw [ha] at h
      rw [ih qs h fun hm => hn (List.mem_cons_of_mem _ hm)]
      exact (assign_keeps _ _ _ _ ha n fun e => hn (by rw [e]; exact List.mem_cons_self ..)).1


/-- A file with another property only: `gain` is kept. -/
example : load "offset = 3\n".toList [("gain".toList, .int 5), ("offset".toList, .int 0)] = .ok [("gain".toList, .int 5), ("offset".toList, .int 3)] ∧
    "gain".toList ∉ keys "offset = 3\n".toList := by decide +kernel

theorem assign_unknown (key val : List Char) (ps : Props) (h : key ∉ ps.map Prod.fst) : assign key val ps = .ok ps := by
  induction ps with
  | nil => rfl
  | cons p ps ih =>
    obtain ⟨m, v⟩ := p
    simp only [List.map_cons, List.mem_cons, not_or] at h
    rw [assign, if_neg (Ne.symm h.1), ih h.2]
    rfl

theorem getlines_sep (sep : Char) (a b : List Char) : getlines sep (a ++ sep :: b) = getlines sep (a ++ [sep]) ++ getlines sep b := by
  induction a with
  | nil => simp [getlines]
  | cons c a ih =>
    rw [List.cons_append, List.cons_append, getlines, getlines]
    by_cases hc : c = sep
    · rw [if_pos hc, if_pos hc, ih, List.cons_append]
    · rw [if_neg hc, if_neg hc, ih]
      cases h : getlines sep (a ++ [sep]) with
      | nil =>
        exfalso
        cases a with
        | nil => simp [getlines] at h
        | cons d a =>
          rw [List.cons_append, getlines] at h
          split at h
          · simp at h
          · split at h <;> simp at h
      | cons l ls => rfl

theorem fold_names (ls : List (List Char)) (ps ps' : Props)
    (h : ls.foldlM (fun ps line => assign (splitLine line).1 (splitLine line).2 ps) ps = Except.ok ps') :
    ps'.map Prod.fst = ps.map Prod.fst := by
  induction ls generalizing ps with
  | nil => cases h; rfl
  | cons l ls ih =>
    rw [List.foldlM_cons] at h
    cases ha : assign (splitLine l).1 (splitLine l).2 ps with
    | error e => rw [ha] at h; cases h
    | ok qs =>
      rw [ha] at h
      rw [ih qs h]
      exact (assign_keeps _ _ _ _ ha ((splitLine l).1 ++ ['x']) fun e => by simpa using congrArg List.length e).2

/-- **C45** (unknown keys) A line with an unknown key, whatever else it contains, has no effect, at the beginning of a file or later: without it the outcome is the same. -/
theorem unknown_ignored (a b junk : List Char) (ps : Props) (hj : '\n' ∉ junk) (hk : (splitLine junk).1 ∉ ps.map Prod.fst) :
    load (junk ++ '\n' :: b) ps = load b ps ∧
    load (a ++ '\n' :: (junk ++ '\n' :: b)) ps = load (a ++ '\n' :: b) ps := by
  constructor
  · unfold load
    rw [getlines_append _ _ _ hj, List.foldlM_cons, assign_unknown _ _ _ hk]
    rfl
  · unfold load
    rw [getlines_sep, getlines_sep _ a b, getlines_append _ _ _ hj, List.foldlM_append, List.foldlM_append]
    cases h : (getlines '\n' (a ++ ['\n'])).foldlM (fun ps line => assign (splitLine line).1 (splitLine line).2 ps) ps with
    | error e => rfl
    | ok qs =>
      change (junk :: getlines '\n' b).foldlM (fun ps line => assign (splitLine line).1 (splitLine line).2 ps) qs =
        (getlines '\n' b).foldlM (fun ps line => assign (splitLine line).1 (splitLine line).2 ps) qs
      rw [List.foldlM_cons, assign_unknown _ _ _ (by rw [fold_names _ _ _ h]; exact hk)]
      rfl


/-- A line in the middle of a file which is about no property. -/
example : '\n' ∉ "colour = 12".toList ∧ (splitLine "colour = 12".toList).1 ∉ ([("gain".toList, Val.int 5)] : Props).map Prod.fst ∧
    load ("gain = 1".toList ++ '\n' :: ("colour = 12".toList ++ '\n' :: "gain = 2\n".toList)) [("gain".toList, .int 5)] = .ok [("gain".toList, .int 2)] := by decide +kernel

/-! ### Arrays -/

/-- **C46 (partial)** If the fields of a line are numbers, the array gets them, followed by the default value, provided that there are not more of them than the array has elements.
Missing: more fields, see `overflow`. -/
theorem array_loaded_partial (l : List Int) (d : Int) (s : List Char) (vs : List Int) (hv : (getlines ',' s).map stoi = vs.map Except.ok)
    (hl : vs.length ≤ l.length) : parse (.arr l d) s = .ok (.arr (vs ++ List.replicate (l.length - vs.length) d) d) := by
  have := (readArr_ok stoi vs l _ hv).1 hl
  simp only [parse, this]
  show Except.ok _ = _
  rw [List.map_const', List.length_drop]


/-- Two of four elements are in the file: the others get the default. -/
example : parse (.arr [1, 2, 3, 4] 9) "17, -5".toList = .ok (.arr [17, -5, 9, 9] 9) :=
  array_loaded_partial [1, 2, 3, 4] 9 "17, -5".toList [17, -5] (by decide +kernel) (by decide)

/-- **C46** Whatever the text: if no element is written beyond the end, the length of the array is unchanged. -/
theorem array_length (l l' : List Int) (d d' : Int) (s : List Char) (h : parse (.arr l d) s = .ok (.arr l' d')) : l'.length = l.length ∧ d' = d := by
  have key : ∀ (els : List (List Char)) (old new rest : List Int), readArr stoi els old = .ok (new, rest) → new.length + rest.length = old.length := by
    intro els
    induction els with
    | nil => intro old new rest h; cases h; simp
    | cons e els ih =>
      intro old new rest h
      rw [readArr] at h
      cases he : stoi e with
      | error _ => rw [he] at h; cases h
      | ok v =>
        rw [he] at h
        cases old with
        | nil => cases h
        | cons o old =>
          cases hr : readArr stoi els old with
          | error _ =>
            simp only [hr] at h
            cases h
          | ok q =>
            simp only [hr] at h
            cases h
            have := ih old q.1 q.2 hr
            simp only [List.length_cons]; omega
  unfold parse at h
  simp only at h
  cases hr : readArr stoi (getlines ',' s) l with
  | error _ => rw [hr] at h; cases h
  | ok q =>
    rw [hr] at h
    obtain ⟨n, r⟩ := q
    cases h
    have := key _ _ _ _ hr
    exact ⟨by simpa using this, rfl⟩


example : parse (.arr [1, 2, 3] 9) "17, -5".toList = .ok (.arr [17, -5, 9] 9) := by decide +kernel

/-- **C46 violated**: a line with more numbers than the array has elements writes beyond its end. -/
theorem overflow (l : List Int) (d : Int) (s : List Char) (vs : List Int) (hv : (getlines ',' s).map stoi = vs.map Except.ok)
    (hl : l.length < vs.length) : parse (.arr l d) s = .error .outOfBounds := by
  have := (readArr_ok stoi vs l _ hv).2 hl
  simp only [parse, this]
  rfl


/-- Three values for an array of two elements. -/
example : parse (.arr [1, 2] 9) "17, -5, 3".toList = .error .outOfBounds :=
  overflow [1, 2] 9 "17, -5, 3".toList [17, -5, 3] (by decide +kernel) (by decide)

/-- **C46 violated**: for every array there is a file which does this: the one saved by a program in which the array has one element more. -/
theorem overflow_file (n : List Char) (hn : GoodName n) (l : List Int) (hl : ∀ v ∈ l, inInt v = true) (d : Int) :
    load (save [(n, .arr (0 :: l) d)]) [(n, .arr l d)] = .error .outOfBounds := by
  have hg : GoodVal (.arr (0 :: l) d) := by
    refine ⟨by simp, fun v hv => ?_⟩
    rcases List.mem_cons.1 hv with rfl | hv
    · decide
    · exact hl v hv
  unfold load
  rw [lines_save _ (by simpa using hn) (by simpa using hg), List.map_cons, List.foldlM_cons, splitLine_save n _ hn]
  have := overflow l d (' ' :: arrText intText (0 :: l)) (0 :: l) (by
    rw [arrText_fields _ (fun v => (intText_chars v).2) _ (by simp), List.map_map]
    exact List.map_congr_left fun v hv => stoi_intText v (hg.2 v hv)) (by simp)
  simp only [assign, if_true, text, this]
  rfl

/-- Non-vacuity: a configuration with three properties is written as expected and survives a round trip. -/
example : let ps : Props := [("gain".toList, .int (-120)), ("name".toList, .str " a=b, c".toList), ("pos".toList, .arr [0, 17, -5] 0)]
    save ps = "gain = -120\nname =  a=b, c\npos = 0, 17, -5\n".toList ∧
    (ps.map Prod.fst).Nodup ∧ (∀ p ∈ ps, GoodName p.1) ∧ (∀ p ∈ ps, GoodVal p.2) := by
  refine ⟨by decide +kernel, by decide +kernel, ?_, ?_⟩
  · intro p hp
    simp only [List.mem_cons, List.not_mem_nil, or_false] at hp
    rcases hp with rfl | rfl | rfl <;> exact ⟨by decide, by decide⟩
  · intro p hp
    simp only [List.mem_cons, List.not_mem_nil, or_false] at hp
    rcases hp with rfl | rfl | rfl
    · exact (by decide : inInt (-120) = true)
    · exact (by decide : '\n' ∉ " a=b, c".toList)
    · exact ⟨by decide, by decide⟩

end Verif.Config
