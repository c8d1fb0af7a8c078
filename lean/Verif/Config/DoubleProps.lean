/-
C130: configuration properties of type `double`.
-/
import Verif.Config.ConfigProps

namespace Verif.Config

open Verif.Common.Round (rnd)

set_option exponentiation.threshold 2000

/-- One property, saved and loaded again. -/
theorem load_single (n : List Char) (hn : GoodName n) (v old : Val) (hv : ∀ s, v = .str s → '\n' ∉ s) :
    load (save [(n, v)]) [(n, old)] = (parse old (' ' :: text v)).map fun w => [(n, w)] := by
  have h1 : '\n' ∉ n ++ [' ', '=', ' '] ++ text v := by
    simp only [List.mem_append, not_or]
    exact ⟨⟨fun hm => absurd (hn.2 _ hm) (by decide), by decide⟩, text_no_newline v hv⟩
  have hl : getlines '\n' (save [(n, v)]) = [n ++ [' ', '=', ' '] ++ text v] := by
    have : save [(n, v)] = (n ++ [' ', '=', ' '] ++ text v) ++ '\n' :: [] := by simp [save]
    rw [this, getlines_append _ _ _ h1]
    simp [getlines]
  unfold load
  rw [hl, List.foldlM_cons, splitLine_save n (text v) hn]
  simp only [assign, if_true, List.foldlM_nil]
  cases parse old (' ' :: text v) <;> rfl

theorem load_dbl (n : List Char) (hn : GoodName n) (x : ℚ) (hx : |x| ≤ maxDouble) (old : XVal ℚ) :
    load (save [(n, .dbl (.fin x))]) [(n, .dbl old)] = .ok [(n, .dbl (.fin (rnd (micro x))))] := by
  rw [load_single n hn _ _ (by rintro s ⟨⟩)]
  show (parse (.dbl old) (' ' :: fixedText x)).map _ = _
  rw [parse, scalar_read hx]
  rfl

/-- **C130** A property of type `double` which is saved and loaded has the same value if and only if it is the double nearest to a decimal number with six decimals. -/
theorem double_round_trip_iff (n : List Char) (hn : GoodName n) (x : ℚ) (hx : |x| ≤ maxDouble) (old : XVal ℚ) :
    load (save [(n, .dbl (.fin x))]) [(n, .dbl old)] = .ok [(n, .dbl (.fin x))] ↔ ∃ m : ℤ, x = rnd ((m : ℚ) / 10 ^ 6) := by
  rw [load_dbl n hn x hx, ← scalar_exact_iff]
  simp

/-- A tenth is not a double; the double nearest to it survives. -/
example : let x : ℚ := 3602879701896397 / 2 ^ 55
    load (save [("k".toList, .dbl (.fin x))]) [("k".toList, .dbl .nan)] = .ok [("k".toList, .dbl (.fin x))] := by decide +kernel

/-- **C130** Whatever the value: the loaded one is a multiple of a millionth which differs by at most half a millionth, rounded to a double.  Loading never fails. -/
theorem double_error (n : List Char) (hn : GoodName n) (x : ℚ) (hx : |x| ≤ maxDouble) (old : XVal ℚ) :
    ∃ m : ℤ, |(m : ℚ) / 10 ^ 6 - x| ≤ 1 / 2000000 ∧ load (save [(n, .dbl (.fin x))]) [(n, .dbl old)] = .ok [(n, .dbl (.fin (rnd ((m : ℚ) / 10 ^ 6))))] := by
  have e : micro x = (((if x < 0 then -1 else 1) * Verif.Common.Round.nearest (|x| * 10 ^ 6) : ℤ) : ℚ) / 10 ^ 6 := by
    unfold micro
    split <;> push_cast <;> ring
  refine ⟨(if x < 0 then -1 else 1) * Verif.Common.Round.nearest (|x| * 10 ^ 6), ?_, ?_⟩
  · rw [← e]; exact micro_error x
  · rw [← e]; exact load_dbl n hn x hx old

/-- The third of one: six digits are left. -/
example : load (save [("k".toList, .dbl (.fin (1 / 3)))]) [("k".toList, .dbl (.fin 0))] = .ok [("k".toList, .dbl (.fin (rnd (333333 / 10 ^ 6))))] := by decide +kernel

/-- **C130 violated**: every number of at most half a millionth is loaded as zero. -/
theorem small_double_violated (n : List Char) (hn : GoodName n) (x : ℚ) (hx : |x| ≤ 1 / 2000000) (old : XVal ℚ) :
    load (save [(n, .dbl (.fin x))]) [(n, .dbl old)] = .ok [(n, .dbl (.fin 0))] := by
  rw [load_dbl n hn x (le_trans hx (by unfold maxDouble; norm_num))]
  have : micro x = 0 := by
    have h0 : 0 ≤ |x| * 10 ^ 6 := by positivity
    have h1 : |x| * 10 ^ 6 ≤ 1 / 2 := by linarith
    have h2 := Verif.Common.Round.nearest_mono h1
    rw [show Verif.Common.Round.nearest (1 / 2) = 0 by decide +kernel] at h2
    have h3 := nearest_nonneg h0
    unfold micro
    rw [show Verif.Common.Round.nearest (|x| * 10 ^ 6) = 0 by omega]
    simp
  rw [this, rnd_zero]

/-- A capacitor of 100 nF has none after loading. -/
example : load (save [("c".toList, .dbl (.fin (1 / 10 ^ 7)))]) [("c".toList, .dbl (.fin 5))] = .ok [("c".toList, .dbl (.fin 0))] :=
  small_double_violated "c".toList ⟨by decide, by decide⟩ _ (by norm_num [abs_of_pos]) _

theorem readArr_error {α : Type} (rd : List Char → Except Err α) (a : List (List Char)) (vs : List α) (x : List Char) (b : List (List Char)) (e : Err) (old : List α)
    (ha : a.map rd = vs.map Except.ok) (hl : vs.length ≤ old.length) (hx : rd x = .error e) : readArr rd (a ++ x :: b) old = .error e := by
  induction a generalizing vs old with
  | nil => rw [List.nil_append, readArr, hx]; rfl
  | cons y a ih =>
    cases vs with
    | nil => simp at ha
    | cons v vs =>
      simp only [List.map_cons, List.cons.injEq] at ha
      cases old with
      | nil => simp at hl
      | cons o old =>
        rw [List.cons_append, readArr, ha.1]
        show (do let (new, rest) ← readArr rd (a ++ x :: b) old; Except.ok (v :: new, rest)) = _
        rw [ih vs old ha.2 (by simpa using hl)]
        rfl

/-- A number which is read without an exception: zero, or not too small. -/
def Readable (v : XVal ℚ) : Prop := ∀ x, v = .fin x → |x| ≤ maxDouble ∧ (x = 0 ∨ 1 / 2 ^ 1022 ≤ |six x|)

/-- What a number in an array becomes: six significant digits. -/
def sixVal : XVal ℚ → XVal ℚ
  | .fin x => .fin (rnd (six x))
  | v => v

theorem stod_readable (v : XVal ℚ) (h : Readable v) : stod (' ' :: stream6 v) = .ok (sixVal v) := by
  cases v with
  | fin x => exact element_read (h x rfl).1 (h x rfl).2
  | pinf => decide +kernel
  | ninf => decide +kernel
  | nan => decide +kernel

theorem load_darr (n : List Char) (hn : GoodName n) (l old : List (XVal ℚ)) (d : XVal ℚ) (hl : l ≠ []) (ho : old.length = l.length) (h : ∀ v ∈ l, Readable v) :
    load (save [(n, .darr l d)]) [(n, .darr old d)] = .ok [(n, .darr (l.map sixVal) d)] := by
  rw [load_single n hn _ _ (by rintro s ⟨⟩)]
  have := (readArr_ok stod (l.map sixVal) old (l.map fun v => ' ' :: stream6 v) (by
    rw [List.map_map, List.map_map]
    exact List.map_congr_left fun v hv => stod_readable v (h v hv))).1 (by simp [ho])
  simp only [parse, text, arrText_fields _ stream6_chars l hl, this]
  show Except.ok [(n, Val.darr (l.map sixVal ++ (old.drop (l.map sixVal).length).map fun _ => d) d)] = _
  rw [List.drop_eq_nil_of_le (by simp [ho])]
  simp

/-- **C130** An array of `double` with elements which are not too small is unchanged by saving and loading if and only if every finite element is the double nearest to a decimal number
with at most six significant digits. -/
theorem double_array_iff (n : List Char) (hn : GoodName n) (l old : List (XVal ℚ)) (d : XVal ℚ) (hl : l ≠ []) (ho : old.length = l.length) (h : ∀ v ∈ l, Readable v) :
    load (save [(n, .darr l d)]) [(n, .darr old d)] = .ok [(n, .darr l d)] ↔
      ∀ x, XVal.fin x ∈ l → ∃ m k : ℤ, |m| < 10 ^ 6 ∧ x = rnd ((m : ℚ) * 10 ^ k) := by
  rw [load_darr n hn l old d hl ho h]
  have : (Except.ok [(n, Val.darr (l.map sixVal) d)] : Except Err Props) = .ok [(n, .darr l d)] ↔ l.map sixVal = l := by simp
  rw [this]
  constructor
  · intro hm x hx
    have : sixVal (.fin x) = id (.fin x) := (List.map_inj_left (g := id)).1 (by rw [hm, List.map_id]) _ hx
    exact (element_exact_iff x).1 (by injection this)
  · intro hm
    conv_rhs => rw [← List.map_id l]
    refine List.map_congr_left fun v hv => ?_
    cases v with
    | fin x => exact congrArg XVal.fin ((element_exact_iff x).2 (hm x hv))
    | _ => rfl

/-- 1234567 in an array becomes 1234570; as a single property it survives. -/
example : load (save [("a".toList, .darr [.fin 5, .fin 1234567] .nan)]) [("a".toList, .darr [.fin 0, .fin 0] .nan)] = .ok [("a".toList, .darr [.fin 5, .fin 1234570] .nan)] ∧
    load (save [("a".toList, .dbl (.fin 1234567))]) [("a".toList, .dbl (.fin 0))] = .ok [("a".toList, .dbl (.fin 1234567))] := by decide +kernel

/-- **C130** Whatever the elements: the loaded ones differ by at most five millionths of their size, apart from the rounding to a double. -/
theorem double_array_error (n : List Char) (hn : GoodName n) (l old : List (XVal ℚ)) (d : XVal ℚ) (hl : l ≠ []) (ho : old.length = l.length) (h : ∀ v ∈ l, Readable v) :
    ∃ l', load (save [(n, .darr l d)]) [(n, .darr old d)] = .ok [(n, .darr l' d)] ∧ l'.length = l.length ∧
      ∀ (i : Nat) (x : ℚ), l[i]? = some (.fin x) → ∃ q : ℚ, l'[i]? = some (.fin (rnd q)) ∧ |q - x| ≤ |x| / 200000 := by
  refine ⟨l.map sixVal, load_darr n hn l old d hl ho h, by simp, fun i x hx => ⟨six x, ?_, six_error x⟩⟩
  rw [List.getElem?_map, hx]
  rfl

example : load (save [("a".toList, .darr [.fin (1 / 3)] (.fin 0))]) [("a".toList, .darr [.nan] (.fin 0))] = .ok [("a".toList, .darr [.fin (rnd (333333 / 10 ^ 6))] (.fin 0))] := by
  decide +kernel

/-- **C130 violated** (an exception): an array with a number of at most 2.22e-308, the first of its kind at any place, is saved, but loading the file throws. -/
theorem small_element_violated (n : List Char) (hn : GoodName n) (a b old : List (XVal ℚ)) (d : XVal ℚ) (x : ℚ) (h0 : x ≠ 0) (hx : |x| ≤ 222 / 10 ^ 310)
    (ha : ∀ v ∈ a, Readable v) (ho : old.length = (a ++ .fin x :: b).length) :
    load (save [(n, .darr (a ++ .fin x :: b) d)]) [(n, .darr old d)] = .error .range := by
  rw [load_single n hn _ _ (by rintro s ⟨⟩)]
  have := readArr_error stod (a.map fun v => ' ' :: stream6 v) (a.map sixVal) (' ' :: stream6 (.fin x)) (b.map fun v => ' ' :: stream6 v) .range old (by
    rw [List.map_map, List.map_map]
    exact List.map_congr_left fun v hv => stod_readable v (ha v hv)) (by rw [ho]; simp) (element_small h0 hx)
  have e : (a ++ XVal.fin x :: b).map (fun v => ' ' :: stream6 v) = (a.map fun v => ' ' :: stream6 v) ++ (' ' :: stream6 (.fin x)) :: b.map fun v => ' ' :: stream6 v := by simp
  simp only [parse, text, arrText_fields _ stream6_chars _ (show a ++ XVal.fin x :: b ≠ [] by simp), e, this]
  rfl

/-- A state estimate which has decayed to 1e-310. -/
example : load (save [("p".toList, .darr [.fin 1, .fin (1 / 10 ^ 310)] (.fin 0))]) [("p".toList, .darr [.fin 0, .fin 0] (.fin 0))] = .error .range :=
  small_element_violated "p".toList ⟨by decide, by decide⟩ [.fin 1] [] _ _ _ (by norm_num) (by norm_num [abs_of_pos])
    (by
      intro v hv x hx
      simp only [List.mem_singleton] at hv
      subst hv
      injection hx with hx
      subst hx
      exact ⟨by unfold maxDouble; norm_num, Or.inr (by decide +kernel)⟩) rfl

/-! ### Arrays of `double` -/

/-- **C46 (partial)** The same as `array_loaded_partial` for arrays of `double`. -/
theorem darray_loaded_partial (l : List (XVal ℚ)) (d : XVal ℚ) (s : List Char) (vs : List (XVal ℚ)) (hv : (getlines ',' s).map stod = vs.map Except.ok)
    (hl : vs.length ≤ l.length) : parse (.darr l d) s = .ok (.darr (vs ++ List.replicate (l.length - vs.length) d) d) := by
  have := (readArr_ok stod vs l _ hv).1 hl
  simp only [parse, this]
  show Except.ok _ = _
  rw [List.map_const', List.length_drop]

example : parse (.darr [.nan, .nan, .nan] (.fin 9)) "1.5, -2e3".toList = .ok (.darr [.fin (3 / 2), .fin (-2000), .fin 9] (.fin 9)) :=
  darray_loaded_partial [.nan, .nan, .nan] (.fin 9) "1.5, -2e3".toList [.fin (3 / 2), .fin (-2000)] (by decide +kernel) (by decide)

/-- **C46 violated**: more numbers than elements. -/
theorem doverflow (l : List (XVal ℚ)) (d : XVal ℚ) (s : List Char) (vs : List (XVal ℚ)) (hv : (getlines ',' s).map stod = vs.map Except.ok)
    (hl : l.length < vs.length) : parse (.darr l d) s = .error .outOfBounds := by
  have := (readArr_ok stod vs l _ hv).2 hl
  simp only [parse, this]
  rfl

example : parse (.darr [.nan] (.fin 9)) "1.5, -2e3".toList = .error .outOfBounds :=
  doverflow [.nan] (.fin 9) "1.5, -2e3".toList [.fin (3 / 2), .fin (-2000)] (by decide +kernel) (by decide)

/-- Non-vacuity of `round_trip_partial` with numbers of type `double`. -/
example : let ps : Props := [("gain".toList, .dbl (.fin (-3 / 2))), ("limit".toList, .dbl .pinf), ("pos".toList, .darr [.fin 0, .fin 17, .fin (1 / 4)] .nan)]
    save ps = "gain = -1.500000\nlimit = inf\npos = 0, 17, 0.25\n".toList ∧ (∀ p ∈ ps, GoodVal p.2) := by
  refine ⟨by decide +kernel, ?_⟩
  intro p hp
  simp only [List.mem_cons, List.not_mem_nil, or_false] at hp
  rcases hp with rfl | rfl | rfl
  · exact ⟨⟨-1500000, by decide +kernel⟩, by unfold maxDouble; norm_num [abs_of_neg]⟩
  · trivial
  · refine ⟨by decide, fun v hv => ?_⟩
    simp only [List.mem_cons, List.not_mem_nil, or_false] at hv
    rcases hv with rfl | rfl | rfl
    · exact ⟨⟨0, 0, by decide, by decide +kernel, Or.inl rfl⟩, by unfold maxDouble; norm_num⟩
    · exact ⟨⟨17, 0, by decide, by decide +kernel, Or.inr (by norm_num)⟩, by unfold maxDouble; norm_num⟩
    · exact ⟨⟨25, -2, by decide, by decide +kernel, Or.inr (by norm_num)⟩, by unfold maxDouble; norm_num⟩

end Verif.Config
