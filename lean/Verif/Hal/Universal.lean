import Verif.Hal.XBoxProps
import Verif.Hal.ODriveProps
import Verif.Hal.JsonParserProps
/-!
Violations of C88, C100 and C101 for all inputs instead of single ones, and what the XBox controller does exactly when reads fail (C274).
-/
namespace Verif.Hal.XBox
variable {K : Type} [Field K]

/-- The history in which every read which failed has delivered the event before it once more (newest first). -/
def repeated : List Op → List Op
  | [] => []
  | .read e :: h => .read e :: repeated h
  | .fail :: h => (repeated h).head?.toList ++ repeated h

theorem repeated_read (h : List Op) : .fail ∉ repeated h := by
  induction h with
  | nil => simp [repeated]
  | cons o h ih =>
    cases o with
    | read e => simpa [repeated] using ih
    | fail =>
      simp only [repeated, List.mem_append, not_or]
      refine ⟨?_, ih⟩
      cases hr : repeated h with
      | nil => simp
      | cons o l => simp [hr] at ih ⊢; exact ih.1

theorem after_e (s : St K) (e : Ev) (h : List Op) (ha : after (.read e :: h) = some s) : s.e = some e := by
  simp only [after, Option.bind_eq_some_iff, step] at ha
  obtain ⟨t, -, ht⟩ := ha
  rw [← Option.some.inj ht]
  rfl

theorem repeated_after (h : List Op) (e0 : Ev) :
    after (K := K) (h ++ [.read e0]) = after (repeated (h ++ [.read e0])) ∧ ∃ e l, repeated (h ++ [.read e0]) = .read e :: l := by
  induction h with
  | nil => exact ⟨rfl, e0, [], rfl⟩
  | cons o h ih =>
    obtain ⟨i1, e, l, i2⟩ := ih
    cases o with
    | read e' => exact ⟨by simp only [List.cons_append, repeated, after]; rw [i1], e', _, rfl⟩
    | fail =>
      have hc : repeated (.fail :: (h ++ [.read e0])) = .read e :: .read e :: l := by simp [repeated, i2]
      refine ⟨?_, e, _, hc⟩
      simp only [List.cons_append, hc]
      rw [after, i1, i2]
      conv_rhs => rw [after]
      cases ha : after (K := K) (.read e :: l) with
      | none => rfl
      | some s => simp [step, after_e s e l ha]

/-- **C274.** Whatever reads fail after the first event: the controller ends in the state in which it would be if every failed read had delivered the event before it
once more.  Hence the functions of the user are called once more for every failed read behind an event of a button or an axis, and the `up` and `down` flags are those of that
history. -/
theorem failing_reads_exact (h : List Op) (e0 : Ev) :
    ∃ s : St K, after (h ++ [.read e0]) = some s ∧ s.calls = expected (repeated (h ++ [.read e0])) ∧
      (∀ b < 8, (s.current.down b = true ↔ (presses b (repeated (h ++ [.read e0]))).head? = some true ∧ (presses b (repeated (h ++ [.read e0]))).tail.head? ≠ some true) ∧
        (s.current.up b = true ↔ (presses b (repeated (h ++ [.read e0]))).head? = some false ∧ (presses b (repeated (h ++ [.read e0]))).tail.head? = some true)) ∧
      output s = [0, 1, 2, 4, 3, 5, 6, 7].map (fun n => (((moves n (h ++ [.read e0])).head?.getD 0 : Int) : K) / 32767) := by
  obtain ⟨h1, -⟩ := repeated_after (K := K) h e0
  obtain ⟨s, h2, h3, h4⟩ := buttons_partial (K := K) _ (repeated_read (h ++ [.read e0]))
  obtain ⟨t, h5, -, h6⟩ := state_and_axes (K := K) h e0
  have : s = t := by rw [h1, h2] at h5; exact Option.some.inj h5
  subst this
  refine ⟨s, h5, h3, fun b hb => (h4 b hb).2, ?_⟩
  simp only [output, List.map_cons, List.map_nil, h6 0 (by omega), h6 1 (by omega), h6 2 (by omega), h6 4 (by omega), h6 3 (by omega), h6 5 (by omega),
    h6 6 (by omega), h6 7 (by omega)]

/-- **C274** (first read) As long as no read has succeeded, every pass of the loop uses an event which was never written. -/
theorem first_read_undefined (n : Nat) (h : List Op) : after (K := K) (h ++ List.replicate (n + 1) .fail) = none := by
  induction h with
  | nil =>
    induction n with
    | zero => rfl
    | succ n ih => rw [List.replicate_succ, List.nil_append, after, ← List.nil_append (List.replicate (n + 1) Op.fail), ih]; rfl
  | cons o h ih => rw [List.cons_append, after, ih]; rfl

/-- Button 3 is pressed, then the controller is unplugged: the function of the user is called again in both passes which follow. -/
example : ∃ s : St ℚ, after [.fail, .fail, .read ⟨1, 3, 1⟩] = some s ∧ s.calls = [.button 3 true, .button 3 true, .button 3 true] := by
  exact ⟨_, rfl, by decide +kernel⟩

/-- **C88, violated**, after every history and for every axis: -32768 gives an axis below -1. -/
theorem axis_below_violated [LinearOrder K] [IsStrictOrderedRing K] (h : List Op) (n : Nat) (hn : n < 8) (s t : St K) (hs : after h = some s)
    (ht : after (.read ⟨2, n, -32768⟩ :: h) = some t) : t.current.axis n < -1 := by
  simp only [after, hs, Option.bind_some, step] at ht
  rw [← Option.some.inj ht]
  norm_num [process, hn, upd]

example : ∃ s t : St ℚ, after [.read ⟨2, 4, 100⟩] = some s ∧ after [.read ⟨2, 7, -32768⟩, .read ⟨2, 4, 100⟩] = some t := ⟨_, _, rfl, rfl⟩

/-- **C88, violated**, for every event of a button: if the next read fails, the function of the user is called a second time for the same event and neither `up` nor `down` is set. -/
theorem failed_read_violated (h : List Op) (s t : St K) (b : Nat) (hb : b < 8) (v : Int) (hs : after (.read ⟨1, b, v⟩ :: h) = some s)
    (ht : after (.fail :: .read ⟨1, b, v⟩ :: h) = some t) :
    t.calls = .button b (decide (v ≠ 0)) :: s.calls ∧ t.current.down b = false ∧ t.current.up b = false := by
  have he := after_e s _ h hs
  rw [after, hs] at ht
  simp only [Option.bind_some, step, he] at ht
  rw [← Option.some.inj ht]
  have hl : s.last.state b = decide (v ≠ 0) := by
    simp only [after, Option.bind_eq_some_iff, step] at hs
    obtain ⟨u, -, hu⟩ := hs
    rw [← Option.some.inj hu]
    simp [process, hb, upd]
  by_cases hv : v = 0 <;> simp [process, hb, upd, hl, hv]

end Verif.Hal.XBox

namespace Verif.Hal.ODrive

/-- **C100, violated**, for every reply: if a further character is already on the line, the last `read` takes it away from the next reply. -/
theorem next_reply_violated (x : Number) (hx : x.Valid) (c : Char) (rest : List Char) :
    ∃ v, getVel 1 (x.text ++ c :: rest) = .velocity v (c :: rest) ∧ getVel 2 (x.text ++ c :: rest) = .velocity v rest := by
  obtain ⟨v, hv⟩ := reply_consumed x hx (c :: rest)
  refine ⟨v, hv, ?_⟩
  unfold getVel at hv ⊢
  split at hv <;> try simp at hv
  split at hv <;> try simp at hv
  split at hv <;> try simp at hv
  rename_i l hl
  rcases l with _ | ⟨a, l⟩
  · simp at hv
  · have h2 : l = c :: rest := by simpa using hv.2
    simp [hv.1, h2]

/-- **C100, violated**, for every error message, that is a text without point which does not begin like a number: together with the next reply it is taken for one
number, and the exception of `stod` ends the program. -/
theorem message_then_reply_violated (got : Nat) (c : Char) (m : List Char) (x : Number) (hx : x.Valid) (rest : List Char) (hm : '.' ∉ c :: m)
    (hc : c.isWhitespace = false ∧ c.isDigit = false ∧ c ≠ '-' ∧ c ≠ '+') (hl : (c :: m).length + x.int.length + 1 < 100) :
    getVel got (c :: m ++ x.text ++ rest) = .exception := by
  obtain ⟨h1, h2, h3, h4⟩ := hx
  obtain ⟨c1, c2, c3, c4⟩ := hc
  have e : c :: m ++ x.text ++ rest = (c :: m ++ (if x.neg then ['-'] else []) ++ x.int) ++ '.' :: (x.frac ++ '\r' :: '\n' :: rest) := by
    simp [Number.text]
  have hr : readPoint bufferSize (c :: m ++ x.text ++ rest) = .ok (c :: m ++ (if x.neg then ['-'] else []) ++ x.int) (x.frac ++ '\r' :: '\n' :: rest) := by
    rw [e]
    refine readPoint_text _ _ _ ?_ ?_
    · simp only [List.length_cons] at hl
      cases x.neg <;> simp [bufferSize] <;> omega
    · intro hp
      rcases List.mem_append.1 hp with hp | hp
      · rcases List.mem_append.1 hp with hp | hp
        · exact hm hp
        · cases hn : x.neg <;> simp [hn] at hp
      · exact absurd (h3 _ hp) (by decide)
  have hs : stod (c :: m ++ (if x.neg then ['-'] else []) ++ x.int) = none := by
    simp only [stod, List.cons_append, List.dropWhile_cons, c1, Bool.false_eq_true, if_false]
    split
    · simp_all
    · simp_all
    · simp [c2]
  rw [getVel, hr]
  simp only [hs]

example : getVel 1 ("invalid property\r\n".toList ++ (⟨true, ['7'], ['5']⟩ : Number).text ++ []) = .exception :=
  message_then_reply_violated 1 'i' _ _ ⟨by simp, by simp, by decide, by decide⟩ [] (by decide) ⟨by decide, by decide, by decide, by decide⟩ (by decide)

end Verif.Hal.ODrive

namespace Verif.Hal.JsonParser
variable {S V : Type}

/-- **C101, violated**, for every file: a device in which a subdevice with a channel stands in front of the key `library` stops the creation, whatever follows. -/
theorem library_after_violated (e : Env S V) (libs : List String) (d : Doc S V) (hd : (createHalObjects e libs d).2 = none) (n : Nat) (hn : n ≤ intMax) (c : Chan S V)
    (hc : c.number ≤ intMax) (keys : List (SubKey S V)) (more : List (DevKey S V)) (rest : Doc S V) :
    createHalObjects e libs (d ++ (.sub n (.chan c :: keys) :: more) :: rest) = ((createHalObjects e libs d).1, some .noLibrary) := by
  rw [creates_what_is_written] at hd ⊢
  rw [creates_what_is_written]
  simp only at hd ⊢
  have hi : items (d ++ (.sub n (.chan c :: keys) :: more) :: rest) = items d ++ (devItems [] (.sub n (.chan c :: keys) :: more) ++ items rest) := by
    simp [items]
  rw [hi, doItems_append]
  simp [hd, devItems, Nat.not_lt.2 hn, subItems, doItems, doItem, chanSpec, Nat.not_lt.2 hc, lastLib, Except.map]

/-- **C101, violated**, for every file: a channel without its own type in front of the key `type` of its subdevice stops the creation, whatever follows. -/
theorem type_after_violated (e : Env S V) (libs : List String) (d : Doc S V) (hd : (createHalObjects e libs d).2 = none) (lib dev : String) (hl : lib ≠ "")
    (ho : e.dlopen lib = true) (hdev : dev ≠ "") (n : Nat) (hn : n ≤ intMax) (c : Chan S V) (hc : c.number ≤ intMax) (ht : c.type = "") (hs : c.scaling.isSome)
    (keys : List (SubKey S V)) (more : List (DevKey S V)) (rest : Doc S V) :
    createHalObjects e libs (d ++ (.library lib :: .devHandle dev :: .sub n (.chan c :: keys) :: more) :: rest) =
      ((createHalObjects e libs d).1, some .undefinedType) := by
  rw [creates_what_is_written] at hd ⊢
  rw [creates_what_is_written]
  simp only at hd ⊢
  have hi : items (d ++ (.library lib :: .devHandle dev :: .sub n (.chan c :: keys) :: more) :: rest) =
      items d ++ (devItems [] (.library lib :: .devHandle dev :: .sub n (.chan c :: keys) :: more) ++ items rest) := by
    simp [items]
  obtain ⟨k, hk⟩ := Option.isSome_iff_exists.1 hs
  rw [hi, doItems_append]
  by_cases hm : lib ∈ (doItems e (items d) libs []).1 <;>
    simp [hd, devItems, Nat.not_lt.2 hn, subItems, doItems, doItem, chanSpec, Nat.not_lt.2 hc, lastLib, lastHandle, lastType, Except.map, hm, ho, hl, hdev, hk, ht, target]

/-- **C101, violated**, for every file without fault which creates something: with a misspelt key in a further device the creation fails, and all objects of the devices before
stay in the HAL. -/
theorem objects_stay_violated (e : Env S V) (libs : List String) (d : Doc S V) (hd : (createHalObjects e libs d).2 = none) (n : Nat) (hn : n ≤ intMax) (name : String)
    (keys : List (SubKey S V)) (more : List (DevKey S V)) (rest : Doc S V) :
    createHalObjects e libs (d ++ (.sub n (.other name :: keys) :: more) :: rest) = ((createHalObjects e libs d).1, some .badKey) := by
  rw [creates_what_is_written] at hd ⊢
  rw [creates_what_is_written]
  simp only at hd ⊢
  have hi : items (d ++ (.sub n (.other name :: keys) :: more) :: rest) = items d ++ (devItems [] (.sub n (.other name :: keys) :: more) ++ items rest) := by
    simp [items]
  rw [hi, doItems_append]
  simp [hd, devItems, Nat.not_lt.2 hn, subItems, doItems, doItem]

example : (createHalObjects exEnv [] [[.library "a", .devHandle "b", .sub 0 [.type "Fqd", .chan exChan]]]).2 = none ∧
    (createHalObjects exEnv [] [[.library "a", .devHandle "b", .sub 0 [.type "Fqd", .chan exChan]]]).1.length = 1 := by decide +kernel

end Verif.Hal.JsonParser
