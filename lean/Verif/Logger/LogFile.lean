import Verif.Logger.Header
import Mathlib.Data.List.Induction
/-!
Model of the log files of `StreamLogWriter` (src/logger/StreamLogWriter.cpp:26-36, 82-88) and of what is left of the messages if the program is killed.

A writer opens the file whose name is the given one with date and time of day appended, and truncates it; it writes at its own position, as the descriptor was not opened
for appending.  Every message is written to the file by the flush in line 87.  The stream for the screen is not flushed: the `std::endl` in line 84 goes into the stream of
the entry.  Simplified: a file which cannot be opened gets nothing, silently; reading the clock (`localtime`) gives the numbers of the date which are shown; `%X` is the
format of the C locale.
-/
namespace Verif.Logger.LogFile
open Verif.Logger.Header

/-- Name of the file, StreamLogWriter.cpp:31-32. -/
def fileName (pre : List Char) (t : Time) : List Char :=
  pre ++ ('.' :: number 4 t.year ++ '-' :: number 2 t.mon ++ '-' :: number 2 t.mday ++ '.' :: number 2 t.hour ++ ':' :: number 2 t.min ++ ':' :: number 2 t.sec)

/-- A writer: the name of its file (`none`: it could not be opened) and the position of its descriptor. -/
structure Writer where
  file : Option (List Char)
  pos : ℕ

/-- The file system (`none`: there is no such file) and the writers, in the order of their creation. -/
structure St where
  files : List Char → Option (List Char)
  writers : List Writer

inductive Op where
  /-- the constructor with a log file at a time; `ok`: the file can be opened -/
  | create (pre : List Char) (t : Time) (ok : Bool)
  /-- `end` of a message of a writer: its text -/
  | write (w : ℕ) (text : List Char)

def setFile (f : List Char → Option (List Char)) (n c : List Char) : List Char → Option (List Char) := fun m => if m = n then some c else f m

/-- `write(2)` at a position: a gap behind the end of the file is filled with zero bytes. -/
def writeAt (c : List Char) (pos : ℕ) (text : List Char) : List Char :=
  c.take pos ++ List.replicate (pos - c.length) '\x00' ++ text ++ c.drop (pos + text.length)

/-- StreamLogWriter.cpp:26-34 and 86-87. -/
def step (s : St) : Op → St
  | .create pre t ok =>
    if ok then { files := setFile s.files (fileName pre t) [], writers := s.writers ++ [⟨some (fileName pre t), 0⟩] }
    else { s with writers := s.writers ++ [⟨none, 0⟩] }
  | .write w text =>
    match s.writers[w]? with
    | some ⟨some n, pos⟩ =>
      { files := setFile s.files n (writeAt ((s.files n).getD []) pos text), writers := s.writers.set w ⟨some n, pos + text.length⟩ }
    | _ => s

def run (s : St) (ops : List Op) : St := ops.foldl step s

/-! ### Specification -/

/-- The files opened in a history, by the number of the writer. -/
def opened : List Op → List (Option (List Char))
  | [] => []
  | .create pre t ok :: ops => (if ok then some (fileName pre t) else none) :: opened ops
  | .write _ _ :: ops => opened ops

/-- The messages of a writer, one after the other. -/
def messages (w : ℕ) : List Op → List Char
  | [] => []
  | .write v text :: ops => (if v = w then text else []) ++ messages w ops
  | _ :: ops => messages w ops

/-- Messages are written by writers which exist. -/
def WellFormed : ℕ → List Op → Prop
  | _, [] => True
  | n, .create _ _ _ :: ops => WellFormed (n + 1) ops
  | n, .write w _ :: ops => w < n ∧ WellFormed n ops

/-- No two writers opened the same file. -/
def Distinct (l : List (Option (List Char))) : Prop := ∀ (i j : ℕ) (n : List Char), l[i]? = some (some n) → l[j]? = some (some n) → i = j

/-! ### C344 -/

theorem writeAt_end (c text : List Char) : writeAt c c.length text = c ++ text := by simp [writeAt]

theorem opened_append (a b : List Op) : opened (a ++ b) = opened a ++ opened b := by
  induction a with
  | nil => rfl
  | cons x a ih => cases x <;> simp [opened, ih]

theorem messages_append (w : ℕ) (a b : List Op) : messages w (a ++ b) = messages w a ++ messages w b := by
  induction a with
  | nil => rfl
  | cons x a ih => cases x <;> simp [messages, ih]

theorem wellFormed_append (a b : List Op) : ∀ n, WellFormed n (a ++ b) ↔ WellFormed n a ∧ WellFormed (n + (opened a).length) b := by
  induction a with
  | nil => intro n; simp [WellFormed, opened]
  | cons x a ih =>
    intro n
    cases x with
    | create pre t ok => simp [WellFormed, opened, ih, Nat.add_assoc, Nat.add_comm]
    | write w text => simp [WellFormed, opened, ih, and_assoc]

theorem messages_none (w : ℕ) (ops : List Op) : ∀ n, WellFormed n ops → n + (opened ops).length ≤ w → messages w ops = [] := by
  induction ops with
  | nil => intros; rfl
  | cons x ops ih =>
    intro n h hw
    cases x with
    | create pre t ok => exact ih (n + 1) h (by simp [opened] at hw; omega)
    | write v text =>
      obtain ⟨h1, h2⟩ := h
      simp only [opened] at hw
      rw [messages, if_neg (by omega), ih n h2 hw]
      rfl

/-- Each writer which opened its file stands at its end, and the file contains its messages. -/
def Inv (ops : List Op) (s : St) : Prop :=
  s.writers.map Writer.file = opened ops ∧
  ∀ (i : ℕ) (n : List Char), (opened ops)[i]? = some (some n) → s.files n = some (messages i ops) ∧ s.writers[i]? = some ⟨some n, (messages i ops).length⟩

theorem run_inv (f : List Char → Option (List Char)) (ops : List Op) (hw : WellFormed 0 ops) (hd : Distinct (opened ops)) : Inv ops (run ⟨f, []⟩ ops) := by
  induction ops using List.reverseRecOn with
  | nil => exact ⟨rfl, by simp [opened]⟩
  | append_singleton ops x ih =>
    rw [wellFormed_append] at hw
    obtain ⟨hw1, hw2⟩ := hw
    have hd1 : Distinct (opened ops) := by
      intro i j n hi hj
      refine hd i j n ?_ ?_ <;> rw [opened_append]
      · rw [List.getElem?_append_left (List.getElem?_eq_some_iff.1 hi).1]; exact hi
      · rw [List.getElem?_append_left (List.getElem?_eq_some_iff.1 hj).1]; exact hj
    obtain ⟨h1, h2⟩ := ih hw1 hd1
    have hlen : (run ⟨f, []⟩ ops).writers.length = (opened ops).length := by rw [← h1, List.length_map]
    rw [run, List.foldl_append, List.foldl_cons, List.foldl_nil, ← run]
    generalize run ⟨f, []⟩ ops = s at h1 h2 hlen
    cases x with
    | create pre t ok =>
      have hm : ∀ i, messages i (ops ++ [.create pre t ok]) = messages i ops := fun i => by rw [messages_append]; simp [messages]
      cases ok with
      | false =>
        refine ⟨by simp [step, opened_append, opened, h1], fun i n hi => ?_⟩
        rw [opened_append] at hi
        have hil : i < (opened ops).length := by
          by_contra hge
          rw [List.getElem?_append_right (by omega)] at hi
          simp only [opened, Bool.false_eq_true, if_false] at hi
          cases hk : i - (opened ops).length <;> rw [hk] at hi <;> simp at hi
        rw [List.getElem?_append_left hil] at hi
        obtain ⟨a1, a2⟩ := h2 i n hi
        rw [hm]
        refine ⟨a1, ?_⟩
        simp only [step, Bool.false_eq_true, if_false]
        rw [List.getElem?_append_left (by omega)]
        exact a2
      | true =>
        refine ⟨by simp [step, opened_append, opened, h1], fun i n hi => ?_⟩
        have hi0 := hi
        rw [opened_append] at hi
        rw [hm]
        by_cases hil : i < (opened ops).length
        · rw [List.getElem?_append_left hil] at hi
          obtain ⟨a1, a2⟩ := h2 i n hi
          have hne : n ≠ fileName pre t := by
            rintro rfl
            have := hd i (opened ops).length _ hi0 (by rw [opened_append]; simp [opened])
            omega
          simp only [step, if_true]
          refine ⟨by rw [setFile, if_neg hne]; exact a1, ?_⟩
          rw [List.getElem?_append_left (by omega)]
          exact a2
        · rw [List.getElem?_append_right (by omega)] at hi
          have hk : i - (opened ops).length = 0 := by
            by_contra hk
            obtain ⟨k, hk⟩ := Nat.exists_eq_succ_of_ne_zero hk
            rw [hk] at hi
            simp [opened] at hi
          have hie : i = (opened ops).length := by omega
          rw [hk] at hi
          simp only [opened, if_true, List.getElem?_cons_zero, Option.some.injEq] at hi
          have hz := messages_none i ops 0 hw1 (by omega)
          rw [hz]
          simp only [step, if_true]
          refine ⟨by rw [setFile, if_pos hi.symm], ?_⟩
          rw [List.getElem?_append_right (by omega), hie, hlen, Nat.sub_self, ← hi]
          rfl
    | write w text =>
      have ho : opened (ops ++ [.write w text]) = opened ops := by rw [opened_append]; simp [opened]
      have hwl : w < s.writers.length := by
        have := hw2.1
        omega
      rw [Inv, ho]
      have hm : ∀ i, messages i (ops ++ [.write w text]) = messages i ops ++ if w = i then text else [] := fun i => by
        rw [messages_append]; simp [messages]
      obtain ⟨wr, hwr⟩ : ∃ wr, s.writers[w]? = some wr := ⟨_, List.getElem?_eq_getElem hwl⟩
      obtain ⟨fl, pos⟩ := wr
      have hof : (opened ops)[w]? = some fl := by rw [← h1, List.getElem?_map, hwr]; rfl
      cases fl with
      | none =>
        have hs : step s (.write w text) = s := by simp only [step, hwr]
        rw [hs]
        refine ⟨h1, fun i n hi => ?_⟩
        have hne : w ≠ i := by rintro rfl; rw [hof] at hi; simp at hi
        rw [hm, if_neg hne, List.append_nil]
        exact h2 i n hi
      | some n =>
        have hs : step s (.write w text) =
            { files := setFile s.files n (writeAt ((s.files n).getD []) pos text), writers := s.writers.set w ⟨some n, pos + text.length⟩ } := by
          simp only [step, hwr]
        rw [hs]
        obtain ⟨b1, b2⟩ := h2 w n hof
        rw [hwr] at b2
        have hpos : pos = (messages w ops).length := by
          have := Option.some.inj b2
          exact congrArg Writer.pos this
        refine ⟨?_, fun i m hi => ?_⟩
        · rw [List.map_set]
          simp only
          rw [h1]
          apply List.ext_getElem?
          intro k
          rw [List.getElem?_set]
          split
          · rename_i hk
            subst hk
            rw [hof, if_pos (List.getElem?_eq_some_iff.1 hof).1]
          · rfl
        · rw [hm]
          simp only
          by_cases hiw : w = i
          · subst hiw
            rw [hof] at hi
            have hmn : n = m := by simpa using hi
            subst hmn
            rw [if_pos rfl, setFile, if_pos rfl, b1, Option.getD_some, hpos, writeAt_end, List.getElem?_set_self hwl, List.length_append]
            exact ⟨rfl, rfl⟩
          · obtain ⟨a1, a2⟩ := h2 i m hi
            have hne : m ≠ n := by
              rintro rfl
              exact hiw (hd1 w i m hof hi)
            rw [if_neg hiw, List.append_nil, setFile, if_neg hne, List.getElem?_set_ne hiw]
            exact ⟨a1, a2⟩

/-- **C344 (partial).** As long as no two writers have the same file, at every time the file of each writer contains exactly its ended messages in their order, whatever
was in the files before.  The program may be killed at any time.  Missing: writers with the same file, see `truncated_violated`. -/
theorem file_exact_partial (f : List Char → Option (List Char)) (ops : List Op) (hw : WellFormed 0 ops) (hd : Distinct (opened ops)) (i : ℕ) (n : List Char)
    (hi : (opened ops)[i]? = some (some n)) : (run ⟨f, []⟩ ops).files n = some (messages i ops) := ((run_inv f ops hw hd).2 i n hi).1

theorem time_inj (t t' : Time) (h : Valid t) (h' : Valid t') (pre pre' : List Char) (e : fileName pre t = fileName pre' t') :
    pre = pre' ∧ { t with ms := 0 } = { t' with ms := 0 } := by
  have len : ∀ t : Time, Valid t → ('.' :: number 4 t.year ++ '-' :: number 2 t.mon ++ '-' :: number 2 t.mday ++ '.' :: number 2 t.hour ++ ':' :: number 2 t.min ++
      ':' :: number 2 t.sec).length = 20 := by
    intro t h
    have h1 := number_length 4 t.year (by decide) (by simpa using h.year)
    have h2 := number_length 2 t.mon (by decide) (by simpa using h.mon)
    have h3 := number_length 2 t.mday (by decide) (by simpa using h.mday)
    have h4 := number_length 2 t.hour (by decide) (by simpa using h.hour)
    have h5 := number_length 2 t.min (by decide) (by simpa using h.min)
    have h6 := number_length 2 t.sec (by decide) (by simpa using h.sec)
    simp [h1, h2, h3, h4, h5, h6]
  obtain ⟨e1, e⟩ := List.append_inj' e (by rw [len t h, len t' h'])
  have n : ∀ {w a b : ℕ} {x y : List Char}, 0 < w → a < 10 ^ w → b < 10 ^ w → number w a ++ x = number w b ++ y → a = b ∧ x = y := by
    intro w a b x y hw ha hb e
    obtain ⟨e1, e2⟩ := List.append_inj e (by rw [number_length w a hw ha, number_length w b hw hb])
    exact ⟨number_inj e1, e2⟩
  have tl : ∀ {c : Char} {x y : List Char}, c :: x = c :: y → x = y := fun e => (List.cons.inj e).2
  refine ⟨e1, ?_⟩
  simp only [List.append_assoc, List.cons_append] at e
  obtain ⟨e1, e⟩ := n (by decide) (by simpa using h.year) (by simpa using h'.year) (tl e)
  obtain ⟨e2, e⟩ := n (by decide) (by simpa using h.mon) (by simpa using h'.mon) (tl e)
  obtain ⟨e3, e⟩ := n (by decide) (by simpa using h.mday) (by simpa using h'.mday) (tl e)
  obtain ⟨e4, e⟩ := n (by decide) (by simpa using h.hour) (by simpa using h'.hour) (tl e)
  obtain ⟨e5, e⟩ := n (by decide) (by simpa using h.min) (by simpa using h'.min) (tl e)
  have e6 := number_inj (tl e)
  cases t; cases t'
  simp only at e1 e2 e3 e4 e5 e6
  subst e1 e2 e3 e4 e5 e6
  rfl

/-- **C344.** Two writers have the same file exactly if the given names are the same and they are created in the same second. -/
theorem name_iff (t t' : Time) (h : Valid t) (h' : Valid t') (pre pre' : List Char) :
    fileName pre t = fileName pre' t' ↔ pre = pre' ∧ { t with ms := 0 } = { t' with ms := 0 } := by
  constructor
  · exact time_inj t t' h h' pre pre'
  · rintro ⟨rfl, e⟩
    have : fileName pre { t with ms := 0 } = fileName pre { t' with ms := 0 } := by rw [e]
    exact this

example : fileName ['m'] now ≠ fileName ['m'] { now with sec := 4 } := fun e => by
  have := ((name_iff now { now with sec := 4 } now_valid ⟨by decide, by decide, by decide, by decide, by decide, by decide, by decide⟩ ['m'] ['m']).1 e).2
  revert this; decide

/-- **C344, violated.** A second writer with the same name in the same second empties the file of the first one: a message which was written is lost, and the next message of the
first writer comes after as many zero bytes, on top of what the second one wrote there. -/
theorem truncated_violated (f : List Char → Option (List Char)) (pre : List Char) (t t' : Time) (ht : { t with ms := 0 } = { t' with ms := 0 }) (x y : List Char) :
    (run ⟨f, []⟩ [.create pre t true, .write 0 x, .create pre t' true]).files (fileName pre t) = some [] ∧
    (run ⟨f, []⟩ [.create pre t true, .write 0 x, .create pre t' true, .write 0 y]).files (fileName pre t) = some (List.replicate x.length '\x00' ++ y) := by
  have e : fileName pre t' = fileName pre t := by
    have : fileName pre { t with ms := 0 } = fileName pre { t' with ms := 0 } := by rw [ht]
    exact this.symm
  constructor
  · simp [run, step, setFile, e]
  · simp [run, step, setFile, e, writeAt]

example : (run ⟨fun _ => none, []⟩ [.create ['m'] now true, .write 0 ['o', 'n'], .create ['m'] now true, .write 0 ['u', 'p']]).files (fileName ['m'] now) =
    some ['\x00', '\x00', 'u', 'p'] := (truncated_violated _ _ now now rfl _ _).2

example : (run ⟨fun _ => none, []⟩ [.create ['m'] now true, .create ['n'] now true, .write 0 ['a'], .write 1 ['b'], .write 0 ['c']]).files (fileName ['m'] now) =
    some ['a', 'c'] := by decide +kernel

/-- **C344, violated.** After that the first writer writes into the messages of the second one: `y` replaces as many characters of `z` behind the first `x.length` ones. -/
theorem overwritten_violated (f : List Char → Option (List Char)) (pre : List Char) (t t' : Time) (ht : { t with ms := 0 } = { t' with ms := 0 }) (x y z : List Char)
    (hz : x.length + y.length ≤ z.length) :
    ∃ a b c, z = a ++ b ++ c ∧ a.length = x.length ∧ b.length = y.length ∧
      (run ⟨f, []⟩ [.create pre t true, .write 0 x, .create pre t' true, .write 1 z, .write 0 y]).files (fileName pre t) = some (a ++ y ++ c) := by
  have e : fileName pre t' = fileName pre t := by
    have : fileName pre { t with ms := 0 } = fileName pre { t' with ms := 0 } := by rw [ht]
    exact this.symm
  refine ⟨z.take x.length, (z.drop x.length).take y.length, z.drop (x.length + y.length), ?_, ?_, ?_, ?_⟩
  · rw [List.append_assoc, ← List.drop_drop, List.take_append_drop, List.take_append_drop]
  · rw [List.length_take]; omega
  · rw [List.length_take, List.length_drop]; omega
  · have h0 : x.length - z.length = 0 := by omega
    simp [run, step, setFile, e, writeAt, h0]

example : (run ⟨fun _ => none, []⟩ [.create ['m'] now true, .write 0 ['o', 'n'], .create ['m'] now true, .write 1 ['s', 't', 'o', 'p', '!'], .write 0 ['u', 'p']]).files
    (fileName ['m'] now) = some ['s', 't', 'u', 'p', '!'] := by decide +kernel

/-! ### C345: a program which is killed -/

/-- The stream for the screen, with a buffer of `cap` characters: what has reached the screen and what is in the buffer.  A terminal has a buffer which is emptied at the
end of each line (`lines`). -/
structure Screen where
  shown : List Char
  pending : List Char
deriving DecidableEq

/-- `out << os.str()`, StreamLogWriter.cpp:85: a character goes into the buffer, which is emptied when it is full, or at the end of a line. -/
def Screen.put (cap : ℕ) (lines : Bool) (s : Screen) (c : Char) : Screen :=
  if s.pending.length + 1 ≥ cap ∨ (lines = true ∧ c = '\n') then ⟨s.shown ++ s.pending ++ [c], []⟩ else { s with pending := s.pending ++ [c] }

/-- The texts of the ended messages (`message`), one after the other. -/
def Screen.run (cap : ℕ) (lines : Bool) (msgs : List (List Char)) : Screen := msgs.flatten.foldl (Screen.put cap lines) ⟨[], []⟩

theorem screen_all (cap : ℕ) (lines : Bool) (l : List Char) : ∀ s : Screen,
    (l.foldl (Screen.put cap lines) s).shown ++ (l.foldl (Screen.put cap lines) s).pending = s.shown ++ s.pending ++ l := by
  induction l with
  | nil => intro s; simp
  | cons c l ih =>
    intro s
    rw [List.foldl_cons, ih]
    unfold Screen.put
    split <;> simp

/-- Nothing is shown while the buffer of a pipe or of a file is not full. -/
theorem nothing_shown (cap : ℕ) (l : List Char) : ∀ s : Screen, s.pending.length + l.length < cap →
    l.foldl (Screen.put cap false) s = ⟨s.shown, s.pending ++ l⟩ := by
  induction l with
  | nil => intro s _; simp
  | cons c l ih =>
    intro s h
    rw [List.length_cons] at h
    have : Screen.put cap false s c = ⟨s.shown, s.pending ++ [c]⟩ := by
      unfold Screen.put
      rw [if_neg]
      simp
      omega
    rw [List.foldl_cons, this, ih _ (by simp; omega)]
    simp

/-- **C345, violated.** If the screen is a pipe or a file, all messages are lost when the program is killed, as long as they fit into the buffer. -/
theorem killed_violated (cap : ℕ) (msgs : List (List Char)) (h : msgs.flatten.length < cap) : (Screen.run cap false msgs).shown = [] := by
  rw [Screen.run, nothing_shown cap _ _ (by simpa using h)]

example : (Screen.run 4096 false [message now 83 .fatal ['d', 'o', 'w', 'n'] []]).shown = [] :=
  killed_violated 4096 _ (by decide +kernel)

/-- **C345 (partial).** On a terminal every ended message has been shown, at once.  Missing: other streams, see `killed_violated`. -/
theorem terminal_partial (cap : ℕ) (msgs : List (List Char)) (h : ∀ m ∈ msgs, ∃ l, m = l ++ ['\n']) :
    Screen.run cap true msgs = ⟨msgs.flatten, []⟩ := by
  have hp : (Screen.run cap true msgs).pending = [] := by
    rcases List.eq_nil_or_concat msgs with rfl | ⟨ms, m, rfl⟩
    · rfl
    · obtain ⟨l, rfl⟩ := h m (by simp)
      rw [Screen.run, List.concat_eq_append, List.flatten_append, List.flatten_singleton, ← List.append_assoc, List.foldl_append, List.foldl_cons, List.foldl_nil]
      simp [Screen.put]
  have ha := screen_all cap true msgs.flatten ⟨[], []⟩
  rw [← Screen.run, hp] at ha
  have hs : (Screen.run cap true msgs).shown = msgs.flatten := by simpa using ha
  cases hr : Screen.run cap true msgs with
  | mk a b => rw [hr] at hs hp; simp only at hs hp; rw [hs, hp]

example : ∀ m ∈ [message now 83 .fatal ['d', 'o', 'w', 'n'] [], message now 0 .info [] [['x']]], ∃ l, m = l ++ ['\n'] := by
  intro m hm
  simp only [List.mem_cons, List.not_mem_nil, or_false] at hm
  rcases hm with rfl | rfl <;> exact ⟨_, rfl⟩

/-- **C345.** At every time at most the last `cap - 1` characters are missing on the screen. -/
theorem missing_bounded (cap : ℕ) (hc : 0 < cap) (lines : Bool) (msgs : List (List Char)) :
    (Screen.run cap lines msgs).shown ++ (Screen.run cap lines msgs).pending = msgs.flatten ∧ (Screen.run cap lines msgs).pending.length < cap := by
  refine ⟨by have := screen_all cap lines msgs.flatten ⟨[], []⟩; simpa [Screen.run] using this, ?_⟩
  have : ∀ (l : List Char) (s : Screen), s.pending.length < cap → (l.foldl (Screen.put cap lines) s).pending.length < cap := by
    intro l
    induction l with
    | nil => intro s h; exact h
    | cons c l ih =>
      intro s h
      rw [List.foldl_cons]
      apply ih
      unfold Screen.put
      split
      · exact hc
      · rename_i hn
        rw [List.length_append, List.length_singleton]
        omega
  exact this _ _ hc

example : (Screen.run 3 false [['a', 'b'], ['c', 'd']]) = ⟨['a', 'b', 'c'], ['d']⟩ := by decide

end Verif.Logger.LogFile
