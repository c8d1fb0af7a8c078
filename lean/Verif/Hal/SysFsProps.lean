import Verif.Hal.SysFs
import Mathlib.Data.List.Induction
namespace Verif.Hal.SysFs

/-! ### C95: digital pins over the file system of the kernel -/

/-- **C95 (partial).** The first read yields the level, inverted if configured, provided that the memory of the object happens to hold
the configured value.  Missing: every later read (`later_violated`), and the member (`inverted_violated`). -/
theorem first_read_partial (inverted level : Bool) (junk : Int) : ((In.new inverted inverted).get level junk).1 = (level ^^ inverted) := by
  cases inverted <;> cases level <;> simp [In.new, In.get, extract]

/-- **C95, violated.** Whatever the memory holds, one of the two configurations reads the wrong value. -/
theorem inverted_violated (memory level : Bool) (junk : Int) : ∃ inverted, ((In.new memory inverted).get level junk).1 ≠ (level ^^ inverted) := by
  refine ⟨!memory, ?_⟩
  cases memory <;> cases level <;> simp [In.new, In.get, extract]

/-- **C95, violated.** From the second read on the result does not depend on the level of the pin any more: for all levels of the pin
the same values are read. -/
theorem later_violated (memory inverted first : Bool) (junk : Int) (l : List (Bool × Int)) (levels : List Bool) (h : levels.length = l.length) :
    (In.new memory inverted).reads ((first, junk) :: l) = (In.new memory inverted).reads ((first, junk) :: levels.zip (l.map (·.2))) := by
  have key : ∀ (l : List (Bool × Int)) (levels : List Bool) (s : In), s.pos ≠ .start → levels.length = l.length →
      s.reads l = s.reads (levels.zip (l.map (·.2))) := by
    intro l
    induction l with
    | nil => intro levels s _ h; cases levels <;> simp_all
    | cons a l ih =>
      intro levels s hs h
      cases levels with
      | nil => simp at h
      | cons v levels =>
        have he : ∀ w : Bool, s.get w a.2 = s.get a.1 a.2 := by
          intro w
          unfold In.get extract
          cases hp : s.pos <;> simp_all
        have hp : (s.get a.1 a.2).2.pos ≠ .start := by
          unfold In.get extract
          cases hp : s.pos <;> simp_all
        simp only [List.map_cons, List.zip_cons_cons, In.reads, he v]
        rw [ih levels _ hp (by simpa using h)]
  simp only [In.reads]
  rw [key l levels _ _ h]
  cases first <;> simp [In.get, In.new, extract]

/-- The pin goes high after the first read; it is read as low. -/
example : (In.new false false).reads [(false, 0), (true, 0), (true, 0)] = [false, false, false] := by decide

/-- **C95, violated.** Setting an output has no effect: the pin keeps its level until the buffer of the stream is full. -/
theorem set_violated (size : Nat) (write : List Bool → Bool) (memory inverted pin : Bool) (l : List Bool) (h : l.length < size) :
    (l.foldl (Out.set size write) (Out.new memory inverted pin)).pin = pin := by
  have key : ∀ (l : List Bool) (s : Out), s.buffer.length + l.length < size → (l.foldl (Out.set size write) s).pin = s.pin := by
    intro l
    induction l with
    | nil => intro s _; rfl
    | cons v l ih =>
      intro s hs
      simp only [List.length_cons] at hs
      have e : Out.set size write s v = { s with buffer := s.buffer ++ [if s.inverted then !v else v] } := by
        simp only [Out.set]
        rw [if_pos (by simp; omega)]
      rw [List.foldl_cons, e, ih _ (by simp; omega)]
  exact key l _ (by simpa [Out.new] using h)

/-- The digit written for a value. -/
def digit (inverted value : Bool) : Bool := value ^^ inverted

/-- What setting an output really does, for every number of calls: the pin shows the kernel's reading of the last full buffer, that is, of `size` digits at
once, and nothing of the calls since. -/
theorem set_blocks (size : Nat) (hs : 0 < size) (write : List Bool → Bool) (inverted pin : Bool) (l : List Bool) :
    (l.foldl (Out.set size write) (Out.new inverted inverted pin)).pin =
      if l.length < size then pin else write (((l.map (digit inverted)).drop ((l.length / size - 1) * size)).take size) := by
  suffices H : ∀ l : List Bool, l.foldl (Out.set size write) (Out.new inverted inverted pin) =
      { inverted := inverted, buffer := (l.map (digit inverted)).drop (l.length / size * size),
        pin := if l.length < size then pin else write (((l.map (digit inverted)).drop ((l.length / size - 1) * size)).take size) } by
    rw [H]
  intro l
  induction l using List.reverseRecOn with
  | nil => simp [Out.new, hs]
  | append_singleton l v ih =>
    rw [List.foldl_append, ih]
    simp only [List.foldl_cons, List.foldl_nil, Out.set, List.length_append, List.length_singleton, List.length_drop, List.length_map, List.map_append,
      List.map_cons, List.map_nil]
    have hd : (if inverted then !v else v) = digit inverted v := by cases inverted <;> cases v <;> rfl
    rw [hd]
    have hdm := Nat.div_add_mod' l.length size
    have hlt := Nat.mod_lt l.length hs
    by_cases h : l.length % size + 1 < size
    · have hq : (l.length + 1) / size = l.length / size := by
        rw [Nat.div_eq_iff hs]; constructor <;> (try rw [Nat.add_mul]) <;> omega
      rw [if_pos (by omega), hq]
      congr 1
      · rw [List.drop_append_of_le_length (by simp; omega)]
      · by_cases h1 : l.length < size
        · have h0 : l.length / size = 0 := Nat.div_eq_of_lt h1
          have : l.length + 1 < size := by rw [Nat.mod_eq_of_lt h1] at h; exact h
          rw [if_pos h1, if_pos this]
        · have hpos : 0 < l.length / size := Nat.div_pos (by omega) hs
          have hm : (l.length / size - 1) * size + size = l.length / size * size := by
            rw [← Nat.succ_mul]; congr 1; omega
          rw [if_neg h1, if_neg (by omega), List.drop_append_of_le_length (by simp; omega), List.take_append_of_le_length (by simp; omega)]
    · have he : l.length + 1 = (l.length / size + 1) * size := by rw [Nat.add_mul]; omega
      have hq : (l.length + 1) / size = l.length / size + 1 := by rw [he]; exact Nat.mul_div_cancel _ hs
      rw [if_neg (by omega), hq]
      congr 1
      · rw [← he, List.drop_eq_nil_of_le (by simp)]
      · have : size ≤ l.length + 1 := by rw [he, Nat.add_mul]; omega
        rw [if_neg (by omega), Nat.add_sub_cancel, List.drop_append_of_le_length (by simp; omega)]
        rw [List.take_of_length_le (by simp; omega)]

example : ([true, false, false, true, true].foldl (Out.set 2 fun b => b.getLast?.getD false) (Out.new true true false)).pin = false := by
  rw [set_blocks 2 (by decide)]; decide

example : ([true, false, true].foldl (Out.set 8191 fun _ => true) (Out.new false false false)).pin = false := by decide

end Verif.Hal.SysFs
