import Verif.Hal.XBox
import Mathlib.Algebra.Order.Field.Basic
import Mathlib.Data.Rat.Cast.Order
import Mathlib.Data.Int.Cast.Lemmas
import Mathlib.Tactic.NormNum
import Mathlib.Tactic.Linarith
set_option linter.unusedSectionVars false
namespace Verif.Hal.XBox

variable {K : Type} [Field K]

/-! ### Specification (histories are newest first) -/

/-- The values reported for button `b`, newest first. -/
def presses (b : Nat) : List Op → List Bool
  | [] => []
  | .read e :: h => if (e.type = 1 ∨ e.type = 129) ∧ e.number = b then decide (e.value ≠ 0) :: presses b h else presses b h
  | .fail :: h => presses b h

/-- The values reported for axis `n`, newest first. -/
def moves (n : Nat) : List Op → List Int
  | [] => []
  | .read e :: h => if (e.type = 2 ∨ e.type = 130) ∧ e.number = n then e.value :: moves n h else moves n h
  | .fail :: h => moves n h

/-- The calls expected: one for every event which is not an initial one, newest first. -/
def expected : List Op → List (Call K)
  | [] => []
  | .read e :: h =>
    if e.type = 1 ∧ e.number < 8 then .button e.number (decide (e.value ≠ 0)) :: expected h
    else if e.type = 2 ∧ e.number < 8 then .axis e.number ((e.value : K) / 32767) :: expected h
    else expected h
  | .fail :: h => expected h

/-! ### C88 -/

/-- What the state is after any history without failed reads. -/
structure Rel (h : List Op) (s : St K) : Prop where
  last : s.last = s.current
  state : ∀ b < 8, s.current.state b = (presses b h).head?.getD false
  down : ∀ b < 8, s.current.down b = ((presses b h).head?.getD false && !((presses b h).tail.head?.getD false))
  up : ∀ b < 8, s.current.up b = (!((presses b h).head?.getD false) && (presses b h).tail.head?.getD false)
  axis : ∀ n < 8, s.current.axis n = (((moves n h).head?.getD 0 : Int) : K) / 32767
  calls : s.calls = expected h

theorem rel_process (h : List Op) (s : St K) (hr : Rel h s) (e : Ev) : Rel (.read e :: h) (process s e) := by
  obtain ⟨h0, h1, h2, h3, h4, h5⟩ := hr
  by_cases hb : e.type = 1 ∨ e.type = 129
  · have hna : ¬ (e.type = 2 ∨ e.type = 130) := by omega
    by_cases hn : e.number < 8
    · refine ⟨rfl, ?_, ?_, ?_, ?_, ?_⟩
      · intro b hb8
        by_cases hbe : b = e.number
        · subst hbe; simp [process, hb, hn, upd, presses]
        · simp [process, hb, hn, upd, presses, hbe, Ne.symm hbe, h1 b hb8]
      · intro b hb8
        by_cases hbe : b = e.number
        · subst hbe; simp [process, hb, hn, upd, presses, h0, h1 _ hb8]
        · simp [process, hb, hn, upd, presses, hbe, Ne.symm hbe, h2 b hb8]
      · intro b hb8
        by_cases hbe : b = e.number
        · subst hbe; simp [process, hb, hn, upd, presses, h0, h1 _ hb8]
        · simp [process, hb, hn, upd, presses, hbe, Ne.symm hbe, h3 b hb8]
      · intro n hn8; simp [process, hb, hn, moves, hna, h4 n hn8]
      · by_cases h1' : e.type = 1
        · simp [process, hn, expected, h1', h5]
        · have h129 : e.type = 129 := by omega
          simp [process, hn, expected, h129, h5]
    · have hne : ∀ b < 8, e.number ≠ b := by intro b hb8; omega
      refine ⟨rfl, ?_, ?_, ?_, ?_, ?_⟩
      · intro b hb8; simp [process, hb, hn, presses, hne b hb8, h1 b hb8]
      · intro b hb8; simp [process, hb, hn, presses, hne b hb8, h2 b hb8]
      · intro b hb8; simp [process, hb, hn, presses, hne b hb8, h3 b hb8]
      · intro n hn8; simp [process, hb, hn, moves, hna, h4 n hn8]
      · simp [process, hb, hn, expected, h5]
  · have hnb : ∀ b, presses b (.read e :: h) = presses b h := by intro b; simp [presses, hb]
    have h1t : e.type ≠ 1 := by omega
    by_cases ha : e.type = 2 ∨ e.type = 130
    · by_cases hn : e.number < 8
      · refine ⟨rfl, ?_, ?_, ?_, ?_, ?_⟩
        · intro b hb8; rw [hnb]; simp [process, hb, ha, hn, h1 b hb8]
        · intro b hb8; rw [hnb]; simp [process, hb, ha, hn, h2 b hb8]
        · intro b hb8; rw [hnb]; simp [process, hb, ha, hn, h3 b hb8]
        · intro n hn8
          by_cases hne : n = e.number
          · subst hne; simp [process, hb, ha, hn, upd, moves]
          · simp [process, hb, ha, hn, upd, moves, hne, Ne.symm hne, h4 n hn8]
        · by_cases h2' : e.type = 2
          · simp [process, hn, expected, h2', h5]
          · have h130 : e.type = 130 := by omega
            simp [process, hn, expected, h130, h5]
      · have hne : ∀ b < 8, e.number ≠ b := by intro b hb8; omega
        refine ⟨rfl, ?_, ?_, ?_, ?_, ?_⟩
        · intro b hb8; rw [hnb]; simp [process, hb, ha, hn, h1 b hb8]
        · intro b hb8; rw [hnb]; simp [process, hb, ha, hn, h2 b hb8]
        · intro b hb8; rw [hnb]; simp [process, hb, ha, hn, h3 b hb8]
        · intro n hn8; simp [process, hb, ha, hn, moves, hne n hn8, h4 n hn8]
        · simp [process, hb, ha, hn, expected, h5]
    · have h2t : e.type ≠ 2 := by omega
      refine ⟨rfl, ?_, ?_, ?_, ?_, ?_⟩
      · intro b hb8; rw [hnb]; simp [process, hb, ha, h1 b hb8]
      · intro b hb8; rw [hnb]; simp [process, hb, ha, h2 b hb8]
      · intro b hb8; rw [hnb]; simp [process, hb, ha, h3 b hb8]
      · intro n hn8; simp [process, hb, ha, moves, h4 n hn8]
      · have h129 : e.type ≠ 129 := by omega
        have h130 : e.type ≠ 130 := by omega
        simp [process, expected, h1t, h2t, h129, h130, h5]

theorem rel_after (h : List Op) (hf : .fail ∉ h) : ∃ s : St K, after h = some s ∧ Rel h s := by
  induction h with
  | nil => exact ⟨init, rfl, rfl, by simp [init, Pad.zero, presses], by simp [init, Pad.zero, presses],
      by simp [init, Pad.zero, presses], by simp [init, Pad.zero, moves], rfl⟩
  | cons op h ih =>
    obtain ⟨s, h1, h2⟩ := ih (fun hm => hf (by simp [hm]))
    cases op with
    | fail => simp at hf
    | read e => exact ⟨process s e, by simp [after, h1, step], rel_process h s h2 e⟩

/-- **C88 (partial).** After any sequence of events of the controller: every button has the state last reported; its `down` flag is
set exactly if it was last reported pressed and before that released, `up` vice versa; and the functions of the user were called
once for every event which is not an initial one, in order.  Missing: reads which fail, see `failed_read_repeats`. -/
theorem buttons_partial (h : List Op) (hf : .fail ∉ h) :
    ∃ s : St K, after h = some s ∧ s.calls = expected h ∧ ∀ b < 8,
      s.current.state b = (presses b h).head?.getD false ∧
      (s.current.down b = true ↔ (presses b h).head? = some true ∧ (presses b h).tail.head? ≠ some true) ∧
      (s.current.up b = true ↔ (presses b h).head? = some false ∧ (presses b h).tail.head? = some true) := by
  obtain ⟨s, h1, h2⟩ := rel_after (K := K) h hf
  refine ⟨s, h1, h2.calls, fun b hb => ⟨h2.state b hb, ?_, ?_⟩⟩
  · rw [h2.down b hb]
    rcases presses b h with _ | ⟨a, _ | ⟨c, l⟩⟩ <;> simp
  · rw [h2.up b hb]
    rcases presses b h with _ | ⟨a, _ | ⟨c, l⟩⟩ <;> simp


example : Op.fail ∉ ([.read ⟨1, 3, 0⟩, .read ⟨2, 4, 32767⟩, .read ⟨1, 3, 1⟩] : List Op) ∧
    presses 3 [.read ⟨1, 3, 0⟩, .read ⟨2, 4, 32767⟩, .read ⟨1, 3, 1⟩] = [false, true] := by decide

/-- **C88, states and axes.** Failed reads do not change states and axes: after any history with at least one event read first, button
states and axes are those last reported. -/
theorem state_and_axes (h : List Op) (e0 : Ev) :
    ∃ s : St K, after (h ++ [.read e0]) = some s ∧
      (∀ b < 8, s.current.state b = (presses b (h ++ [.read e0])).head?.getD false) ∧
      (∀ n < 8, s.current.axis n = (((moves n (h ++ [.read e0])).head?.getD 0 : Int) : K) / 32767) := by
  suffices H : ∃ (s : St K) (e : Ev), after (h ++ [.read e0]) = some s ∧ s.e = some e ∧
      (∀ b < 8, s.current.state b = (presses b (h ++ [.read e0])).head?.getD false) ∧
      (∀ n < 8, s.current.axis n = (((moves n (h ++ [.read e0])).head?.getD 0 : Int) : K) / 32767) ∧
      (∀ b < 8, (e.type = 1 ∨ e.type = 129) → e.number = b → s.current.state b = decide (e.value ≠ 0)) ∧
      (∀ n < 8, (e.type = 2 ∨ e.type = 130) → e.number = n → s.current.axis n = (e.value : K) / 32767) by
    obtain ⟨s, e, a, _, b, c, _⟩ := H; exact ⟨s, a, b, c⟩
  have hproc : ∀ (s : St K) (e : Ev),
      (∀ b, (process s e).current.state b =
        if (e.type = 1 ∨ e.type = 129) ∧ e.number = b ∧ b < 8 then decide (e.value ≠ 0) else s.current.state b) ∧
      (∀ n, (process s e).current.axis n =
        if (e.type = 2 ∨ e.type = 130) ∧ e.number = n ∧ n < 8 then (e.value : K) / 32767 else s.current.axis n) := by
    intro s e
    by_cases hb : e.type = 1 ∨ e.type = 129
    · have hna : ¬ (e.type = 2 ∨ e.type = 130) := by omega
      by_cases hn : e.number < 8
      · refine ⟨fun b => ?_, fun n => by simp [process, hb, hn, hna]⟩
        by_cases hbe : e.number = b
        · subst hbe; simp [process, hb, hn, upd]
        · simp [process, hb, hn, upd, hbe, Ne.symm hbe]
      · refine ⟨fun b => ?_, fun n => by simp [process, hb, hn, hna]⟩
        by_cases hbe : e.number = b
        · subst hbe; simp [process, hb, hn]
        · simp [process, hb, hn, hbe]
    · by_cases ha : e.type = 2 ∨ e.type = 130
      · by_cases hn : e.number < 8
        · refine ⟨fun b => by simp [process, hb, ha, hn], fun n => ?_⟩
          by_cases hne : e.number = n
          · subst hne; simp [process, hb, ha, hn, upd]
          · simp [process, hb, ha, hn, upd, hne, Ne.symm hne]
        · refine ⟨fun b => by simp [process, hb, ha, hn], fun n => ?_⟩
          by_cases hne : e.number = n
          · subst hne; simp [process, hb, ha, hn]
          · simp [process, hb, ha, hn, hne]
      · exact ⟨fun b => by simp [process, hb, ha], fun n => by simp [process, hb, ha]⟩
  have hgood : ∀ (h : List Op) (s : St K) (e : Ev),
      (∀ b < 8, s.current.state b = (presses b h).head?.getD false) →
      (∀ n < 8, s.current.axis n = (((moves n h).head?.getD 0 : Int) : K) / 32767) →
      (∀ b < 8, (process s e).current.state b = (presses b (.read e :: h)).head?.getD false) ∧
      (∀ n < 8, (process s e).current.axis n = (((moves n (.read e :: h)).head?.getD 0 : Int) : K) / 32767) := by
    intro h s e h1 h2
    obtain ⟨p1, p2⟩ := hproc s e
    constructor
    · intro b hb; rw [p1 b]
      by_cases hc : (e.type = 1 ∨ e.type = 129) ∧ e.number = b
      · simp [presses, hc, hb]
      · have : ¬ ((e.type = 1 ∨ e.type = 129) ∧ e.number = b ∧ b < 8) := fun h => hc ⟨h.1, h.2.1⟩
        simp only [presses, hc, this, if_false, h1 b hb]
    · intro n hn; rw [p2 n]
      by_cases hc : (e.type = 2 ∨ e.type = 130) ∧ e.number = n
      · simp [moves, hc, hn]
      · have : ¬ ((e.type = 2 ∨ e.type = 130) ∧ e.number = n ∧ n < 8) := fun h => hc ⟨h.1, h.2.1⟩
        simp only [moves, hc, this, if_false, h2 n hn]
  have hown : ∀ (s : St K) (e : Ev), (process s e).e = some e ∧
      (∀ b < 8, (e.type = 1 ∨ e.type = 129) → e.number = b → (process s e).current.state b = decide (e.value ≠ 0)) ∧
      (∀ n < 8, (e.type = 2 ∨ e.type = 130) → e.number = n → (process s e).current.axis n = (e.value : K) / 32767) := by
    intro s e
    obtain ⟨p1, p2⟩ := hproc s e
    refine ⟨rfl, ?_, ?_⟩
    · intro b hb ht hn; rw [p1 b, if_pos ⟨ht, hn, hb⟩]
    · intro n hn ht he; rw [p2 n, if_pos ⟨ht, he, hn⟩]
  induction h with
  | nil =>
    obtain ⟨g1, g2⟩ := hgood [] init e0 (by simp [init, Pad.zero, presses]) (by simp [init, Pad.zero, moves])
    exact ⟨process init e0, e0, rfl, (hown _ _).1, g1, g2, (hown _ _).2⟩
  | cons op h ih =>
    obtain ⟨s, e, i1, i2, i3, i4, i5, i6⟩ := ih
    cases op with
    | read e' =>
      obtain ⟨g1, g2⟩ := hgood (h ++ [.read e0]) s e' i3 i4
      exact ⟨process s e', e', by simp [after, i1, step], (hown _ _).1, g1, g2, (hown _ _).2⟩
    | fail =>
      obtain ⟨p1, p2⟩ := hproc s e
      refine ⟨process s e, e, by simp [after, i1, step, i2], (hown _ _).1, ?_, ?_, (hown _ _).2⟩
      · intro b hb
        have : presses b (.fail :: h ++ [.read e0]) = presses b (h ++ [.read e0]) := rfl
        rw [this, p1 b]
        split
        · rename_i hc; rw [← i5 b hb hc.1 hc.2.1, i3 b hb]
        · exact i3 b hb
      · intro n hn
        have : moves n (.fail :: h ++ [.read e0]) = moves n (h ++ [.read e0]) := rfl
        rw [this, p2 n]
        split
        · rename_i hc; rw [← i6 n hn hc.1 hc.2.1, i4 n hn]
        · exact i4 n hn

/-- **C88, violated.** A read which fails (the controller is unplugged) processes the last event again: for every button which was
just pressed the function of the user is called a second time and the `down` flag disappears; and if the first read fails, an
uninitialised event is processed. -/
theorem failed_read_repeats (b : Nat) (hb : b < 8) :
    (∃ s : St K, after [.fail, .read ⟨1, b, 1⟩] = some s ∧ s.calls = [.button b true, .button b true] ∧ s.current.down b = false) ∧
    after (K := K) [.fail] = none := by
  refine ⟨⟨_, rfl, ?_, ?_⟩, rfl⟩
  · simp [process, hb, init]
  · simp [process, hb, init, upd]

section Ordered
variable [LinearOrder K] [IsStrictOrderedRing K]

/-- **C88, range (partial).** An axis value lies between -1 and 1 if the device reports at least -32767. -/
theorem axis_range_partial (v : Int) (h1 : -32767 ≤ v) (h2 : v ≤ 32767) :
    -1 ≤ (v : K) / 32767 ∧ (v : K) / 32767 ≤ 1 := by
  have h1' : (-32767 : K) ≤ v := by exact_mod_cast h1
  have h2' : (v : K) ≤ 32767 := by exact_mod_cast h2
  constructor
  · rw [le_div_iff₀ (by norm_num)]; linarith
  · rw [div_le_iff₀ (by norm_num)]; linarith


example : -1 ≤ ((-12000 : Int) : ℚ) / 32767 ∧ ((-12000 : Int) : ℚ) / 32767 ≤ 1 := axis_range_partial (-12000) (by norm_num) (by norm_num)

/-- **C88, violated.** The smallest value of the device, -32768, gives an axis below -1. -/
theorem axis_below : ∃ s : St K, after [.read ⟨2, 0, -32768⟩] = some s ∧ s.current.axis 0 < -1 := by
  refine ⟨_, rfl, ?_⟩
  norm_num [process, init, upd]

end Ordered

/-- **C88, block.** The outputs of the block are the axes LX, LY, LT, RX, RY, RT, CX, CY of the controller, whose numbers are
0, 1, 2, 4, 3, 5, 6, 7. -/
theorem block_output (h : List Op) (hf : .fail ∉ h) :
    ∃ s : St K, after h = some s ∧
      output s = [0, 1, 2, 4, 3, 5, 6, 7].map (fun n => (((moves n h).head?.getD 0 : Int) : K) / 32767) := by
  obtain ⟨s, h1, h2⟩ := rel_after (K := K) h hf
  refine ⟨s, h1, ?_⟩
  simp only [output, List.map_cons, List.map_nil, h2.axis 0 (by omega), h2.axis 1 (by omega), h2.axis 2 (by omega),
    h2.axis 4 (by omega), h2.axis 3 (by omega), h2.axis 5 (by omega), h2.axis 6 (by omega), h2.axis 7 (by omega)]

/-- Non-vacuity: button 3 pressed, axis 4 moved, button 3 released. -/
example : ∃ s : St ℚ, after [.read ⟨1, 3, 0⟩, .read ⟨2, 4, 32767⟩, .read ⟨1, 3, 1⟩, .read ⟨129, 3, 0⟩] = some s ∧
    s.current.up 3 = true ∧ s.current.down 3 = false ∧ s.calls = [.button 3 false, .axis 4 1, .button 3 true] ∧
    output s = [0, 0, 0, 1, 0, 0, 0, 0] := by
  exact ⟨_, rfl, by decide +kernel, by decide +kernel, by decide +kernel, by decide +kernel⟩

end Verif.Hal.XBox
