/-
C58: the mouse input block.
-/
import Verif.Control.Mouse
import Mathlib.Tactic.Linarith
import Mathlib.Tactic.Ring
import Mathlib.Tactic.NormNum
import Mathlib.Tactic.FinCases

set_option linter.unusedSectionVars false

namespace Verif.Control.Mouse
variable {K : Type} [Field K] [LinearOrder K] [IsStrictOrderedRing K]

/-- Specification: the limits are applied. -/
def clamp (lo hi v : K) : K := max lo (min hi v)

theorem axis_out (a lo hi off m : K) (h : lo ≤ hi) :
    (axis a lo hi off m).2 = clamp lo hi (off + a * m) ∧ (axis a lo hi off m).1 = (axis a lo hi off m).2 - a * m := by
  refine ⟨?_, by simp [axis]⟩
  unfold axis clamp
  simp only
  by_cases h1 : off + a * m < lo
  · rw [if_pos h1, max_eq_left (le_trans (min_le_right _ _) h1.le)]; ring
  · rw [if_neg h1]
    by_cases h2 : off + a * m > hi
    · rw [if_pos h2, min_eq_left h2.le, max_eq_right h]; ring
    · rw [if_neg h2, min_eq_right (not_lt.1 h2), max_eq_right (not_lt.1 h1)]; ring

/-- **C58** (limits) In every state, so after every history of movements and calls, the output of a run is within the limits. -/
theorem within_limits (c : Cfg K) (s : St K) (m : Fin 4 → K) (i : Fin 4) (h : c.min i ≤ c.max i) :
    c.min i ≤ (run c s m).out i ∧ (run c s m).out i ≤ c.max i := by
  show _ ≤ (axis _ _ _ _ _).2 ∧ (axis _ _ _ _ _).2 ≤ _
  rw [(axis_out _ _ _ _ _ h).1]
  exact ⟨le_max_left _ _, max_le h (min_le_left _ _)⟩


/-- A movement beyond the upper limit. -/
example : (run (⟨fun _ => 1, fun _ => -10, fun _ => 10⟩ : Cfg ℚ) (new ⟨fun _ => 1, fun _ => -10, fun _ => 10⟩ (fun _ => 0)) (fun _ => 300)).out 1 ≤ 10 :=
  (within_limits _ _ _ 1 (by norm_num)).2

/-- **C58** (movement) From one run to the next the output follows the movement of the mouse, up to the limits; in particular after the output hit a limit a
movement back takes effect at once, however far the mouse moved beyond the limit. -/
theorem follows (c : Cfg K) (s : St K) (m m' : Fin 4 → K) (i : Fin 4) (h : c.min i ≤ c.max i) :
    (run c (run c s m) m').out i = clamp (c.min i) (c.max i) ((run c s m).out i + c.scale i * (m' i - m i)) := by
  show (axis _ _ _ (axis _ _ _ _ _).1 _).2 = clamp _ _ ((axis _ _ _ _ _).2 + _)
  rw [(axis_out _ _ _ _ _ h).1, (axis_out _ _ _ _ _ h).2]
  congr 1
  ring

/-- **C58 (partial)** (start) After the first run: if the position is set to `p` within the limits and the mouse is not moved, the next run outputs `p` in the axes z and r.
Missing: x and y (`start_swapped`), and positions set before the first run (`start_discarded`). -/
theorem starts_at_partial (c : Cfg K) (s : St K) (m p : Fin 4 → K) (i : Fin 4) (hi : i = 2 ∨ i = 3) (hf : s.first = false)
    (h1 : c.min i ≤ p i) (h2 : p i ≤ c.max i) : (run c (setInitPos c s m p) m).out i = p i := by
  show (axis _ _ _ _ _).2 = _
  rw [(axis_out _ _ _ _ _ (h1.trans h2)).1]
  have hsrc : src i = i := by rcases hi with rfl | rfl <;> rfl
  simp only [setInitPos, reset, hf, hsrc, Bool.false_eq_true, if_false]
  rw [sub_add_cancel, clamp, min_eq_right h2, max_eq_right h1]


example : let c : Cfg ℚ := ⟨fun _ => 1, fun _ => -10, fun _ => 10⟩
    let s := run c (new c (fun _ => 0)) (fun _ => 0)
    s.first = false ∧ (run c (setInitPos c s (fun _ => 110) (fun _ => 4)) (fun _ => 110)).out 2 = 4 := by
  decide +kernel

/-- **C58 violated** (x and y): after a position within the limits was set, the next output for x and y is off by the scaled difference of the two counters of the mouse,
as far as the limits allow. -/
theorem start_swapped (c : Cfg K) (s : St K) (m p : Fin 4 → K) (hf : s.first = false) (h : ∀ i, c.min i ≤ c.max i) :
    (run c (setInitPos c s m p) m).out 0 = clamp (c.min 0) (c.max 0) (p 0 + c.scale 0 * (m 0 - m 1)) ∧
    (run c (setInitPos c s m p) m).out 1 = clamp (c.min 1) (c.max 1) (p 1 + c.scale 1 * (m 1 - m 0)) := by
  constructor
  all_goals
    show (axis _ _ _ _ _).2 = _
    rw [(axis_out _ _ _ _ _ (h _)).1]
    simp [setInitPos, reset, hf, src]
    congr 1
    ring


/-- The mouse is at (3, 7), the wanted start position is (1, 2): the block starts at (-3, 6). -/
example : let c : Cfg ℚ := ⟨fun _ => 1, fun _ => -10, fun _ => 10⟩
    let s := run c (new c (fun _ => 0)) (fun _ => 0)
    s.first = false ∧ (∀ i, c.min i ≤ c.max i) ∧ (run c (setInitPos c s (fun i => if i = 0 then 3 else if i = 1 then 7 else 0) (fun i => if i = 0 then 1 else if i = 1 then 2 else 0)) (fun i => if i = 0 then 3 else if i = 1 then 7 else 0)).out 0 = -3 ∧
    (run c (setInitPos c s (fun i => if i = 0 then 3 else if i = 1 then 7 else 0) (fun i => if i = 0 then 1 else if i = 1 then 2 else 0)) (fun i => if i = 0 then 3 else if i = 1 then 7 else 0)).out 1 = 6 := by
  decide +kernel

/-- **C58 violated** (first run): the first run outputs the same whatever position was set before. -/
theorem start_discarded (c : Cfg K) (m m' p q : Fin 4 → K) :
    (run c (setInitPos c (new c m) m p) m').out = (run c (setInitPos c (new c m) m q) m').out := by
  simp [run, setInitPos, reset, new]

/-- Witness of both: limits ±10, the mouse has moved by 3 in x; the position (1, 2, 0, 0) is set.  Before the first run, this gives (3, -3, 0, 0); after it (4, -1, 0, 0). -/
theorem start_wrong : let c : Cfg ℚ := ⟨fun _ => 1, fun _ => -10, fun _ => 10⟩
    let m : Fin 4 → ℚ := fun i => if i = 0 then 3 else 0
    let p : Fin 4 → ℚ := fun i => if i = 0 then 1 else if i = 1 then 2 else 0
    (∀ i, c.min i ≤ p i ∧ p i ≤ c.max i) ∧
    (run c (setInitPos c (new c (fun _ => 0)) m p) m).out 0 = 3 ∧ (run c (setInitPos c (new c (fun _ => 0)) m p) m).out 1 = -3 ∧
    (run c (setInitPos c (run c (new c (fun _ => 0)) m) m p) m).out 0 = 4 ∧
    (run c (setInitPos c (run c (new c (fun _ => 0)) m) m p) m).out 1 = -1 := by
  decide +kernel

/-- Non-vacuity of `follows`: the mouse runs 100 beyond the limit 10; 1 back moves the output to 9 at once. -/
example : let c : Cfg ℚ := ⟨fun _ => 1, fun _ => -10, fun _ => 10⟩
    let s := run c (new c (fun _ => 0)) (fun _ => 0)
    (run c s (fun _ => 110)).out 2 = 10 ∧ (run c (run c s (fun _ => 110)) (fun _ => 109)).out 2 = 9 := by
  decide +kernel

end Verif.Control.Mouse
