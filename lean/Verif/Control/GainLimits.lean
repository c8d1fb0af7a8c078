import Mathlib.Data.Int.Notation
import Mathlib.Tactic.Ring
import Mathlib.Tactic.Linarith
import Mathlib.Tactic.NormNum
import Mathlib.Tactic.Push
/-!
C328: the limits of a block `Gain` (`/repo/includes/eeros/control/Gain.hpp`) with an integer gain which is made without limits.  `resetMinMaxGain` (358-362) takes the limits of `int32_t` for
every integer type.  The type of the gain has `w` bits and is signed or not; conversions are modulo `2^w` (what gcc does, and C++20 prescribes).  Simplified: no smooth change, and
what the product with the signal does is left out: the theorems are about the gain `run` multiplies with.
-/
namespace Verif.Control.GainLimits

/-- An integer type. -/
structure Ty where
  signed : Bool
  w : ℕ

/-- Specification: the values of the type. -/
def Ty.Has (t : Ty) (z : ℤ) : Prop := if t.signed then -2 ^ (t.w - 1) ≤ z ∧ z < 2 ^ (t.w - 1) else 0 ≤ z ∧ z < 2 ^ t.w

/-- Conversion to the type. -/
def Ty.conv (t : Ty) (z : ℤ) : ℤ := if t.signed ∧ 2 ^ (t.w - 1) ≤ z % 2 ^ t.w then z % 2 ^ t.w - 2 ^ t.w else z % 2 ^ t.w

structure St where
  gain : ℤ
  max : ℤ
  min : ℤ
deriving DecidableEq

/-- `Gain(Tgain c)`, 58-60, 73-79, 358-362. -/
def new (t : Ty) (c : ℤ) : St := { gain := c, max := t.conv (2 ^ 31 - 1), min := t.conv (-2 ^ 31) }

inductive Op where
  | setGain (c : ℤ)
  | run

/-- `setGain` (219-229) and the limits in `run` (126-132), no smooth change; the result is the gain `run` multiplies with. -/
def step (s : St) : Op → St × Option ℤ
  | .setGain c => (if c ≤ s.max ∧ c ≥ s.min then { s with gain := c } else s, none)
  | .run =>
    let g := if s.gain > s.max then s.max else s.gain
    let g := if g < s.min then s.min else g
    ({ s with gain := g }, some g)

def exec (s : St) (ops : List Op) : St := ops.foldl (fun s o => (step s o).1) s

/-- The gain of a run after a history. -/
def gainOf (t : Ty) (c : ℤ) (ops : List Op) : Option ℤ := (step (exec (new t c) ops) .run).2

/-- Specification: the gain asked for last. -/
def asked (c : ℤ) : List Op → ℤ
  | [] => c
  | .setGain d :: ops => asked d ops
  | .run :: ops => asked c ops

theorem pow_split {a b : ℕ} (h : a ≤ b) : (2:ℤ) ^ b = 2 ^ (b - a) * 2 ^ a := by rw [← pow_add]; congr 1; omega

theorem pow_ge {a b : ℕ} (h : a ≤ b) : (2:ℤ) ^ a ≤ 2 ^ b := pow_le_pow_right₀ (by norm_num) h

theorem conv_of_has {t : Ty} (hw : 1 ≤ t.w) {z : ℤ} (h : t.Has z) : t.conv z = z := by
  have e : (2:ℤ) ^ t.w = 2 * 2 ^ (t.w - 1) := by rw [pow_split hw]; ring
  have hp : (0:ℤ) < 2 ^ (t.w - 1) := by positivity
  unfold Ty.Has at h
  unfold Ty.conv
  cases hs : t.signed
  · rw [hs] at h
    simp only [Bool.false_eq_true, if_false, false_and] at h ⊢
    exact Int.emod_eq_of_lt h.1 h.2
  · rw [hs] at h
    simp only [if_true, true_and] at h ⊢
    rcases lt_or_ge z 0 with hz | hz
    · have : z % 2 ^ t.w = z + 2 ^ t.w := by
        rw [← Int.add_emod_right]; exact Int.emod_eq_of_lt (by linarith) (by linarith)
      rw [this, if_pos (by linarith)]; ring
    · rw [Int.emod_eq_of_lt hz (by linarith), if_neg (by linarith)]

/-- The limits by type: of 32 bits and more signed types have those of `int32_t`, … -/
theorem limits_signed {w : ℕ} (hw : 32 ≤ w) (c : ℤ) : (new ⟨true, w⟩ c).max = 2 ^ 31 - 1 ∧ (new ⟨true, w⟩ c).min = -2 ^ 31 := by
  have h := pow_ge (show 31 ≤ w - 1 by omega)
  have h0 : (0:ℤ) < 2 ^ 31 := by norm_num
  have ha : (⟨true, w⟩ : Ty).Has (2 ^ 31 - 1) := by
    simp only [Ty.Has, if_true]; constructor <;> linarith
  have hb : (⟨true, w⟩ : Ty).Has (-2 ^ 31) := by
    simp only [Ty.Has, if_true]; constructor <;> linarith
  exact ⟨conv_of_has (show 1 ≤ w by omega) ha, conv_of_has (show 1 ≤ w by omega) hb⟩

theorem low_bits {w : ℕ} (hw : w ≤ 31) : (-2 ^ 31 : ℤ) % 2 ^ w = 0 ∧ (2 ^ 31 - 1 : ℤ) % 2 ^ w = 2 ^ w - 1 := by
  have e := pow_split hw
  have hp : (0:ℤ) < 2 ^ w := by positivity
  constructor
  · rw [e]; exact Int.emod_eq_zero_of_dvd ⟨-2 ^ (31 - w), by ring⟩
  · have h1 : (2 ^ 31 - 1 : ℤ) = 2 ^ w - 1 + 2 ^ w * (2 ^ (31 - w) - 1) := by rw [e]; ring
    rw [h1, Int.add_mul_emod_self_left]
    exact Int.emod_eq_of_lt (by linarith) (by linarith)

/-- … shorter signed types the limits 0 and -1, … -/
theorem limits_short {w : ℕ} (h1 : 1 ≤ w) (hw : w ≤ 31) (c : ℤ) : (new ⟨true, w⟩ c).max = -1 ∧ (new ⟨true, w⟩ c).min = 0 := by
  obtain ⟨ha, hb⟩ := low_bits hw
  have e : (2:ℤ) ^ w = 2 * 2 ^ (w - 1) := by rw [pow_split h1]; ring
  have hp : (0:ℤ) < 2 ^ (w - 1) := by positivity
  constructor
  · simp only [new, Ty.conv, hb, true_and]
    rw [if_pos (by linarith)]; ring
  · simp only [new, Ty.conv, ha, true_and]
    rw [if_neg (by linarith)]

/-- … shorter unsigned types all their values, … -/
theorem limits_unsigned_short {w : ℕ} (hw : w ≤ 31) (c : ℤ) : (new ⟨false, w⟩ c).max = 2 ^ w - 1 ∧ (new ⟨false, w⟩ c).min = 0 := by
  obtain ⟨ha, hb⟩ := low_bits hw
  simp only [new, Ty.conv, Bool.false_eq_true, false_and, if_false, ha, hb, and_self]

/-- … and longer unsigned types a minimum above the maximum. -/
theorem limits_unsigned {w : ℕ} (hw : 32 ≤ w) (c : ℤ) : (new ⟨false, w⟩ c).max = 2 ^ 31 - 1 ∧ (new ⟨false, w⟩ c).min = 2 ^ w - 2 ^ 31 := by
  have h := pow_ge (show 32 ≤ w by omega)
  have h2 : (2:ℤ) ^ 32 = 2 * 2 ^ 31 := by norm_num
  have h3 : (0:ℤ) < 2 ^ 31 := by norm_num
  simp only [new, Ty.conv, Bool.false_eq_true, false_and, if_false]
  constructor
  · exact Int.emod_eq_of_lt (by norm_num) (by linarith)
  · rw [← Int.add_emod_right]
    rw [Int.emod_eq_of_lt (by linarith) (by linarith)]; ring

theorem exec_limits (s : St) (ops : List Op) : (exec s ops).max = s.max ∧ (exec s ops).min = s.min := by
  induction ops generalizing s with
  | nil => exact ⟨rfl, rfl⟩
  | cons o ops ih =>
    obtain ⟨h1, h2⟩ := ih (step s o).1
    have : (step s o).1.max = s.max ∧ (step s o).1.min = s.min := by
      cases o with
      | setGain c => simp only [step]; split <;> exact ⟨rfl, rfl⟩
      | run => exact ⟨rfl, rfl⟩
    exact ⟨h1.trans this.1, h2.trans this.2⟩

theorem exec_gain (s : St) (ops : List Op) (hs : s.min ≤ s.gain ∧ s.gain ≤ s.max) (ha : ∀ d, .setGain d ∈ ops → s.min ≤ d ∧ d ≤ s.max) :
    (exec s ops).gain = asked s.gain ops ∧ s.min ≤ asked s.gain ops ∧ asked s.gain ops ≤ s.max := by
  induction ops generalizing s with
  | nil => exact ⟨rfl, hs⟩
  | cons o ops ih =>
    cases o with
    | setGain c =>
      have hc := ha c (by simp)
      have e : (step s (.setGain c)).1 = { s with gain := c } := by simp only [step]; rw [if_pos ⟨hc.2, hc.1⟩]
      have := ih { s with gain := c } hc (fun d hd => ha d (by simp [hd]))
      simp only [exec, List.foldl_cons, e]
      exact this
    | run =>
      have e : (step s .run).1 = s := by
        simp only [step]
        rw [if_neg (by omega), if_neg (by omega)]
      simp only [exec, List.foldl_cons, e]
      exact ih s hs (fun d hd => ha d (by simp [hd]))

/-- C328: a block whose gain has a signed type of 32 bits or an unsigned type of less multiplies, after every history, with the gain asked for last. -/
theorem asked_partial (t : Ty) (hw : 1 ≤ t.w) (ht : if t.signed then t.w = 32 else t.w ≤ 31) (c : ℤ) (hc : t.Has c) (ops : List Op) (ha : ∀ d, .setGain d ∈ ops → t.Has d) :
    gainOf t c ops = some (asked c ops) := by
  have key : ∀ d, t.Has d → (new t c).min ≤ d ∧ d ≤ (new t c).max := by
    obtain ⟨sg, w⟩ := t
    intro d hd
    cases sg with
    | true =>
      simp only [if_true] at ht
      subst ht
      obtain ⟨h1, h2⟩ := limits_signed (w := 32) le_rfl c
      rw [h1, h2]
      simp only [Ty.Has, if_true] at hd
      norm_num at hd ⊢
      omega
    | false =>
      simp only [Bool.false_eq_true, if_false] at ht
      obtain ⟨h1, h2⟩ := limits_unsigned_short ht c
      rw [h1, h2]
      simp only [Ty.Has, Bool.false_eq_true, if_false] at hd
      omega
  obtain ⟨h1, h2, h3⟩ := exec_gain (new t c) ops (key c hc) (fun d hd => key d (ha d hd))
  obtain ⟨h4, h5⟩ := exec_limits (new t c) ops
  have hg : (new t c).gain = c := rfl
  rw [hg] at h1 h2 h3
  simp only [gainOf, step, h1, h4, h5]
  rw [if_neg (by omega), if_neg (by omega)]

example : gainOf ⟨true, 32⟩ (-7) [.run, .setGain 2147483647, .run] = some 2147483647 :=
  asked_partial ⟨true, 32⟩ (by norm_num) rfl _ (by norm_num [Ty.Has]) _ (by intro d hd; simp at hd; subst hd; norm_num [Ty.Has])

/-- C328, violation: with a shorter signed type (`int8_t`, `int16_t`) every run after every history multiplies with 0, whatever gain was asked for. -/
theorem short_violated {w : ℕ} (h1 : 1 ≤ w) (hw : w ≤ 31) (c : ℤ) (ops : List Op) : gainOf ⟨true, w⟩ c ops = some 0 := by
  obtain ⟨ha, hb⟩ := limits_short h1 hw c
  obtain ⟨h4, h5⟩ := exec_limits (new ⟨true, w⟩ c) ops
  simp only [gainOf, step, h4, h5, ha, hb]
  split_ifs <;> first | rfl | (congr 1; omega)

/-- C328, violation: with `uint32_t` or a longer unsigned type every run multiplies with `2^w - 2^31`. -/
theorem unsigned_violated {w : ℕ} (hw : 32 ≤ w) (c : ℤ) (ops : List Op) : gainOf ⟨false, w⟩ c ops = some (2 ^ w - 2 ^ 31) := by
  obtain ⟨ha, hb⟩ := limits_unsigned hw c
  obtain ⟨h4, h5⟩ := exec_limits (new ⟨false, w⟩ c) ops
  have h := pow_ge (show 32 ≤ w by omega)
  have h2 : (2:ℤ) ^ 32 = 2 * 2 ^ 31 := by norm_num
  simp only [gainOf, step, h4, h5, ha, hb]
  split_ifs with p q q
  · rfl
  · exfalso; linarith
  · rfl
  · exfalso; linarith

/-- C328, violation: with a longer signed type a gain outside of `int32_t` is cut to its limits by the first run, and `setGain` ignores it. -/
theorem long_violated {w : ℕ} (hw : 32 ≤ w) (c d : ℤ) (ops : List Op) (hd : d < -2 ^ 31 ∨ 2 ^ 31 - 1 < d) :
    gainOf ⟨true, w⟩ c [] = some (Max.max (-2 ^ 31) (Min.min c (2 ^ 31 - 1))) ∧ gainOf ⟨true, w⟩ c (ops ++ [.setGain d]) = gainOf ⟨true, w⟩ c ops := by
  obtain ⟨ha, hb⟩ := limits_signed hw c
  constructor
  · have hg : (new ⟨true, w⟩ c).gain = c := rfl
    simp only [gainOf, exec, List.foldl_nil, step, ha, hb, hg]
    norm_num
    split_ifs <;> omega
  · obtain ⟨h4, h5⟩ := exec_limits (new ⟨true, w⟩ c) ops
    have e : exec (new ⟨true, w⟩ c) (ops ++ [.setGain d]) = exec (new ⟨true, w⟩ c) ops := by
      rw [exec, List.foldl_append]
      show (step (exec (new ⟨true, w⟩ c) ops) (.setGain d)).1 = _
      simp only [step, h4, h5, ha, hb]
      rw [if_neg (by omega)]
    simp only [gainOf, e]

example : gainOf ⟨true, 16⟩ 3 [.setGain 5, .run] = some 0 := short_violated (by norm_num) (by norm_num) 3 _
example : gainOf ⟨false, 32⟩ 1 [] = some 2147483648 := unsigned_violated le_rfl 1 []
example : gainOf ⟨true, 64⟩ 5000000000 [] = some 2147483647 := by decide

/-- C328: the default limits let every gain of the type pass exactly for signed types of 32 bits and unsigned types of less. -/
theorem asked_iff (t : Ty) (hw : 2 ≤ t.w) : (∀ c, t.Has c → gainOf t c [] = some c) ↔ if t.signed then t.w = 32 else t.w ≤ 31 := by
  constructor
  · intro h
    obtain ⟨sg, w⟩ := t
    simp only at hw
    cases sg with
    | true =>
      simp only [if_true]
      by_contra hne
      rcases lt_or_gt_of_ne hne with hlt | hgt
      · have hp : (2:ℤ) ^ 1 ≤ 2 ^ (w - 1) := pow_ge (by omega)
        have := h 1 (by simp only [Ty.Has, if_true]; constructor <;> linarith)
        rw [short_violated (by omega) (by omega)] at this
        cases this
      · have hp : (2:ℤ) ^ 32 ≤ 2 ^ (w - 1) := pow_ge (by omega)
        have := h (2 ^ 31) (by simp only [Ty.Has, if_true]; norm_num at hp ⊢; constructor <;> linarith)
        rw [(long_violated (w := w) (by omega) (2 ^ 31) (2 ^ 31) [] (by norm_num)).1] at this
        norm_num at this
    | false =>
      simp only [Bool.false_eq_true, if_false]
      by_contra hne
      have hp : (2:ℤ) ^ 32 ≤ 2 ^ w := pow_ge (by omega)
      have := h 1 (by simp only [Ty.Has, Bool.false_eq_true, if_false]; norm_num at hp ⊢; linarith)
      rw [unsigned_violated (by omega)] at this
      have := Option.some.inj this
      norm_num at hp this
      linarith
  · intro ht c hc
    exact asked_partial t (by omega) ht c hc [] (by simp)

end Verif.Control.GainLimits
