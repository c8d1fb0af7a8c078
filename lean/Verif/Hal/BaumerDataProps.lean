/-
C128: the distance of the sensor.
-/
import Verif.Hal.BaumerData
import Mathlib.Data.List.Induction
import Mathlib.Tactic.NormNum
import Mathlib.Tactic.Ring
import Mathlib.Tactic.FieldSimp

namespace Verif.Hal.BaumerData

/-- The 32 bits of a number with sign `s`, exponent `e` and fraction `m`. -/
def bitsOf (s e m : Nat) : Nat := s * 2 ^ 31 + e * 2 ^ 23 + m

theorem parts (s e m : Nat) (hs : s < 2) (he : e < 256) (hm : m < 2 ^ 23) :
    bitsOf s e m / 2147483648 % 2 = s ∧ bitsOf s e m / 8388608 % 256 = e ∧ bitsOf s e m % 8388608 = m := by
  unfold bitsOf
  norm_num at hm ⊢
  omega

/-- **C128** The bits are taken as the number which they stand for: normal numbers `(-1)^s · (1 + m/2^23) · 2^(e-127)`, -/
theorem normal (s e m : Nat) (hs : s < 2) (he : 0 < e) (he' : e < 255) (hm : m < 2 ^ 23) :
    toFloat (bitsOf s e m) = .fin ((-1) ^ s * (1 + m / 2 ^ 23) * 2 ^ ((e : Int) - 127)) := by
  obtain ⟨h1, h2, h3⟩ := parts s e m hs (by omega) hm
  unfold toFloat
  simp only [h1, h2, h3]
  rw [if_neg (by omega), if_neg (by omega)]
  congr 1
  have hp : (2 : ℚ) ^ ((e : Int) - 127) = 2 ^ e / 2 ^ 127 := by
    rw [zpow_sub₀ (by norm_num)]
    norm_cast
  rw [hp]
  have hsg : (if s = 1 then (-1 : ℚ) else 1) = (-1) ^ s := by
    have : s = 0 ∨ s = 1 := by omega
    rcases this with rfl | rfl <;> norm_num
  rw [hsg]
  have : (2 : ℚ) ^ 150 = 2 ^ 23 * 2 ^ 127 := by norm_num
  rw [this]
  field_simp
  ring

example : toFloat (bitsOf 0 136 3932160) = .fin 752 := by
  rw [normal 0 136 3932160 (by decide) (by decide) (by decide) (by decide)]
  norm_num

/-- **C128** ... numbers next to zero `(-1)^s · m/2^23 · 2^(-126)`, infinities and NaN. -/
theorem special (s m : Nat) (hs : s < 2) (hm : m < 2 ^ 23) :
    toFloat (bitsOf s 0 m) = .fin ((-1) ^ s * (m / 2 ^ 23) / 2 ^ 126) ∧ toFloat (bitsOf s 255 0) = (if s = 1 then .ninf else .pinf) ∧ (m ≠ 0 → toFloat (bitsOf s 255 m) = .nan) := by
  have hsg : (if s = 1 then (-1 : ℚ) else 1) = (-1) ^ s := by
    have : s = 0 ∨ s = 1 := by omega
    rcases this with rfl | rfl <;> norm_num
  refine ⟨?_, ?_, ?_⟩
  · obtain ⟨h1, h2, h3⟩ := parts s 0 m hs (by omega) hm
    unfold toFloat
    simp only [h1, h2, h3, hsg]
    rw [if_neg (by omega), if_pos trivial]
    congr 1
    have : (2 : ℚ) ^ 149 = 2 ^ 23 * 2 ^ 126 := by norm_num
    rw [this]
    field_simp
  · obtain ⟨h1, h2, h3⟩ := parts s 255 0 hs (by omega) (by norm_num)
    unfold toFloat
    simp only [h1, h2, h3]
    have : s = 0 ∨ s = 1 := by omega
    rcases this with rfl | rfl <;> norm_num
  · intro h0
    obtain ⟨h1, h2, h3⟩ := parts s 255 m hs (by omega) hm
    unfold toFloat
    simp only [h1, h2, h3]
    rw [if_pos trivial, if_neg h0]

example : toFloat (bitsOf 1 255 0) = .ninf := (special 1 0 (by decide) (by decide)).2.1

/-- **C128 (partial)** If the last read was good, and the sensor sends the distance `d` millimetres as single precision number, low word first, in the registers 203 and 204, the block puts out `d / 1000`, in metres.
Missing: reads which fail, see `stale_violated`. -/
theorem distance_partial (h : List (Option (Nat → Nat))) (r : Nat → Nat) (s e m : Nat) (hs : s < 2) (he : 0 < e) (he' : e < 255) (hm : m < 2 ^ 23)
    (h3 : r 3 = bitsOf s e m % 65536) (h4 : r 4 = bitsOf s e m / 65536) (t : Nat) :
    block (loop init (h ++ [some r])) t = (some (.fin ((-1) ^ s * (1 + m / 2 ^ 23) * 2 ^ ((e : Int) - 127) / 1000)), t) := by
  unfold loop block
  rw [List.foldl_append]
  show ((getMeasurements _ (some r)).distance, t) = _
  unfold getMeasurements
  simp only [show (3 : Nat) < 17 by decide, show (4 : Nat) < 17 by decide, if_true]
  rw [h3, h4, Nat.mod_add_div, normal s e m hs he he' hm]
  simp only [milli]
  congr 3
  ring

/-- 752 millimetres after a failed read. -/
example : block (loop init [none, some fun i => if i = 4 then 17468 else 0]) 5 = (some (.fin (752 / 1000)), 5) := by
  have := distance_partial [none] (fun i => if i = 4 then 17468 else 0) 0 136 3932160 (by decide) (by decide) (by decide) (by decide) (by decide) (by decide) 5
  rw [show [none, some fun i => if i = 4 then 17468 else 0] = ([none] ++ [some fun i => if i = 4 then 17468 else 0] : List (Option (Nat → Nat))) from rfl, this]
  norm_num

/-- **C128 violated**: when the connection is lost, the last distance is put out for ever, with new timestamps. -/
theorem stale_violated (s : St) (r : Nat → Nat) (n t : Nat) :
    block (loop s (some r :: List.replicate n none)) t = ((loop s [some r]).distance, t) := by
  have hfix : ∀ u : St, u = getMeasurements u none → ∀ n, loop u (List.replicate n none) = u := by
    intro u hu n
    induction n with
    | zero => rfl
    | succ n ih =>
      show loop (getMeasurements u none) (List.replicate n none) = u
      rw [← hu, ih]
  have hu : getMeasurements s (some r) = getMeasurements (getMeasurements s (some r)) none := by
    simp [getMeasurements]
  show ((loop (getMeasurements s (some r)) (List.replicate n none)).distance, t) = _
  rw [hfix _ hu]
  rfl

/-- A thousand reads have failed since. -/
example (r : Nat → Nat) : (block (loop init (some r :: List.replicate 1000 none)) 7000).1 = (loop init [some r]).distance := by
  rw [stale_violated]

/-- **C128 violated**: as long as no read was good, the block puts out a number which was never set. -/
theorem unset_violated (n t : Nat) : (block (loop init (List.replicate n none)) t).1 = none := by
  have : ∀ n, loop init (List.replicate n none) = init := by
    intro n
    induction n with
    | zero => rfl
    | succ n ih =>
      rw [List.replicate_succ']
      unfold loop at ih ⊢
      rw [List.foldl_append, ih]
      rfl
  rw [this]
  rfl

example : (block init 3).1 = none := unset_violated 0 3

end Verif.Hal.BaumerData
