/-
C126: units of the blocks for the ODrive.
-/
import Verif.Control.ODriveBlock
import Mathlib.Data.Rat.Floor
import Mathlib.Tactic.NormNum
import Mathlib.Tactic.FieldSimp
import Mathlib.Tactic.Linarith

namespace Verif.Control.ODriveBlock

variable {K : Type} [Field K] [LinearOrder K] [IsStrictOrderedRing K] [FloorRing K]

theorem turns_zero : turnsPerRad K = 0 := by
  unfold turnsPerRad trunc
  have h0 : (0 : K) ≤ 1 / (628 / 100) := by positivity
  rw [if_pos h0, Int.floor_eq_zero_iff]
  refine ⟨h0, ?_⟩
  rw [div_lt_one (by positivity)]
  norm_num

/-- **C126 violated**: whatever speed is requested, the set point of both motors becomes zero: the drive never moves. -/
theorem never_moves_violated (d : Drive K) (u : Nat → K) (m : Nat) (hm : m = 0 ∨ m = 1) : (runUsb d u).1.refVel m = 0 := by
  rcases hm with rfl | rfl <;> simp [runUsb, setRefVel, turns_zero]

/-- Ten radians per second should be about 1.6 turns per second. -/
example (d : Drive ℚ) : (runUsb d fun _ => 10).1.refVel 0 = 0 ∧ (10 : ℚ) / (628 / 100) > 3 / 2 := ⟨never_moves_violated d _ 0 (Or.inl rfl), by norm_num⟩

/-- **C126 violated**: whatever the encoders measure, the velocities at the output are not finite. -/
theorem infinite_violated (d : Drive K) (u : Nat → K) (m : Nat) (hm : m = 0 ∨ m = 1) : ((runUsb d u).2 0 m).isFinite = false := by
  have hd : (runUsb d u).2 0 m = divInt (d.encoderVel m) 0 := by
    rcases hm with rfl | rfl <;> simp [runUsb, setRefVel, getEncoderVel, turns_zero]
  rw [hd]
  unfold divInt
  rw [if_pos rfl]
  split
  · rfl
  · split <;> rfl

/-- One turn per second should be 6.28 radians per second; it is infinite. -/
example (u : Nat → ℚ) : ((runUsb ⟨fun _ => 0, fun _ => 1, fun _ => 0, fun _ => 0⟩ u).2 0 1).isFinite = false := infinite_violated _ u 1 (Or.inr rfl)

/-- **C126 (partial)** The currents are on their outputs, for the right motor; the encoder velocities and the currents are not changed.
Missing: the velocities, see `never_moves_violated` and `infinite_violated`. -/
theorem currents_partial (d : Drive K) (u : Nat → K) (m : Nat) :
    (runUsb d u).2 1 m = .fin (d.currentMeasured m) ∧ (runUsb d u).2 2 m = .fin (d.currentSetpoint m) ∧
      (runUsb d u).1.encoderVel = d.encoderVel ∧ (runUsb d u).1.currentMeasured = d.currentMeasured ∧ (runUsb d u).1.currentSetpoint = d.currentSetpoint := by
  simp [runUsb, setRefVel]

example (u : Nat → ℚ) : (runUsb (⟨fun _ => 0, fun _ => 1, fun m => (m : ℚ) + 2, fun _ => 5⟩ : Drive ℚ) u).2 1 1 = .fin 3 := by
  rw [(currents_partial _ u 1).1]; norm_num

/-- **C126 (partial)** With a whole number of turns other than zero the two functions of the drive are consistent: if the motor follows its set point, the velocity which is read is the one which was requested,
and only the set point of this motor changes. -/
theorem consistent_partial (d : Drive K) (m : Nat) (hm : m = 0 ∨ m = 1) (speed : K) (turns : Int) (ht : turns ≠ 0) :
    getEncoderVel { setRefVel d m speed turns with encoderVel := (setRefVel d m speed turns).refVel } m turns = .fin speed ∧
      ∀ k, k ≠ m → (setRefVel d m speed turns).refVel k = d.refVel k := by
  have hc : (turns : K) ≠ 0 := by exact_mod_cast ht
  constructor
  · simp only [getEncoderVel, setRefVel, if_pos hm, if_true, divInt, if_neg ht]
    congr 1
    field_simp
  · intro k hk
    simp only [setRefVel, if_pos hm, if_neg hk]

example (d : Drive ℚ) : (setRefVel d 1 7 3).refVel 0 = d.refVel 0 := (consistent_partial d 1 (Or.inr rfl) 7 3 (by decide)).2 0 (by decide)

/-- **C126 violated**: the block for the serial line never sends its input to the drive, and two of its three outputs are never set. -/
theorem uart_violated (d : Drive K) (u : Nat → K) (old : Outs K) :
    (runUart d u old).1 = d ∧ (∀ u', runUart d u' old = runUart d u old) ∧ (runUart d u old).2 1 = old 1 ∧ (runUart d u old).2 2 = old 2 ∧
      ∀ m, (runUart d u old).2 0 m = .fin (d.encoderVel m) := by
  refine ⟨rfl, fun _ => rfl, ?_, ?_, fun m => ?_⟩
  · funext m; simp [runUart]
  · funext m; simp [runUart]
  · simp [runUart]

example (old : Outs ℚ) : (runUart ⟨fun _ => 0, fun _ => 4, fun _ => 0, fun _ => 0⟩ (fun _ => 9) old).1.refVel 0 = 0 := by
  rw [(uart_violated _ _ old).1]

end Verif.Control.ODriveBlock
