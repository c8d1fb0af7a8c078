import Mathlib.Algebra.Order.Field.Basic
import Mathlib.Tactic.Linarith
import Mathlib.Tactic.Ring
/-!
Model of the rest of `hal::ODriveUSB` (includes/eeros/hal/ODriveUSB.hpp): the identifications of the endpoints (517-675), the calibration
`calibrateMotors` (324-387) and the passes of the thread with the watchdog of the drive (428-515).

A read of the drive (`ep->getData`) gives a value or fails (`none`): then the variable of the caller keeps its value, since no result of a request is
looked at.  A local variable without a value is `none`; its use is undefined.  Of the inductances and resistances only "is infinite" is kept.
-/
namespace Verif.Hal.ODriveCalib

/-! ### Identifications of the endpoints -/

/-- The constants of 526-675 which exist for both axes: name without the prefix, the one of axis 0 and the one of axis 1. -/
def table : List (String × Nat × Nat) :=
  [("watchdog_feed", 298, 527), ("clear_errors", 299, 528), ("error", 71, 300), ("current_state", 73, 302), ("requested_state", 74, 303),
   ("loop_counter", 75, 304), ("is_homed", 77, 3006), ("startup_motor_calibration", 78, 307), ("startup_encoder_index_search", 79, 308),
   ("startup_encoder_offset_calibration", 80, 309), ("startup_closed_loop_control", 81, 310), ("startup_sensorless_control", 82, 311),
   ("startup_homing", 83, 312), ("turns_per_step", 86, 315), ("watchdog_timeout", 87, 316), ("enable_watchdog", 88, 317), ("is_calibrated", 134, 363),
   ("p_gain", 141, 370), ("i_gain", 142, 371), ("v_current_control_integral_d", 143, 372), ("v_current_control_integral_q", 144, 373),
   ("iq_setpoint", 149, 378), ("iq_measured", 150, 379), ("pole_pairs", 172, 401), ("phase_inductance", 175, 404),
   ("phase_resistance", 176, 405), ("torque_constant", 177, 406), ("direction", 178, 407), ("current_lim", 180, 409),
   ("current_lim_margin", 181, 410), ("torque_lim", 182, 411), ("controller_error", 193, 422), ("input_pos", 194, 423), ("input_vel", 195, 424),
   ("input_torque", 196, 425), ("pos_setpoint", 197, 426), ("vel_setpoint", 198, 427), ("torque_setpoint", 199, 428), ("trajectory_done", 200, 429),
   ("enable_vel_limit", 204, 433), ("enable_current_mode_vel_limit", 205, 434), ("control_mode", 208, 437), ("input_mode", 209, 438),
   ("pos_gain", 210, 439), ("vel_gain", 211, 440), ("vel_integrator_gain", 212, 441), ("vel_limit", 213, 442), ("homing_speed", 219, 448),
   ("inertia", 220, 449), ("enc_is_ready", 237, 466), ("enc_index_found", 238, 467), ("enc_count_in_cpr", 240, 469), ("enc_pos_estimate", 243, 472),
   ("enc_pos_estimate_counts", 244, 473), ("enc_vel_estimate", 249, 478), ("enc_vel_estimate_counts", 250, 479), ("enc_cpr", 259, 488),
   ("enc_pre_calibrated", 261, 490), ("endstop_state", 291, 513), ("endstop_gpio_num", 292, 521), ("endstop_enabled", 293, 522),
   ("endstop_is_active_high", 295, 524)]

/-- The constants 518-525 without an axis. -/
def common : List Nat := [42, 44, 45, 4, 14, 544]

/-- The identification of a name for axis 0 (`false`) or 1 (`true`). -/
def ident (name : String) (axis : Bool) : Nat :=
  match table.find? (fun r => r.1 == name) with
  | some (_, a, b) => if axis then b else a
  | none => 0

/-! ### Calibration -/

/-- The local variables of `calibrateMotors`, 325-327.  `ind`: `isinf(inductance)`, `res`: `isinf(resistance)`. -/
inductive Var where
  | ind (axis : Bool)
  | res (axis : Bool)
  | cal (axis : Bool)
  | enc (axis : Bool)
deriving DecidableEq, Repr

/-- What is done with the drive. -/
inductive Act where
  | exec (id : Nat)
  | get (id : Nat)
  | set (id : Nat) (value : Nat)
deriving DecidableEq, Repr

structure S where
  vars : Var → Option Bool := fun _ => none
  /-- reads so far -/
  n : Nat := 0
  acts : List Act := []

/-- The endpoint of a variable (332-339). -/
def source : Var → Nat
  | .ind a => ident "phase_inductance" a
  | .res a => ident "phase_resistance" a
  | .cal a => ident "is_calibrated" a
  | .enc a => ident "enc_is_ready" a

/-- `ep->getData(id, v)` for the variable `v`; `ans n v`: what the read number `n` of the drive gives for the endpoint of `v`. -/
def read (ans : Nat → Var → Option Bool) (v : Var) (s : S) : S :=
  { vars := fun w => if w = v then (match ans s.n v with | some b => some b | none => s.vars v) else s.vars w
    n := s.n + 1
    acts := s.acts ++ [.get (source v)] }

def reads (ans : Nat → Var → Option Bool) (vs : List Var) (s : S) : S := vs.foldl (fun s v => read ans v s) s

def act (a : Act) (s : S) : S := { s with acts := s.acts ++ [a] }

/-- The variables in the order of the reads 332-339. -/
def first : List Var := [.ind false, .res false, .ind true, .res true, .cal false, .cal true, .enc false, .enc true]

/-- A variable as a condition; only used after the check of all variables. -/
def S.on (s : S) (v : Var) : Bool := s.vars v == some true

/-- Lines 329-339 and the messages 341-344, which use all eight variables: `none` if one has no value. -/
def begin (ans : Nat → Var → Option Bool) : Option S :=
  let s := act (.exec (ident "clear_errors" true)) (act (.exec (ident "clear_errors" false)) {})
  let s := reads ans first s
  if first.all fun v => (s.vars v).isSome then some s else none

/-- Lines 347-356 for one axis; 4 is `AXIS_STATE_MOTOR_CALIBRATION`.  The `sleep(5)` is left out. -/
def motor (axis : Bool) (s : S) : S :=
  if s.on (.ind axis) || s.on (.res axis) || !s.on (.cal axis) then act (.set (ident "requested_state" axis) 4) s else s

/-- Lines 361-370 for one axis; 7 is `AXIS_STATE_ENCODER_OFFSET_CALIBRATION`. -/
def encoder (ans : Nat → Var → Option Bool) (axis : Bool) (s : S) : S :=
  let s := read ans (.enc axis) s
  if !s.on (.enc axis) then act (.set (ident "requested_state" axis) 7) s else s

/-- Lines 347-373: everything between the messages and the loop. -/
def middle (ans : Nat → Var → Option Bool) (s : S) : S :=
  let s := motor true (motor false s)
  let s := reads ans [.cal false, .cal true] s
  let s := encoder ans true (encoder ans false s)
  reads ans [.cal false, .cal true] s

/-- The condition of 374, negated. -/
def ready (s : S) : Bool := s.on (.cal false) && s.on (.enc false) && s.on (.cal true) && s.on (.enc true)

/-- One pass of the loop 375-379. -/
def again (ans : Nat → Var → Option Bool) (s : S) : S := reads ans [.cal false, .enc false, .cal true, .enc true] s

/-- The loop 374-380 with at most `fuel` passes: `none` if it still runs. -/
def loop (ans : Nat → Var → Option Bool) : Nat → S → Option S
  | 0, s => if ready s then some s else none
  | f + 1, s => if ready s then some s else loop ans f (again ans s)

inductive Out where
  | undefined
  /-- still in the loop -/
  | busy
  /-- `calibrated` is true -/
  | done (acts : List Act)
deriving DecidableEq, Repr

/-- `calibrateMotors` with at most `fuel` passes of its loop. -/
def calibrate (ans : Nat → Var → Option Bool) (fuel : Nat) : Out :=
  match begin ans with
  | none => .undefined
  | some s => match loop ans fuel (middle ans s) with
    | none => .busy
    | some s => .done (reads ans [.enc false, .enc true] s).acts

/-! ### The thread and the watchdog -/

section Thread
variable {K : Type} [Field K] [LinearOrder K] [IsStrictOrderedRing K]

/-- The members which the blocks read, 289-292 (`none`: indeterminate), and the local `count` of `run`. -/
structure Mem (K : Type) where
  vel : Bool → Option K := fun _ => none
  stop : Bool → Option Bool := fun _ => none
  current : Bool → Option K := fun _ => none
  count : Nat := 0

/-- The answers of the drive in one pass: the reads of the velocities and of the endpoints with truth values. -/
structure Answers (K : Type) where
  vel : Bool → Option K
  flag : Nat → Option Bool

/-- One pass of the loop 504-514 without the set points; the second component says whether the watchdogs are fed (508-512).  A local variable whose read
failed has no value (432-438, 453-459).  `get_current_from_odrive` (464-474) has no caller. -/
def pass (a : Answers K) (m : Mem K) : Mem K × Bool :=
  let m := { m with vel := a.vel }
  let m := { m with stop := fun axis => a.flag (ident "endstop_state" axis) }
  if m.count % 500 = 0 then ({ m with count := 0 }, true) else ({ m with count := m.count + 1 }, false)

/-- `isEndstopActive`, 234-236: `||` of two members. -/
def isEndstopActive (m : Mem K) : Option Bool :=
  match m.stop false with
  | none => none
  | some true => some true
  | some false => m.stop true

/-- Passes one after the other: the members after them and which of them fed. -/
def runs : List (Answers K) → Mem K → Mem K × List Bool
  | [], m => (m, [])
  | a :: as, m => let (m1, f) := pass a m; let (m2, fs) := runs as m1; (m2, f :: fs)

/-- A watchdog of the drive: it trips if it is enabled and not fed for longer than `watchdog_timeout`, 1.0 s (305-307). -/
structure Wd (K : Type) where
  enabled : Bool
  last : K
  tripped : Bool

/-- A feed at time `t`; what happened since the last one is added. -/
def feed (w : Wd K) (t : K) : Wd K := { w with last := t, tripped := w.tripped || (w.enabled && decide (1 < t - w.last)) }

/-- The state at the time `t`, without a feed. -/
def look (w : Wd K) (t : K) : Bool := w.tripped || (w.enabled && decide (1 < t - w.last))

/-- Lines 489-491 at time `t`: feed and enable. -/
def arm (t : K) : Wd K := ⟨true, t, false⟩

/-- Passes which last `ds`, from time `t`; the feed is at the end of a pass.  Has the watchdog tripped at the end? -/
def live : List (Answers K × K) → Mem K → K → Wd K → Bool
  | [], _, t, w => look w t
  | (a, d) :: rest, m, t, w =>
    let (m1, f) := pass a m
    live rest m1 (t + d) (if f then feed w (t + d) else w)

/-- A pass has eight requests over USB (two set points, two velocities, two end switches, two feeds) and a pause of 1 ms. -/
def duration (requests : List K) : K := requests.sum + 1 / 1000

end Thread

end Verif.Hal.ODriveCalib
