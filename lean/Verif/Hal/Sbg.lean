/-!
Model of the data path of the inertial sensor SBG Ellipse-A: `SBGEllipseA::onLogReceived` (includes/eeros/hal/SBGEllipseA.hpp:148-192) and
`SBGEllipseAInput::run` (includes/eeros/control/sensor/SBGEllipseAInput.hpp:43-57).  The data are static members (72-75; src/hal/SBGEllipseA.cpp:5-8),
there is one copy for all devices of the process.  A message is stored at once here; the interleaving of its stores with the reads of the block is the
subject of `Verif.Hal.Torn`.  Life time of the thread: `Verif.Hal.DeviceThread`.
-/
namespace Verif.Hal.Sbg

/-- A log of the device `dev`: `V` stands for the values. -/
inductive Msg (V : Type) where
  | euler (dev : Nat) (v : V) (ts : UInt32)
  | quat (dev : Nat) (v : V) (ts : UInt32)
  | imu (dev : Nat) (acc gyro : V) (ts : UInt32)
  | fastImu (dev : Nat) (acc gyro : V) (ts : UInt32)
  | other (dev : Nat)

/-- The static members. -/
structure St (V : Type) where
  euler : V
  quat : V
  acc : V
  gyro : V
  tsEuler : UInt32 := 0
  tsQuat : UInt32 := 0
  tsAcc : UInt32 := 0
  tsGyro : UInt32 := 0
  count : UInt32 := 0
  count0 : UInt32 := 0
  countEuler : UInt32 := 0
  countQuat : UInt32 := 0
  countImu : UInt32 := 0

variable {V : Type}

/-- `onLogReceived` (148-192). -/
def received (s0 : St V) (m : Msg V) : St V :=
  let s := { s0 with count := s0.count + 1 }
  match m with
  | .euler _ v ts => { s with euler := v, tsEuler := ts, countEuler := s.countEuler + 1 }
  | .quat _ v ts => { s with quat := v, tsQuat := ts, countQuat := s.countQuat + 1 }
  | .imu _ a g ts => { s with acc := a, tsAcc := ts, gyro := g, tsGyro := ts, countImu := s.countImu + 1 }
  | .fastImu _ a g ts => { s with acc := a, tsAcc := ts, gyro := g, tsGyro := ts }
  | .other _ => { s with count0 := s.count0 + 1 }

/-- The outputs of the block (44-56): values, the output `timestamp` and the time stamp of the five signals. -/
structure Out (V : Type) where
  euler : V
  quat : V
  acc : V
  gyro : V
  timestamp : UInt32
  stamp : Nat

/-- `SBGEllipseAInput::run` (43-57), for the block of any device. -/
def block (s : St V) (now : Nat) : Out V := ⟨s.euler, s.quat, s.acc, s.gyro, s.tsEuler, now⟩

def run (s : St V) (ms : List (Msg V)) : St V := ms.foldl received s

end Verif.Hal.Sbg
