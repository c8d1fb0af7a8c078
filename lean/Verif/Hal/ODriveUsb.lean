/-!
Model of the drive `hal::ODriveUSB` (includes/eeros/hal/ODriveUSB.hpp): selection of the device (`init`, 76-183), the constructor (43-56),
the thread (`run`, 478-514) and the destructor (61-73).  libusb is not part of the repository; the class `ODriveEP` is modelled in Verif.External.ODriveEP.  A call of
`ep->setData`, `getData` or `execFunc` is an access to the object `*ep`.
-/
namespace Verif.Hal.ODriveUsb

section Select

/-- One digit of `std::uppercase << std::hex`. -/
def digit (n : Nat) : Char := if n < 10 then Char.ofNat (48 + n) else Char.ofNat (55 + n)

/-- Digits of a positive number, most significant first, without leading zeros. -/
def digits (n : Nat) : List Char :=
  if h : n = 0 then [] else digits (n / 16) ++ [digit (n % 16)]
termination_by n
decreasing_by omega

/-- `strea << std::uppercase << std::hex << odrive_serialnr`, 162-164. -/
def hex (n : Nat) : List Char := if n = 0 then ['0'] else digits n

/-- What happens with one device of the list.  `product`: vendor and product id are those of an ODrive; `serial`: the string descriptor, `none` if the
device can not be opened, claimed or read. -/
structure Device where
  product : Bool
  serial : Option (List Char)

/-- `sn.compare(0, strlen(buf), buf) == 0`, 165: the first `strlen(buf)` characters of `sn` (fewer if it is shorter) are compared with `buf`. -/
def same (sn buf : List Char) : Bool := sn.take buf.length == buf

/-- Is the device attached to the handle?  Lines 128-171. -/
def attaches (nr : Nat) (d : Device) : Bool :=
  d.product && match d.serial with
  | none => false
  | some [] => false
  | some buf => same (hex nr) buf

/-- The outcome of `init`: the result of the function and the index of the device which `ep->devHandle` refers to. -/
structure Res where
  ret : Int
  handle : Option Nat
deriving DecidableEq, Repr

/-- The loop 123-180 from index `i` on. -/
def scan (nr : Nat) : Nat → List Device → Option Nat
  | _, [] => none
  | i, d :: ds => if attaches nr d then some i else scan nr (i + 1) ds

/-- `init`, 76-183, after `libusb_init`, for a list of devices (88-90: no device).  The reset of the devices (92-119) is left out. -/
def init (nr : Nat) (ds : List Device) : Res :=
  if ds.length = 0 then ⟨ds.length, none⟩
  else match scan nr 0 ds with
    | some i => ⟨0, some i⟩
    | none => ⟨1, none⟩

/-- The constructor, 49-52: is the error message logged? -/
def reported (r : Res) : Bool := r.ret ≠ 0

end Select

section Config

/-- The settings of the end switches of the two motors. -/
inductive Param where
  | gpio (motor : Bool)
  | activeHigh (motor : Bool)
  | enabled (motor : Bool)
deriving DecidableEq

/-- The writes of lines 309-314 in their order (`false`: motor 0, `true`: motor 1). -/
def endstopWrites : List (Param × Nat) :=
  [(.gpio false, 5), (.gpio false, 6), (.activeHigh false, 0), (.activeHigh false, 0), (.enabled false, 1), (.enabled true, 1)]

/-- The settings in the drive after `config`. -/
def config (drive : Param → Nat) : Param → Nat :=
  endstopWrites.foldl (fun f w p => if p = w.1 then w.2 else f p) drive

end Config

section Threads
variable {K : Type} [Mul K] [Zero K]

/-- Program counter of the owner. -/
inductive Main where
  /-- before line 55 -/
  | constructing
  | alive
  /-- lines 63-66 done: set points zero, drives idle, watchdog off -/
  | zeroed
  /-- lines 67-71 done -/
  | deleted
  /-- line 72 done; in `~Thread` -/
  | joining
  | done
deriving DecidableEq, Repr

/-- Program counter of the thread. -/
inductive Worker where
  /-- 479 -/
  | waiting
  /-- 483-486 -/
  | waitCmd
  /-- 487 -/
  | calibrating
  /-- 489-503 (the loop 493-502 is never executed: `calibrated` is true) -/
  | set
  /-- the test of 504 -/
  | loop
  /-- 505-513 -/
  | body
  | exited
deriving DecidableEq, Repr

/-- `sent`: the set points of motor 0 and 1 which were written to the drive, newest first; `none`: an indeterminate value. -/
structure St (K : Type) where
  main : Main
  worker : Worker
  starting : Bool
  running : Bool
  /-- `startCalibrationCmd` -/
  cmd : Bool
  /-- `*ep` was deleted -/
  freed : Bool
  /-- `*ep` was used after it was deleted -/
  misuse : Bool
  ref0 : Option K
  ref1 : Option K
  sent : List (Option K × Option K)

def start : St K := ⟨.constructing, .waiting, true, false, false, false, false, none, none, []⟩

inductive Op (K : Type) where
  | main
  /-- `ready`: the drive says that it is calibrated -/
  | worker (ready : Bool)
  | startCalibration
  | setRefVel (motor : Nat) (speed turns : K)

def use (s : St K) : St K := { s with misuse := s.misuse || s.freed }

def stepMain (s : St K) : St K :=
  match s.main with
  | .constructing => { s with main := .alive, starting := false }
  | .alive => { s with main := .zeroed, sent := (some 0, some 0) :: s.sent }
  | .zeroed => { s with main := .deleted, freed := true }
  | .deleted => { s with main := .joining, running := false }
  | .joining => if s.worker = .exited then { s with main := .done } else s
  | .done => s

def stepWorker (ready : Bool) (s : St K) : St K :=
  match s.worker with
  | .waiting => if s.starting then s else { s with worker := .waitCmd }
  | .waitCmd => if s.cmd then { s with worker := .calibrating } else use s
  | .calibrating => if ready then use { s with worker := .set } else use s
  | .set => use { s with worker := .loop, running := true }
  | .loop => if s.running then { s with worker := .body } else { s with worker := .exited }
  | .body => use { s with worker := .loop, sent := (s.ref0, s.ref1) :: s.sent }
  | .exited => s

/-- `startCalibration` (230-232) and `setRefVel` (214-218) are called while the object exists. -/
def step (s : St K) : Op K → St K
  | .main => stepMain s
  | .worker ready => stepWorker ready s
  | .startCalibration => if s.main = .alive then { s with cmd := true } else s
  | .setRefVel m speed turns =>
    if s.main = .alive then
      if m = 0 then { s with ref0 := some (turns * speed) } else if m = 1 then { s with ref1 := some (turns * speed) } else s
    else s

def run (s : St K) (ops : List (Op K)) : St K := ops.foldl step s

end Threads

end Verif.Hal.ODriveUsb
