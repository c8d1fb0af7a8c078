/-!
Model of the start and the end of the devices which run in their own thread.  Two kinds:
* with the flag `starting`: BaumerOM70 (src/hal/BaumerOM70.cpp:5-28, 81-87), RPLidar (src/hal/RPLidar.cpp:5-58, 78-81), PixyCam
  (includes/eeros/hal/PixyCam.hpp:36-57, 117-120), SBGEllipseA (includes/eeros/hal/SBGEllipseA.hpp:33-70, 90-97);
* without it: Keyboard (src/hal/Keyboard.cpp:14-24), Mouse (src/hal/Mouse.cpp:34-37, 72-76), XBox (src/hal/XBox.cpp:41-44, 78-82),
  SpaceNavigator (src/hal/SpaceNavigator.cpp:25-29, 91-97).
`join` is Thread::join (src/core/Thread.cpp:31-33).  Every step is atomic; the body of the loop takes one step and does not block.
-/
namespace Verif.Hal.DeviceThread

/-- Program counter of the thread which owns the device. -/
inductive Main where
  /-- In the constructor, before the last statement. -/
  | constructing
  /-- The constructor has returned. -/
  | alive
  /-- The destructor has executed `running = false` and waits in `join`. -/
  | joining
  /-- `join` has returned. -/
  | done
deriving DecidableEq, Repr

/-- Program counter of the thread of the device. -/
inductive Worker where
  /-- `while(starting);` -/
  | waiting
  /-- Before `running = true`. -/
  | set
  /-- `while (running) { ... }` -/
  | loop
  | exited
deriving DecidableEq, Repr

structure St where
  main : Main
  worker : Worker
  starting : Bool
  running : Bool
deriving DecidableEq, Repr

/-- `handshake`: the class has the flag `starting`. -/
def init (handshake : Bool) : St := ⟨.constructing, if handshake then .waiting else .set, handshake, false⟩

/-- One step of the owner.  `connected`: the device was found; otherwise the constructor returns early. -/
def stepMain (connected : Bool) (s : St) : St :=
  match s.main with
  | .constructing => { s with main := .alive, starting := if connected then false else s.starting }
  | .alive => { s with main := .joining, running := false }
  | .joining => if s.worker = .exited then { s with main := .done } else s
  | .done => s

/-- One step of the thread of the device. -/
def stepWorker (s : St) : St :=
  match s.worker with
  | .waiting => if s.starting then s else { s with worker := .set }
  | .set => { s with worker := .loop, running := true }
  | .loop => if s.running then s else { s with worker := .exited }
  | .exited => s

inductive Who where
  | main
  | worker
deriving DecidableEq, Repr

def step (connected : Bool) (s : St) : Who → St
  | .main => stepMain connected s
  | .worker => stepWorker s

def run (connected : Bool) (s : St) (sched : List Who) : St := sched.foldl (step connected) s

end Verif.Hal.DeviceThread
