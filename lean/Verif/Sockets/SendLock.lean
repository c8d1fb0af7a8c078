/-!
Model of the lock between the control loop, which calls `setSendBuffer`, and the thread of a socket, which copies the send buffer and writes it to the network:
`SocketServer` with both directions (includes/eeros/sockets/SocketServer.hpp:102-106) and without receiving (228-231), `SocketClient` with both
directions (includes/eeros/sockets/SocketClient.hpp:88-94) and without receiving (204-217), `setSendBuffer` (SocketClient.hpp:52-55, 170-173).

All of them lock the mutex, copy the buffer and write it.  `early`: the mutex is unlocked before `write` (all but the client without receiving, which unlocks
after `write`, SocketClient.hpp:208-211).  `write` returns when the network takes the data, which is an event from outside.  What the data are is the subject of
`Verif.Sockets.SocketData`.
-/
namespace Verif.Sockets.SendLock

inductive Who where
  | net | ctl
deriving DecidableEq

/-- The thread of the socket: waiting for its next cycle, wanting the lock, copying (`k` values left), in `write`, returned from `write`. -/
inductive Net where
  | sleep
  | want
  | copying (k : Nat)
  | writing
  | wrote
deriving DecidableEq

/-- The control loop: outside of `setSendBuffer`, waiting for the lock, holding it. -/
inductive Ctl where
  | outside
  | waiting
  | inside
deriving DecidableEq

/-- `entered`: how often the control loop got the lock. -/
structure St where
  net : Net
  ctl : Ctl
  owner : Option Who
  entered : Nat
deriving DecidableEq

def new : St := ⟨.sleep, .outside, none, 0⟩

/-- A step of the thread of the socket, of the control loop, the end of the sleep and the end of `write`. -/
inductive Ev where
  | net | ctl | wake | done
deriving DecidableEq

/-- `n`: the length of the buffer. -/
def step (early : Bool) (n : Nat) (s : St) : Ev → St
  | .net => match s.net with
    | .want => if s.owner = none then { s with net := .copying n, owner := some .net } else s
    | .copying (k + 1) => { s with net := .copying k }
    | .copying 0 => if early then { s with net := .writing, owner := none } else { s with net := .writing }
    | .wrote => if early then { s with net := .sleep } else { s with net := .sleep, owner := none }
    | .sleep => s
    | .writing => s
  | .ctl => match s.ctl with
    | .outside => { s with ctl := .waiting }
    | .waiting => if s.owner = none then { s with ctl := .inside, owner := some .ctl, entered := s.entered + 1 } else s
    | .inside => { s with ctl := .outside, owner := none }
  | .wake => if s.net = .sleep then { s with net := .want } else s
  | .done => if s.net = .writing then { s with net := .wrote } else s

def run (early : Bool) (n : Nat) (s : St) (l : List Ev) : St := l.foldl (step early n) s

end Verif.Sockets.SendLock
