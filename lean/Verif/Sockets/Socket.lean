/-
Model of `sockets::SocketServer` and `sockets::SocketClient` (`/repo/includes/eeros/sockets/SocketServer.hpp` 23-155, `SocketClient.hpp` 21-141; the lines of the client
are cited, the loops of both are the same).

The thread is a state machine driven by events: the results of the system calls (`accept`/`connect`, `write`, `read`), of the comparison with the clock, and calls of `stop` by other threads.
The receive buffer is a list of `N` bytes, `N = BufOutLen * sizeof(outT)`; a byte which was never initialised is `none`.
A call which blocks is a machine which gets no event.  Not modelled: creation of the socket and its faults, the content of the send
buffer, sleeping, data races on `connected`, `running` and `newData`, which are neither atomic nor protected.  The specialisations which receive nothing are not modelled.
Reading the receive buffer by reference is modelled on its own, at the end.
-/

namespace Verif.Sockets

abbrev Byte := Fin 256

/-- A buffer in memory. -/
abbrev Buf := List (Option Byte)

/-- Result of `read` (109): some bytes, 0 (the partner closed the connection), -1. -/
inductive ReadResult where
  | data (bs : List Byte)
  | eof
  | error
deriving DecidableEq

inductive Event where
  /-- `accept` or `connect` returns with a connection (79) -/
  | connect
  /-- `connect` failed, another try (79-82) -/
  | connectFailed
  /-- `write` returned (94); was it successful? -/
  | write (ok : Bool)
  /-- the clock is read (105): is it late? and `read` returned (109) -/
  | read (late : Bool) (r : ReadResult)
  /-- the buffer is cleared (125) -/
  | clear
  /-- another thread calls `stop` (35-37) -/
  | stop
deriving DecidableEq

/-- Where the thread is. -/
inductive Phase where
  /-- waiting for a connection (79) -/
  | connecting
  /-- in front of `write` (94) -/
  | writing
  /-- in front of the test 105, `done` bytes of the frame were read -/
  | reading (done : Nat)
  /-- behind the inner loop (123) -/
  | lost
  /-- `run` returned -/
  | ended
deriving DecidableEq

/-- `bread`: local array `b_read` (84).  `pubs`: a record of all publications (117-120 and 125-126): number of the connection, `connected` at that time, buffer. -/
structure State where
  running : Bool
  connected : Bool
  phase : Phase
  bread : Buf
  rxBuf : Buf
  conn : Nat
  pubs : List (Nat × Bool × Buf)
deriving DecidableEq

/-- 62-79: `running = true`; `rxBuf` is not initialised. -/
def init (N : Nat) : State :=
  { running := true, connected := false, phase := .connecting, bread := [], rxBuf := List.replicate N none, conn := 0, pubs := [] }

/-- Bytes `bs` are written at position `i`. -/
def put (b : Buf) (i : Nat) (bs : List Byte) : Buf := b.take i ++ bs.map some ++ b.drop (i + bs.length)

/-- 117-121 and the test 87. -/
def publish (s : State) : State :=
  { s with rxBuf := s.bread, pubs := s.pubs ++ [(s.conn, s.connected, s.bread)], phase := if s.connected then .writing else .lost }

/-- The test 104: `connected && count`. -/
def loopTest (N done : Nat) (s : State) : State := if s.connected = true ∧ done ≠ N then { s with phase := .reading done } else publish s

/-- One event; `none`: the event cannot happen in this state. -/
def step (N : Nat) (e : Event) (s : State) : Option State :=
  match e, s.phase with
  | .stop, _ => some { s with running := false }
  | .connectFailed, .connecting => some s
  | .connect, .connecting =>                       -- 84-87
    some { s with connected := true, bread := List.replicate N none, conn := s.conn + 1, phase := .writing }
  | .write ok, .writing =>                         -- 94-104
    some (loopTest N 0 (if ok then s else { s with connected := false }))
  | .read late r, .reading done =>                 -- 105-116
    let s := if late then { s with connected := false } else s
    match r with
    | .data bs =>
      if bs ≠ [] ∧ done + bs.length ≤ N then       -- `read` returns at least one and at most `count` bytes
        some (loopTest N (done + bs.length) { s with bread := put s.bread done bs })
      else none
    | .eof => some (loopTest N done s)
    | .error => some (publish { s with connected := false })    -- `count` is incremented, the test fails nevertheless
  | .clear, .lost =>                               -- 123-127 and the test 63
    some { s with rxBuf := List.replicate N (some 0), pubs := s.pubs ++ [(s.conn, false, List.replicate N (some 0))],
                  phase := if s.running then .connecting else .ended }
  | _, _ => none

def run (N : Nat) : List Event → State → Option State
  | [], s => some s
  | e :: es, s => do
    let s ← step N e s
    run N es s

/-! ### Reading by reference -/

/-- `getReceiveBuffer` (47-50) returns a reference: the caller reads the elements after the lock was released, in order; meanwhile the thread may execute the loop 118.
`w` and `r` are the numbers of elements written and read so far, `got` what was read. -/
structure Ref (α : Type) where
  buf : List α
  w : Nat
  got : List α

/-- `true`: the thread copies the next element of `new`; `false`: the caller reads its next element. -/
def refStep {α : Type} (new : List α) (thread : Bool) (s : Ref α) : Option (Ref α) :=
  if thread then do
    let x ← new[s.w]?
    some { s with buf := s.buf.set s.w x, w := s.w + 1 }
  else do
    let x ← s.buf[s.got.length]?
    some { s with got := s.got ++ [x] }

def refRun {α : Type} (new : List α) : List Bool → Ref α → Option (Ref α)
  | [], s => some s
  | b :: bs, s => do
    let s ← refStep new b s
    refRun new bs s

end Verif.Sockets
