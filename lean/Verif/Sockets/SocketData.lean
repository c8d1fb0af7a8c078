/-!
Model of two connected `SocketData` blocks (includes/eeros/control/SocketData.hpp:46-111 and its specialisations), one of them server, the other client, with
the cycles of their threads (includes/eeros/sockets/SocketServer.hpp:98-135, SocketClient.hpp:87-121): in every cycle a thread writes its send buffer, then
reads a whole buffer, then stores it.  The two sides are `false` and `true`; both have the same code.

A signal is a list of `N` bytes; the types, the byte order and the size are the same on both sides, so encoding is the identity.  That a thread reads
exactly `N` bytes, in whatever portions they arrive, is shown in `Verif.Sockets.Props` (`framing_partial`); so `read` is one step here.  Storing the buffer and its copy
by the block are single steps (torn reads: `Verif.Sockets.torn`).  Not modelled: timeouts and faults, except that a connection is lost at any time.
-/
namespace Verif.Sockets.Data

abbrev Byte := Fin 256
abbrev Frame := List Byte

/-- One side: `tx`, `rx`: send and receive buffer; `out`: output of the block; `reading`: the thread has written in this cycle and waits for data;
`newData`.  `sent`, `got`: record of the frames written and stored on this connection. -/
structure Side where
  tx : Frame
  rx : Frame
  out : Frame
  reading : Bool
  newData : Bool
  sent : List Frame
  got : List Frame
deriving DecidableEq

/-- `wire s`: bytes written by the side `s` which the other side has not read. -/
structure St where
  side : Bool → Side
  wire : Bool → List Byte

inductive Op where
  /-- the block runs: receive part (71-79, 87), then send part with the value `v` of the input (80-85); `none`: the input is not connected -/
  | run (s : Bool) (v : Option Frame)
  /-- the thread writes (SocketServer.hpp:102-106); `k` bytes are accepted by the system; the result is only tested for being negative (107) -/
  | write (s : Bool) (k : Nat)
  /-- the thread reads a whole buffer and stores it (113-133) -/
  | read (s : Bool)
  /-- `resetNew` (SocketData.hpp:109-111) -/
  | reset (s : Bool)
  /-- the connection is lost and established again: the buffers are cleared (SocketServer.hpp:138-139) -/
  | lost
deriving DecidableEq

/-- Replace one side. -/
def St.upd (st : St) (s : Bool) (x : Side) : St := { st with side := fun t => if t = s then x else st.side t }

def step (N : Nat) (st : St) : Op → St
  | .run s v =>
    let x := st.side s
    st.upd s { x with out := x.rx, tx := v.getD x.tx }
  | .write s k =>
    let x := st.side s
    if x.reading then st
    else { st.upd s { x with reading := true, sent := x.sent ++ [x.tx] } with
           wire := fun t => if t = s then st.wire t ++ x.tx.take k else st.wire t }
  | .read s =>
    let x := st.side s
    let w := st.wire (!s)
    if x.reading ∧ N ≤ w.length then
      { st.upd s { x with reading := false, rx := w.take N, newData := true, got := x.got ++ [w.take N] } with
        wire := fun t => if t = !s then w.drop N else st.wire t }
    else st
  | .reset s => st.upd s { st.side s with newData := false }
  | .lost =>
    { side := fun t => { st.side t with rx := List.replicate N 0, newData := true, reading := false, sent := [], got := [] }
      wire := fun _ => [] }

/-- Initially the send and receive buffers (`junk`) are not initialised: arbitrary values. -/
def start (junkTx junkRx : Bool → Frame) : St :=
  { side := fun s => ⟨junkTx s, junkRx s, junkRx s, false, false, [], []⟩, wire := fun _ => [] }

def exec (N : Nat) (st : St) (ops : List Op) : St := ops.foldl (step N) st

end Verif.Sockets.Data
