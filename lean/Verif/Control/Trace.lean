/-!
Model of the block `Trace` (includes/eeros/control/Trace.hpp).  Value and time stamp are stored at the same index (40-41), so a sample is
one element; `getTrace` (49-63) and `getTimestampTrace` (64-78) run the same loops over the two buffers.
-/
namespace Verif.Control.Trace
variable {S : Type}

/-- 83-91; elements of a fresh buffer are uninitialised: `none`. -/
structure St (S : Type) where
  maxBufLen : Nat
  index : Nat
  cycle : Bool
  running : Bool
  buf : List (Option S)

/-- Constructor, 20-23. -/
def new (n : Nat) : St S := { maxBufLen := n, index := 0, cycle := false, running := false, buf := List.replicate n none }

inductive Op (S : Type) where
  | run (x : S)
  | enable
  | disable

/-- `run` 38-48, `enable` 80, `disable` 81.  `none`: write outside the buffer. -/
def step (s : St S) : Op S → Option (St S)
  | .run x =>
    if s.running then
      if s.index < s.buf.length then
        let buf := s.buf.set s.index (some x)
        let index := s.index + 1
        if index = s.maxBufLen then some { s with buf := buf, index := 0, cycle := true }
        else some { s with buf := buf, index := index }
      else none
    else some s
  | .enable => some { s with running := true }
  | .disable => some { s with running := false }

def exec (s : St S) (ops : List (Op S)) : Option (St S) := ops.foldlM step s

/-- `getTrace`, 49-63: the elements of the returned array (its length is the published `size`). -/
def getTrace (s : St S) : List (Option (Option S)) :=
  if s.cycle then (List.range s.maxBufLen).map (fun i => s.buf[(i + s.index) % s.maxBufLen]?)
  else (List.range s.index).map (fun i => s.buf[i]?)

end Verif.Control.Trace
