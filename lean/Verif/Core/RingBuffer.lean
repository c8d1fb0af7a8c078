/-!
Model of `includes/eeros/core/RingBuffer.hpp` (template `RingBuffer<T, N>`).
(`src/core/RingBuffer.cpp` is not part of the build.)
-/
namespace Verif.Core.RingBuffer

/-- RingBuffer.hpp:35-39.  `items i = none` is a never written (uninitialised) element. -/
structure St (T : Type) where
  tail : Nat
  len : Nat
  items : Nat → Option T

/-- Constructor, RingBuffer.hpp:13. -/
def init {T : Type} : St T := ⟨0, 0, fun _ => none⟩

inductive Op (T : Type) where
  | push (v : T)
  | pop
  | length

/-- Results.  `ub` = an uninitialised element was read. -/
inductive Res (T : Type) where
  | pushed (ok : Bool)
  | popped (v : T)
  | empty
  | length (n : Nat)
  | ub
deriving DecidableEq, Repr

variable {T : Type}

/-- `push` (15-20), `pop` (22-29), `length` (31).  `push` and `pop` hold the mutex, so a concurrent execution
is a list of these steps. -/
def step (N : Nat) (s : St T) : Op T → St T × Res T
  | .push v =>
    if s.len = N then (s, .pushed false)
    else ({ s with items := fun i => if i = (s.tail + s.len) % N then some v else s.items i,
                   len := s.len + 1 }, .pushed true)
  | .pop =>
    if s.len = 0 then (s, .empty)
    else match s.items s.tail with
      | some v => ({ s with tail := (s.tail + 1) % N, len := s.len - 1 }, .popped v)
      | none => (s, .ub)
  | .length => (s, .length s.len)

/-- The results of a history of operations. -/
def exec (N : Nat) : St T → List (Op T) → List (Res T)
  | _, [] => []
  | s, op :: ops => (step N s op).2 :: exec N (step N s op).1 ops

/-! Specification: a bounded FIFO queue. -/

def specStep (N : Nat) (q : List T) : Op T → List T × Res T
  | .push v => if q.length < N then (q ++ [v], .pushed true) else (q, .pushed false)
  | .pop => match q with
    | [] => ([], .empty)
    | v :: q' => (q', .popped v)
  | .length => (q, .length q.length)

def specExec (N : Nat) : List T → List (Op T) → List (Res T)
  | _, [] => []
  | q, op :: ops => (specStep N q op).2 :: specExec N (specStep N q op).1 ops

end Verif.Core.RingBuffer
