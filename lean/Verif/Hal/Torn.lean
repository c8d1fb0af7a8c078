/-!
Model of a vector which a device thread writes element by element while a block copies it element by element, without a lock:
`translation << x, y, z` (src/hal/RealsenseT265.cpp:30-35), `eulerData << ...` (includes/eeros/hal/SBGEllipseA.hpp:152-184) on one side,
`setValue(SBGEllipseA::eulerData)` (includes/eeros/control/sensor/SBGEllipseAInput.hpp:44-47) and
includes/eeros/control/sensor/RealsenseT265Input.hpp on the other.  The elements are stored in ascending order by `operator<<` and `operator,` (Matrix.hpp),
the copy is taken to be in ascending order too.  A single element is stored and loaded at once here.
-/
namespace Verif.Hal.Torn

/-- `vec`: the shared vector; `msg`, `w`: the message being stored and the number of elements stored; `out`, `r`: the copy and the number of elements
copied; a copy is complete when `r` is the number of elements. -/
structure St (n : Nat) (V : Type) where
  vec : Fin n → V
  msg : Fin n → V
  w : Nat
  out : Fin n → V
  r : Nat

variable {n : Nat} {V : Type}

/-- Steps: the thread begins to store a message (when the last one is complete), stores the next element; the block begins a copy, copies the next
element. -/
inductive Step (n : Nat) (V : Type) where
  | begin (m : Fin n → V)
  | store
  | copy
  | load

def step (s : St n V) : Step n V → St n V
  | .begin m => if s.w = n then { s with msg := m, w := 0 } else s
  | .store => if h : s.w < n then { s with vec := fun i => if i = ⟨s.w, h⟩ then s.msg i else s.vec i, w := s.w + 1 } else s
  | .copy => if s.r = n then { s with r := 0 } else s
  | .load => if h : s.r < n then { s with out := fun i => if i = ⟨s.r, h⟩ then s.vec i else s.out i, r := s.r + 1 } else s

/-- The vector is zero or undefined initially: any value, not being written or copied. -/
def new (v : Fin n → V) : St n V := ⟨v, v, n, v, n⟩

def run (s : St n V) (steps : List (Step n V)) : St n V := steps.foldl step s

end Verif.Hal.Torn
