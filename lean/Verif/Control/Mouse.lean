/-
Model of `control::MouseInput` (`/repo/src/control/MouseInput.cpp`), in exact arithmetic over an ordered field.  The axes x, y, z, r are the indices
0 to 3; the counters of the mouse (`hal::Mouse`, `current.axis`) are an argument of `run` and `reset`, so any history of movements is covered; each call sees one
value of them (the thread of the mouse may change them in the middle of a call, which is not modelled).  Buttons and time stamps are left out.
-/
import Mathlib.Algebra.Order.Field.Basic
import Mathlib.Data.Rat.Defs

namespace Verif.Control.Mouse
variable {K : Type} [Field K] [LinearOrder K]

/-- Configuration (`MouseInput.hpp` 127-138, `MouseInput.cpp` 14-25). -/
structure Cfg (K : Type) where
  scale : Fin 4 → K
  min : Fin 4 → K
  max : Fin 4 → K

/-- Members and output. -/
structure St (K : Type) where
  off : Fin 4 → K
  first : Bool
  out : Fin 4 → K

/-- The axis of the mouse used for the offset of axis `i` (32-35, 81-84): x and y are exchanged. -/
def src (i : Fin 4) : Fin 4 := if i = 0 then 1 else if i = 1 then 0 else i

/-- `reset` (80-85). -/
def reset (c : Cfg K) (s : St K) (m p : Fin 4 → K) : St K := { s with off := fun i => p i - c.scale i * m (src i) }

/-- `setInitPos` (71-74). -/
def setInitPos (c : Cfg K) (s : St K) (m p : Fin 4 → K) : St K := { reset c s m p with out := p }

/-- The constructors (8-28); the uninitialised offsets are written by `setInitPos`. -/
def new (c : Cfg K) (m : Fin 4 → K) : St K :=
  setInitPos c { off := fun _ => 0, first := true, out := fun _ => 0 } m (fun _ => 0)

/-- One axis (39-42): new offset and output. -/
def axis (scale min max off m : K) : K × K :=
  let v := scale * m
  let off := if off + v < min then min - v else if off + v > max then max - v else off
  (off, v + off)

/-- `run` (30-65). -/
def run (c : Cfg K) (s : St K) (m : Fin 4 → K) : St K :=
  let off := if s.first then fun i => c.scale i * -m (src i) else s.off
  { off := fun i => (axis (c.scale i) (c.min i) (c.max i) (off i) (m i)).1
    first := false
    out := fun i => (axis (c.scale i) (c.min i) (c.max i) (off i) (m i)).2 }

end Verif.Control.Mouse
