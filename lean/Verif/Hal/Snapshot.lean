/-!
Model of a device thread which stores the results of a measurement in several fields, one after the other and without a lock, while a block reads the fields for
its outputs, which all get the same time stamp: `PixyCam::run` (includes/eeros/hal/PixyCam.hpp:117-215) stores the dots (123-127), the height (162), the validity
(177-178), the raw position (210) and the position (211); `PixyCamInput::run` (includes/eeros/control/sensor/PixyCamInput.hpp:99-115) reads position, raw position,
dots, height and validity.  In the same way the blocks for the space navigator, the keyboard and the Xbox controller.

Storing and reading one field is a single step here (vectors: `Verif.Hal.Torn`).  Instead of the values the model keeps the number of the measurement they
come from.
-/
namespace Verif.Hal.Snapshot

/-- `pic`: the number of the measurement being stored; `todo`: its fields not yet stored; `stamp`: the number of the measurement of each field; `toread`: the
fields not yet read by the block; `got`: what was read in this run. -/
structure St (F : Type) where
  pic : Nat
  todo : List F
  stamp : F → Nat
  toread : List F
  got : List (F × Nat)

inductive Step where
  /-- the next measurement -/
  | next
  /-- the thread stores a field -/
  | store
  /-- the block starts to run -/
  | begin
  /-- the block reads a field -/
  | read
deriving DecidableEq

variable {F : Type} [DecidableEq F]

/-- `W`: the fields in the order of the thread, `R`: in the order of the block.  Steps which are not possible do nothing. -/
def step (W R : List F) (s : St F) : Step → St F
  | .next => match s.todo with
    | [] => { s with pic := s.pic + 1, todo := W }
    | _ => s
  | .store => match s.todo with
    | [] => s
    | f :: l => { s with stamp := fun g => if g = f then s.pic else s.stamp g, todo := l }
  | .begin => match s.toread with
    | [] => { s with toread := R, got := [] }
    | _ => s
  | .read => match s.toread with
    | [] => s
    | f :: l => { s with toread := l, got := s.got ++ [(f, s.stamp f)] }

/-- Initially the fields are those of measurement 0, the initial values. -/
def new : St F := ⟨0, [], fun _ => 0, [], []⟩

def run (W R : List F) (s : St F) (l : List Step) : St F := l.foldl (step W R) s

/-- The fields of the camera. -/
inductive Field where
  | dots | height | valid | raw | pos
deriving DecidableEq

/-- The order in PixyCam.hpp. -/
def camera : List Field := [.dots, .height, .valid, .raw, .pos]

/-- The order in PixyCamInput.hpp. -/
def block : List Field := [.pos, .raw, .dots, .height, .valid]

end Verif.Hal.Snapshot
