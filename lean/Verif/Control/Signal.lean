/-!
Model of `Signal<T>` (includes/eeros/control/Signal.hpp) and of the counter of the signals (src/control/Signal.cpp:5).  One state
holds all signals of all types, in the order of their creation; names are left out.  `V` is the type of the values, `cleared` the
value written by `clear` (smallest value for integers, NaN for floating point numbers, 159-178).
-/
namespace Verif.Control.Signal

/-- Members of a signal, Signal.hpp:153-156.  `none`: not initialised. -/
structure Sig (V : Type) where
  value : Option V
  timestamp : Option Nat
  id : Nat

structure St (V : Type) where
  /-- `signalCounter`, `uint16_t`. -/
  counter : Nat
  sigs : List (Sig V)
  /-- `signalList`, Signal.hpp:180; pointers to signals. -/
  signalList : List Nat

/-- Signal.cpp:5, Signal.hpp:185. -/
def init (V : Type) : St V := ⟨1, [], []⟩

inductive Op (V : Type) where
  /-- Constructor, 30-32. -/
  | construct
  /-- Implicit copy constructor. -/
  | copy (i : Nat)
  /-- `setTimestamp`, 111-113. -/
  | setTimestamp (i t : Nat)
  /-- `setValue`, 88-90, and `operator=(T)`, 128-131. -/
  | setValue (i : Nat) (v : V)
  /-- `operator=(Signal<T>)`, 122-126. -/
  | assign (i j : Nat)
  /-- `clear`, 118-120. -/
  | clear (i : Nat)

def step {V : Type} (cleared : V) (s : St V) : Op V → St V
  | .construct => { s with counter := (s.counter + 1) % 65536, sigs := s.sigs ++ [⟨none, none, s.counter⟩] }
  | .copy i => match s.sigs[i]? with
    | some g => { s with sigs := s.sigs ++ [g] }
    | none => s
  | .setTimestamp i t => { s with sigs := s.sigs.modify i (fun g => { g with timestamp := some t }) }
  | .setValue i v => { s with sigs := s.sigs.modify i (fun g => { g with value := some v }) }
  | .assign i j => match s.sigs[j]? with
    | some r => { s with sigs := s.sigs.modify i (fun g => { g with value := r.value, timestamp := r.timestamp }) }
    | none => s
  | .clear i => { s with sigs := s.sigs.modify i (fun g => { g with value := some cleared, timestamp := some 0 }) }

/-- `getId`, 39-41: `static_cast<uint32_t>(id) << 16`. -/
def getId {V : Type} (g : Sig V) : Nat := g.id * 65536 % 4294967296

/-- `getSignalById`, 141-150; the result is the place of the signal, `none` is the null pointer. -/
def getSignalById {V : Type} (s : St V) (id : Nat) : Option Nat :=
  s.signalList.find? (fun p => (s.sigs[p]?).any (fun g => getId g = id))

/-- History, newest operation first. -/
def after {V : Type} (cleared : V) : List (Op V) → St V
  | [] => init V
  | op :: h => step cleared (after cleared h) op

end Verif.Control.Signal
