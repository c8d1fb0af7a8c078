/-!
Model of the keyboard input: `KeyList` (includes/eeros/hal/KeyList.hpp), `Keyboard::run` (src/hal/Keyboard.cpp:21-34),
`KeyboardDigIn::get` (includes/eeros/hal/KeyboardDigIn.hpp:43-52) and `KeyboardInput` (includes/eeros/control/KeyboardInput.hpp:36-86).

The four parallel vectors of the list are one list of records (they are always extended together, KeyList.hpp:43-46).
Simplified: each operation is atomic although the vectors are shared by threads without a lock.
-/
namespace Verif.Hal.Keyboard

/-- One entry of the vectors `key`, `asciiCode`, `state`, `event`, KeyList.hpp:52-55. -/
structure Key where
  name : String
  code : Char
  state : Bool
  event : Bool
deriving DecidableEq, Repr

/-- `nofKeys` is a `uint8_t` (51), zero before the first call because the list is a static object (29). -/
structure St where
  nofKeys : Nat
  keys : List Key
deriving DecidableEq, Repr

def init : St := ⟨0, []⟩

/-- `addKeys`, KeyList.hpp:40-49; `none`: reads beyond the end of `name`.  The index used for `name` is the 8 bit counter. -/
def addKeys (s : St) (codes : List Char) (names : List String) : Option St :=
  let rec go (n : Nat) (keys : List Key) : List Char → Option St
    | [] => some ⟨n, keys⟩
    | c :: cs => match names[n]? with
      | none => none
      | some nm => go ((n + 1) % 256) (keys ++ [⟨nm, c, false, false⟩]) cs
  go 0 s.keys codes

inductive Op where
  /-- `std::cin.get()` delivers a character, Keyboard.cpp:25-30 -/
  | press (c : Char)
  /-- `KeyboardInput::reset`, KeyboardInput.hpp:80-85 -/
  | reset (index : Nat)
  /-- `KeyboardDigIn::get` of the input with this id, KeyboardDigIn.hpp:43-52 -/
  | get (id : String)
deriving DecidableEq, Repr

/-- Applies `f` to entry `i` of the list. -/
def modify (keys : List Key) (i : Nat) (f : Key → Key) : List Key := keys.mapIdx (fun j k => if j = i then f k else k)

/-- The first index below `n` whose key has the given name. -/
def find (keys : List Key) (n : Nat) (id : String) : Option Nat := (List.range n).find? (fun i => keys[i]?.map Key.name = some id)

/-- The state after an operation and, for `get`, its result.  (`reset` with an index out of range throws, 82-83.) -/
def step (s : St) : Op → St × Bool
  | .press c =>
    ({ s with keys := s.keys.mapIdx (fun i k => if i < s.nofKeys ∧ c = k.code then { k with state := true, event := true } else k) },
     false)
  | .reset i => if i ≥ s.nofKeys then (s, false) else ({ s with keys := modify s.keys i (fun k => { k with state := false }) }, false)
  | .get id => match find s.keys s.nofKeys id with
    | none => (s, false)
    | some i => ({ s with keys := modify s.keys i (fun k => { k with event := false }) }, (s.keys[i]?.map Key.event).getD false)

/-- State after a history (newest operation first). -/
def after (s : St) : List Op → St
  | [] => s
  | op :: h => (step (after s h) op).1

/-- `KeyboardInput<N>::run`, KeyboardInput.hpp:54-61: the outputs; `none` if `out` is written beyond its `N` elements.
(The specialisation for one key, 124-129, writes `state[0]` only.) -/
def runBlock (N : Nat) (s : St) : Option (List Bool) :=
  if N = 1 then s.keys.head?.map (fun k => [k.state])
  else if s.nofKeys > N then none else some ((s.keys.take s.nofKeys).map Key.state)

end Verif.Hal.Keyboard
