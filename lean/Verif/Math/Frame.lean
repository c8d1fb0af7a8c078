/-
Model of `math::CoordinateSystem` (`/repo/src/math/CoordinateSystem.cpp`) and `math::Frame`
(`/repo/src/math/Frame.cpp`).

Objects are numbers handed out by a counter (a deleted address is not reused: coordinate systems are expected to
outlive the frames which refer to them).  The static map of coordinate systems holds a pointer or a null pointer
per key; the static list of frames holds pointers to frame objects.  A frame which is returned by value from
`operator*` is the registered object itself (copy elision); an explicit copy is an unregistered object.
-/
import Verif.Math.Matrix

namespace Verif.Math.Frame
variable {K : Type} [CommRing K]

/-- A frame object: references to two coordinate systems and the transformation. -/
structure FrameObj (K : Type) where
  a : Nat
  b : Nat
  T : Mat 4 4 K

structure St (K : Type) where
  next : Nat
  /-- `CoordinateSystem::list`: key absent, key with null pointer, key with pointer. -/
  cs : String → Option (Option Nat)
  /-- live coordinate system objects and their ids -/
  csLive : Nat → Option String
  /-- live frame objects -/
  obj : Nat → Option (FrameObj K)
  /-- `Frame::list` -/
  list : List Nat

def init : St K := ⟨0, fun _ => none, fun _ => none, fun _ => none, []⟩

def upd {α β : Type} [DecidableEq α] (f : α → β) (x : α) (y : β) : α → β := fun z => if z = x then y else f z

/-- `CoordinateSystem(id)` (11-17): `map::insert` succeeds iff the key is absent; `none` = Fault. -/
def newCS (s : St K) (id : String) : St K × Option Nat :=
  match s.cs id with
  | none => ({ s with next := s.next + 1, cs := upd s.cs id (some (some s.next)),
                      csLive := upd s.csLive s.next (some id) }, some s.next)
  | some _ => (s, none)

/-- `~CoordinateSystem` (19-21). -/
def delCS (s : St K) (p : Nat) : St K :=
  match s.csLive p with
  | some id => { s with cs := upd s.cs id none, csLive := upd s.csLive p none }
  | none => s

/-- `getCoordinateSystem` (31-33): `operator[]` of the map inserts a null pointer for an absent key. -/
def getCS (s : St K) (id : String) : St K × Option Nat :=
  match s.cs id with
  | none => ({ s with cs := upd s.cs id (some none) }, none)
  | some p => (s, p)

/-- `getFrame` (79-84): the first match; coordinate systems are compared by address (23-25). -/
def getFrame (s : St K) (a b : Nat) : Option Nat :=
  s.list.find? fun p => match s.obj p with
    | some F => F.a = a ∧ F.b = b
    | none => false

/-- The constructors (9-36): `none` = Fault. -/
def newFrame (s : St K) (a b : Nat) (T : Mat 4 4 K) : St K × Option Nat :=
  match getFrame s a b with
  | some _ => (s, none)
  | none => ({ s with next := s.next + 1, obj := upd s.obj s.next (some ⟨a, b, T⟩), list := s.list ++ [s.next] },
      some s.next)

/-- `~Frame` (38-40). -/
def delFrame (s : St K) (p : Nat) : St K :=
  { s with obj := upd s.obj p none, list := s.list.filter (· ≠ p) }

/-- `set(T)` (42-44). -/
def setFrame (s : St K) (p : Nat) (T : Mat 4 4 K) : St K :=
  match s.obj p with
  | some F => { s with obj := upd s.obj p (some { F with T := T }) }
  | none => s

/-- implicit copy constructor: not registered. -/
def copyFrame (s : St K) (p : Nat) : St K × Option Nat :=
  match s.obj p with
  | some F => ({ s with next := s.next + 1, obj := upd s.obj s.next (some F) }, some s.next)
  | none => (s, none)

/-- `operator*` (71-77); `g` = uninitialised result matrix. -/
def mulFrame (s : St K) (p q : Nat) (g : Mat 4 4 K) : St K × Option Nat :=
  match s.obj p, s.obj q with
  | some F, some G => if F.b ≠ G.a then (s, none) else newFrame s F.a G.b (Mat.mul F.T G.T g)
  | _, _ => (s, none)

/-- `set(R, r)` (46-57), on the previous contents `T`. -/
def homog (R : Mat 3 3 K) (r : Mat 3 1 K) (T : Mat 4 4 K) : Mat 4 4 K :=
  let T := (List.range 3).foldl (fun T n => (List.range 3).foldl (fun (T : Mat 4 4 K) m => T.set m n (R.at' m n)) T) T
  let T := (List.range 3).foldl (fun (T : Mat 4 4 K) m => T.set m 3 (r.value m)) T
  (((T.set 3 0 0).set 3 1 0).set 3 2 0).set 3 3 1

/-- Operations of the users. -/
inductive Op (K : Type) where
  | newCS (id : String) | delCS (p : Nat) | getCS (id : String)
  | newFrame (a b : Nat) (T : Mat 4 4 K) | delFrame (p : Nat) | setFrame (p : Nat) (T : Mat 4 4 K)
  | copyFrame (p : Nat) | mulFrame (p q : Nat) (g : Mat 4 4 K)

def step (s : St K) : Op K → St K
  | .newCS id => (newCS s id).1
  | .delCS p => delCS s p
  | .getCS id => (getCS s id).1
  | .newFrame a b T => (newFrame s a b T).1
  | .delFrame p => delFrame s p
  | .setFrame p T => setFrame s p T
  | .copyFrame p => (copyFrame s p).1
  | .mulFrame p q g => (mulFrame s p q g).1

def run (ops : List (Op K)) : St K := ops.foldl step init

end Verif.Math.Frame
