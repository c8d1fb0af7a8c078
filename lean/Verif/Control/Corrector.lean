/-
Model of `control::Vector2Corrector` (`/repo/src/control/Vector2Corrector.cpp`), in exact arithmetic over an ordered field.  The file is given as the list of
the lines which `fscanf` (19) accepts before the first one it does not.  Products and sums of 2-vectors are written out; the determinant and the
inverse are those of `Verif.Math.Inverse`.
-/
import Verif.Math.Inverse
import Mathlib.Algebra.Order.Field.Basic

namespace Verif.Control.Corrector
open Verif.Math
variable {K : Type} [Field K] [LinearOrder K]

/-- `Vector2`. -/
structure V (K : Type) where
  x : K
  y : K
deriving DecidableEq

/-- A line of the file: reference and mapped point (18-27). -/
abbrev Line (K : Type) := V K × V K

/-- Three lines. -/
structure Tri (K : Type) where
  a : Line K
  b : Line K
  c : Line K

/-- The lines are taken three at a time; one or two left over are dropped (17-23, 30). -/
def triangles : List (Line K) → List (Tri K)
  | a :: b :: c :: rest => ⟨a, b, c⟩ :: triangles rest
  | _ => []

/-- `Vector2Corrector::map` (`Vector2Corrector.hpp` 18-23). -/
structure Entry (K : Type) where
  aref : V K
  tiref : Mat 2 2 K
  amapped : V K
  tmapped : Mat 2 2 K

/-- 31-35 and 38-42: the sides of a triangle are the columns. -/
def sides (p q r : V K) (g : Mat 2 2 K) : Mat 2 2 K :=
  (((g.set 0 0 (q.x - p.x)).set 1 0 (q.y - p.y)).set 0 1 (r.x - p.x)).set 1 1 (r.y - p.y)

/-- 31-50; `none` if the triangle is skipped.  `isInvertible` (37) compares the determinant with 0, as the inverse does. -/
def entry (g : (k : Nat) → Mat k k K) (t : Tri K) : Option (Entry K) :=
  let Tr := sides t.a.1 t.b.1 t.c.1 (g 2)
  if Mat.det g 2 Tr ≠ 0 then
    match Mat.inv g 2 Tr with
    | .ok B => some { aref := t.a.1, tiref := B, amapped := t.a.2, tmapped := sides t.a.2 t.b.2 t.c.2 (g 2) }
    | _ => none
  else none

/-- Members.  The standard gives `mapped` a size and a capacity; only elements below the size may be accessed. -/
structure St (K : Type) where
  maps : List (Entry K)
  size : Nat
  capacity : Nat

/-- Default constructor. -/
def new : St K := ⟨[], 0, 0⟩

/-- `load` (8-62) of a file which can be opened: new state and result.  `reserve` (57) changes the capacity only. -/
def load (g : (k : Nat) → Mat k k K) (s : St K) (lines : List (Line K)) : St K × Bool :=
  let maps := (triangles lines).filterMap (entry g)
  if 0 < maps.length then ({ s with maps := maps, capacity := max s.capacity maps.length }, true) else (s, false)

/-- Matrix times vector. -/
def app (A : Mat 2 2 K) (v : V K) : V K := ⟨A.at' 0 0 * v.x + A.at' 0 1 * v.y, A.at' 1 0 * v.x + A.at' 1 1 * v.y⟩

/-- 71. -/
def coords (e : Entry K) (p : V K) : V K := app e.tiref ⟨p.x - e.aref.x, p.y - e.aref.y⟩

/-- 75. -/
def image (e : Entry K) (l : V K) : V K := ⟨(app e.tmapped l).x + e.amapped.x, (app e.tmapped l).y + e.amapped.y⟩

/-- The loop 70-76; `buf` are the elements of `mapped` written so far, `legal` is the number of elements which may be accessed; `none`: an access
beyond. -/
def collect (legal : Nat) (p : V K) : List (Entry K) → List (V K) → Option (List (V K))
  | [], buf => some buf
  | e :: es, buf =>
    let l := coords e p
    if l.x < 0 ∨ l.x > 1 then collect legal p es buf
    else if l.y < 0 ∨ l.y > 1 then collect legal p es buf
    else if l.x + l.y > 1 then collect legal p es buf
    else if buf.length < legal then collect legal p es (buf ++ [image e l])
    else none

/-- 78-84. -/
def average (l : List (V K)) : V K :=
  let s := l.foldl (fun (o v : V K) => ⟨o.x + v.x, o.y + v.y⟩) ⟨0, 0⟩
  ⟨s.x / l.length, s.y / l.length⟩

/-- `get` (68-85). -/
def get (legal : Nat) (s : St K) (p : V K) : Option (V K) :=
  (collect legal p s.maps []).map fun buf => if buf.length = 0 then p else average buf

end Verif.Control.Corrector
