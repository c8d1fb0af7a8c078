import Verif.Math.Frame
import Mathlib.Data.Rat.Defs
/-!
Unit tests of the project for coordinate systems and frames (/repo/test/math/frames), replayed on the model: what the tests expect of the code the model does.
These are checks that the model fits the code, not proofs of properties; no claim refers to them.
-/
namespace Verif.Tests.Frames
open Verif.Math Verif.Math.Frame

/-- Uninitialised transformation. -/
def junk : Mat 4 4 ℚ := ⟨fun i => 77 + i⟩

/-- FrameTest.cpp 20-26: coordinate systems a (0), b (1), c (2), frames ab (3), bc (4), ac (5). -/
def s : St ℚ := run [.newCS "a", .newCS "b", .newCS "c", .newFrame 0 1 junk, .newFrame 1 2 junk, .newFrame 0 2 junk]

/-- CoordinateSysTest.cpp 18-24 (a second coordinate system with the same id is refused) and 53-66 (found by id). -/
example : (newCS s "b").2 = none ∧ (newCS s "d").2 = some 6 ∧ (getCS s "a").2 = some 0 ∧ (getCS s "b").2 = some 1 := by decide +kernel

/-- FrameTest.cpp 28-41: three frames, a second frame from a to b is refused. -/
example : s.list.length = 3 ∧ (newFrame s 0 1 junk).2 = none := by decide +kernel

/-- FrameTest.cpp 51-67: frames by coordinate systems. -/
example : getFrame s 0 1 = some 3 ∧ getFrame s 1 2 = some 4 ∧ getFrame s 0 2 = some 5 ∧ getFrame s 2 0 = none := by decide +kernel

/-- FrameTest.cpp 76-92: frames by the ids of the coordinate systems. -/
example : (do getFrame s (← (getCS s "a").2) (← (getCS s "b").2)) = some 3 ∧ (do getFrame s (← (getCS s "b").2) (← (getCS s "c").2)) = some 4 ∧
    (do getFrame s (← (getCS s "a").2) (← (getCS s "c").2)) = some 5 := by decide +kernel

/-- FrameTest.cpp 102-138: coordinate systems of the frames. -/
example : (s.obj 3).map (fun f => (f.a, f.b)) = some (0, 1) ∧ (s.obj 4).map (fun f => (f.a, f.b)) = some (1, 2) ∧
    (s.obj 5).map (fun f => (f.a, f.b)) = some (0, 2) := by decide +kernel

end Verif.Tests.Frames
