import Verif.Hal.Registry
import Verif.Hal.Scale
import Mathlib.Data.Rat.Floor
/-!
Unit tests of the project for the hardware abstraction layer (/repo/test/hal), replayed on the models: what the tests expect of the code the models do.
These are checks that the models fit the code, not proofs of properties; no claim refers to them.
-/
namespace Verif.Tests.Hal
open Verif.Hal

/-! ### loadConfigFile.cpp with loadConfigSim.json -/
section Scale
open Verif.Hal.Scale

def s (id : String) (a b c d : ℚ) : Stage ℚ := ⟨id, a, b, c, d, none, 0⟩
def direct (sc off : ℚ) : Stage ℚ := ⟨"direct", 0, 0, 0, 0, some sc, off⟩
def r (id : String) (a b c d : ℚ) : RangeObj ℚ := ⟨id, false, a, b, c, d⟩
def dac (a b : ℚ) : Stage ℚ := s "dac" a b (-10) 10
def rdac (b : ℚ) : RangeObj ℚ := r "dac" 0 b (-10) 10
/-- Scale, offset and range (the limits of doubles are not used, no channel has `noLimit`). -/
def result (rs : List (RangeObj ℚ)) (ss : List (Stage ℚ)) : Option (ℚ × ℚ × ℚ × ℚ) :=
  match calcScale 0 0 rs ss with
  | .ok a => some (a.scale, a.offset, a.rangeMin, a.rangeMax)
  | .error _ => none
/-- `aOut0` to `aOut3`: 20/65535 is 0.000305180437934. -/
example : result [rdac 65535, r "test" (-5) 5 (-10) 10, r "direct" (-10) 10 (-10) 10] [dac 0 65535, s "test" (-5) 5 (-10) 10, direct 0.5 0] = some (20/65535, -10, 16383.75, 49151.25) := by decide +kernel
example : result [rdac 65535] [dac 0 65535] = some (20/65535, -10, 0, 65535) := by decide +kernel
example : result [rdac 65535, r "test" (-5) 5 (-5) 5] [dac 0 65535, s "test" (-5) 5 (-10) 10] = some (40/65535, -20, 24575.625, 40959.375) := by decide +kernel
example : result [rdac 65535, r "direct" (-10) 10 (-5) 5] [dac 0 65535, direct 0.5 1] = some (10/65535, -4, 0, 58981.5) := by decide +kernel
/-- `aIn0`: 15270/4.9 is 3116.3265306122448979. -/
example : result [r "analogIn" (-10) 10 0 65535] [s "analogIn" 0 4.9 32770 48040] = some (15270/4.9, 32770, -10, 10) := by decide +kernel
/-- `aOut4` to `aOut7` (the offset of the last is compared with a tolerance of 1). -/
example : result [rdac 1000] [dac 0 1000] = some (20/1000, -10, 0, 1000) := by decide +kernel
example : result [rdac 1000] [dac 0 800] = some (20/800, -10, 0, 800) := by decide +kernel
example : result [rdac 1000] [dac 200 1000] = some (20/800, -15, 200, 1000) := by decide +kernel
example : result [rdac 1000] [dac 200 800] = some (20/600, -50/3, 200, 800) := by decide +kernel
end Scale

/-! ### halManager.cpp -/
section Registry

/-- The inputs (0-9) and outputs (10-29) of loadConfigSim.json that the tests use. -/
def names : Nat → String
  | 0 => "ioIn" | 1 => "aIn0" | 10 => "io1" | 11 => "ioOut" | 12 => "ioOut4" | 13 => "aOut0" | _ => "?"
def w : World := ⟨names, fun p => if p = 1 ∨ p = 13 then .scalable else .logic⟩
def inputs : St := (run w [.add (some 0), .add (some 1)] init).2
def outputs : St := (run w [.add (some 10), .add (some 11), .add (some 12), .add (some 13)] init).2
def ins (ops : List Op) : List Res := (run w ops inputs).1
def outs (ops : List Op) : List Res := (run w ops outputs).1
def li (n : String) (e := true) : Op := .get .logic n e
def sc (n : String) (e := true) : Op := .get .scalable n e
def rel (n : String) : Op := .release n
def ok (p : Nat) : Res := .ptr (some p)

/-- 9-35: `availableDigInOut`. -/
example : ins [li "ioIn", sc "aIn0", rel "ioIn", rel "aIn0"] = [ok 0, ok 1, .done, .done] ∧
    outs [li "io1", li "ioOut", li "ioOut4", sc "aOut0", rel "io1", rel "ioOut", rel "ioOut4", rel "aOut0"] = [ok 10, ok 11, ok 12, ok 13, .done, .done, .done, .done] := by decide +kernel
/-- 37-230: unknown and empty names, wrong types, wrong directions: all one after the other on the same object. -/
example : ins [li "enable56", li "", sc "", sc "ioIn", li "aIn0", li "ioOut", sc "aOut0"] = List.replicate 7 .fault ∧
    outs [li "", sc "", sc "ioOut", li "aOut0", li "ioIn", sc "aIn0"] = List.replicate 6 .fault := by decide +kernel
/-- 232-322: claims of an input. -/
example : ins [li "ioIn", li "ioIn", rel "ioIn"] = [ok 0, .fault, .done] ∧ ins [li "ioIn" false, li "ioIn" false, li "ioIn" false, rel "ioIn"] = [ok 0, ok 0, ok 0, .done] ∧
    ins [li "ioIn" false, rel "ioIn", li "ioIn", rel "ioIn"] = [ok 0, .done, ok 0, .done] ∧ ins [li "ioIn" false, li "ioIn", rel "ioIn"] = [ok 0, .fault, .done] ∧
    ins [li "ioIn", li "ioIn" false, rel "ioIn"] = [ok 0, .fault, .done] := by decide +kernel
/-- 324-414: claims of an output; 416-: the same for scalable inputs and outputs. -/
example : outs [li "ioOut", li "ioOut", rel "ioOut"] = [ok 11, .fault, .done] ∧ outs [li "ioOut" false, li "ioOut" false, li "ioOut" false, rel "ioOut"] = [ok 11, ok 11, ok 11, .done] ∧
    outs [li "ioOut" false, rel "ioOut", li "ioOut", rel "ioOut"] = [ok 11, .done, ok 11, .done] ∧ outs [li "ioOut" false, li "ioOut", rel "ioOut"] = [ok 11, .fault, .done] ∧
    outs [li "ioOut", li "ioOut" false, rel "ioOut"] = [ok 11, .fault, .done] := by decide +kernel
example : ins [sc "aIn0", sc "aIn0", rel "aIn0"] = [ok 1, .fault, .done] ∧ ins [sc "aIn0" false, sc "aIn0" false, rel "aIn0"] = [ok 1, ok 1, .done] ∧
    outs [sc "aOut0", sc "aOut0", rel "aOut0"] = [ok 13, .fault, .done] ∧ outs [sc "aOut0" false, sc "aOut0", rel "aOut0", sc "aOut0"] = [ok 13, .fault, .done, ok 13] := by decide +kernel
end Registry

end Verif.Tests.Hal
