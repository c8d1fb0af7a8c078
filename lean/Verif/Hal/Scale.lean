/-
Model of `JsonParser::calcScale` (`/repo/src/hal/JsonParser.cpp` 193-352), which turns the chain of
scale stages of a channel and the ranges belonging to them into one `scale`, `offset`, `rangeMin`
and `rangeMax`.

Simplifications: the UCL object is given as records (a missing number reads as 0, as
`number_value()` and the initial values do); unknown keys (246-248) are not modelled.
Arithmetic is exact.  Where the code would divide by zero the model stops with `divByZero`; the code
continues with an infinity or NaN, which the checks of 326-332 turn into a `Fault` in most but not
in all cases.
-/
import Mathlib.Algebra.Order.Field.Basic
import Mathlib.Algebra.Order.AbsoluteValue.Basic

namespace Verif.Hal.Scale

variable {K : Type} [Field K] [LinearOrder K]

/-- One entry of the array `scale` of a channel (221-249).  `scale = some _` iff the key `scale` is
present (`setScaleDirect`). -/
structure Stage (K : Type) where
  id : String
  minIn : K
  maxIn : K
  minOut : K
  maxOut : K
  scale : Option K
  offset : K

/-- One entry of the array `range` of a channel (253-280). -/
structure RangeObj (K : Type) where
  id : String
  noLimit : Bool
  minIn : K
  maxIn : K
  minOut : K
  maxOut : K

/-- The output parameters and the local `firstScale` (197-200, 219). -/
structure Acc (K : Type) where
  scale : K
  offset : K
  rangeMin : K
  rangeMax : K
  first : Bool

inductive Err where
  | noRange       -- 264-266
  | divByZero
  deriving DecidableEq, Repr

/-- Initial values (197-200, 219). -/
def start : Acc K := ⟨1, 0, 0, 0, true⟩

/-- Division which reports a zero divisor. -/
def fdiv (a b : K) : Except Err K := if b = 0 then .error .divByZero else .ok (a / b)

/-- The loop 251-266: the *last* range with the right id is used, and `noRangeLimit` is set if *any*
matching range has `noLimit`. -/
def findRange (rs : List (RangeObj K)) (id : String) : Except Err (RangeObj K × Bool) :=
  match (rs.filter (fun r => r.id == id)).getLast? with
  | none => .error .noRange
  | some r => .ok (r, (rs.filter (fun r => r.id == id)).any (·.noLimit))

/-- The four `tmpRange..` values (268-280): all 0 when there is no limit and the scale is given
directly. Order: minIn, maxIn, minOut, maxOut. -/
def tmpRange (st : Stage K) (r : RangeObj K) (noLim : Bool) : K × K × K × K :=
  if noLim then
    match st.scale with
    | none => (st.minIn, st.maxIn, st.minOut, st.maxOut)
    | some _ => (0, 0, 0, 0)
  else (r.minIn, r.maxIn, r.minOut, r.maxOut)

/-- `tmpScale` and `tmpOffset` (282-290). -/
def stageScale (st : Stage K) (rMinOut rMaxOut : K) : Except Err (K × K) :=
  match st.scale with
  | some s => .ok (s, st.offset)
  | none => do
    let lsb ← fdiv (st.maxOut - st.minOut) (st.maxIn - st.minIn)
    let a ← fdiv (st.minOut + rMaxOut) lsb
    let xMin := st.minIn - a
    let b ← fdiv (st.maxOut + rMinOut) lsb
    let xMax := st.maxIn - b
    let m ← fdiv (xMax - xMin) (|rMinOut| + |rMaxOut|)
    let s ← fdiv 1 m
    .ok (s, -(rMaxOut + xMin * s))

/-- One pass of the loop over the stages (251-333).  `dmin` and `dmax` are
`numeric_limits<double>::min()` (the smallest *positive* double) and `max()`. -/
def stage (dmin dmax : K) (rs : List (RangeObj K)) (a : Acc K) (st : Stage K) :
    Except Err (Acc K) := do
  let (r, noLim) ← findRange rs st.id
  let rangeMin := if noLim then dmin else a.rangeMin        -- 258
  let rangeMax := if noLim then dmax else a.rangeMax        -- 259
  let (tMinIn, tMaxIn, tMinOut, tMaxOut) := tmpRange st r noLim
  let (tmpScale, tmpOffset) ← stageScale st tMinOut tMaxOut
  let rangeMin := if a.first then tMinIn else rangeMin      -- 292-296
  let rangeMax := if a.first then tMaxIn else rangeMax
  if noLim then
    .ok ⟨a.scale * tmpScale, a.offset * tmpScale + tmpOffset, rangeMin, rangeMax, false⟩
  else do
    let lo ← fdiv (tMinIn - a.offset) a.scale               -- 302-309
    let hi ← fdiv (tMaxIn - a.offset) a.scale
    let rangeMin := if rangeMin < lo then lo else rangeMin
    let rangeMax := if hi < rangeMax then hi else rangeMax
    let offset := a.offset * tmpScale + tmpOffset           -- 313-314
    let scale := a.scale * tmpScale
    let lo' ← fdiv (tMinOut - offset) scale                 -- 319-324
    let hi' ← fdiv (tMaxOut - offset) scale
    let rangeMin := if rangeMin < lo' then lo' else rangeMin
    let rangeMax := if hi' < rangeMax then hi' else rangeMax
    .ok ⟨scale, offset, rangeMin, rangeMax, false⟩

/-- The loop over all stages. -/
def stages (dmin dmax : K) (rs : List (RangeObj K)) : List (Stage K) → Acc K → Except Err (Acc K)
  | [], a => .ok a
  | st :: sts, a =>
    match stage dmin dmax rs a st with
    | .error e => .error e
    | .ok a' => stages dmin dmax rs sts a'

/-- `calcScale`. -/
def calcScale (dmin dmax : K) (rs : List (RangeObj K)) (sts : List (Stage K)) :
    Except Err (Acc K) := stages dmin dmax rs sts start

end Verif.Hal.Scale
