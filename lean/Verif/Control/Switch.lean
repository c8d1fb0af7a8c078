import Verif.Common.XVal
import Mathlib.Algebra.Order.Field.Basic
/-!
Model of `Switch` (includes/eeros/control/Switch.hpp) with `N` inputs.
-/
namespace Verif.Control.Switch
variable {K : Type} [Field K] [LinearOrder K]

/-- 180-190 without the combined switches (see `Combined` below).  `cond` is what `setCondition` stores; `none` before the first call, when
`switchLevel`, `delta` and `nextInput` are uninitialised. -/
structure St (K : Type) where
  cur : Nat
  cond : Option (K × K × Nat)
  armed : Bool
  switched : Bool
  registered : Bool
  hasLevel : Bool

/-- Constructor, 41-46; the index is not checked. -/
def new (i : Nat) : St K := ⟨i, none, false, false, false, false⟩

/-- `switchToInput`, 85-92, without combined switches. -/
def switchTo (N : Nat) (s : St K) (i : Nat) : St K × Bool :=
  if i < N then ({ s with cur := i }, true) else (s, false)

inductive Res (K : Type) where
  /-- the value written to the output -/
  | out (v : XVal K)
  /-- NotConnectedFault -/
  | notConnected
  /-- access outside the input array, or use of the uninitialised condition -/
  | ub
deriving DecidableEq

/-- State after a run, whether the event was triggered, and what happened to the output. -/
structure Ran (K : Type) where
  st : St K
  event : Bool
  res : Res K

/-- Lines 75-76. -/
def publish (N : Nat) (ins : Nat → Option (XVal K)) (s : St K) (event : Bool) : Ran K :=
  if s.cur < N then
    match ins s.cur with
    | none => ⟨s, event, .notConnected⟩
    | some v => ⟨s, event, .out v⟩
  else ⟨s, event, .ub⟩

/-- The window test of line 60. -/
def inWindow (level delta : K) (v : XVal K) : Bool := XVal.lt v (.fin (level + delta)) && XVal.lt (.fin (level - delta)) v

/-- `run`, 56-77.  `ins i = none`: input `i` is not connected; `reached`: current level >= active level. -/
def run (N : Nat) (s : St K) (ins : Nat → Option (XVal K)) (reached : Bool) : Ran K :=
  if s.cur < N then
    match ins s.cur with
    | none => ⟨s, false, .notConnected⟩
    | some v =>
      if s.armed && !s.switched then
        match s.cond with
        | none => ⟨s, false, .ub⟩
        | some (level, delta, nxt) =>
          if inWindow level delta v && (!s.hasLevel || (s.hasLevel && reached)) then
            publish N ins { (switchTo N s nxt).1 with switched := true, armed := false } s.registered
          else publish N ins s false
      else publish N ins s false
  else ⟨s, false, .ub⟩

inductive Op (K : Type) where
  | run (ins : Nat → Option (XVal K)) (reached : Bool)
  | switchTo (i : Nat)
  | setCondition (level delta : K) (i : Nat)
  | arm
  | register
  | setActiveLevel

/-- 85-156; the second component tells whether the event was triggered. -/
def step (N : Nat) (s : St K) : Op K → St K × Bool
  | .run ins r => ((run N s ins r).st, (run N s ins r).event)
  | .switchTo i => ((switchTo N s i).1, false)
  | .setCondition l d i => ({ s with cond := some (l, d, i) }, false)
  | .arm => ({ s with armed := true, switched := false }, false)
  | .register => ({ s with registered := true }, false)
  | .setActiveLevel => ({ s with hasLevel := true }, false)

def trace (N : Nat) : St K → List (Op K) → List Bool
  | _, [] => []
  | s, op :: ops => (step N s op).2 :: trace N (step N s op).1 ops

def exec (N : Nat) (s : St K) (ops : List (Op K)) : St K := ops.foldl (fun s op => (step N s op).1) s

/-! Combined switches: `cs i` are the switches combined to switch `i` (175-178), `pos i` its position. -/
namespace Combined

structure World where
  pos : Nat → Nat
  cs : Nat → List Nat

def World.setPos (w : World) (i p : Nat) : World := { w with pos := fun j => if j = i then p else w.pos j }

/-- `switchToInput` of switch `i` with its recursion over the combined switches (85-92).  `fuel` bounds the recursion depth; `none`:
not finished within it. -/
def switchTo (N : Nat) : Nat → World → Nat → Nat → Option (World × Bool)
  | 0, _, _, _ => none
  | fuel+1, w, i, p =>
    if p < N then
      ((w.cs i).foldlM (fun w j => (switchTo N fuel w j p).map (·.1)) (w.setPos i p)).map (fun w => (w, true))
    else some (w, false)

/-- `combine`, 175-178. -/
def combine (N fuel : Nat) (w : World) (i j : Nat) : Option World :=
  (switchTo N fuel { w with cs := fun k => if k = i then w.cs i ++ [j] else w.cs k } j (w.pos i)).map (·.1)

end Combined

end Verif.Control.Switch
