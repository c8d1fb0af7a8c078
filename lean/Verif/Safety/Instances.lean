/-!
The instance counter of `SafetySystem`, `src/safety/SafetySystem.cpp:7, 10-26`
(`static uint8_t instCount`, SafetySystem.hpp:71).
-/
namespace Verif.Safety.Inst

/-- `instCount` (8 bit), and the number of `SafetySystem` objects that exist (ghost). -/
structure St where
  instCount : UInt8
  live : Nat

/-- Program start, SafetySystem.cpp:7. -/
def init : St := ⟨0, 0⟩

inductive Op where
  /-- construct with properties that `setProperties` accepts or not -/
  | construct (valid : Bool)
  /-- destroy an existing object -/
  | destroy
deriving DecidableEq

/-- Result of an operation. -/
inductive Res where
  | ok
  | fault
  /-- there is no object to destroy: not a program -/
  | none
deriving DecidableEq

/-- Constructor, SafetySystem.cpp:15-20 (`setProperties` throwing or returning false is `valid = false`; when a constructor throws the destructor
is not run), destructor 24-26. -/
def step (s : St) : Op → St × Res
  | .construct valid =>
    let c := s.instCount + 1
    if c > 1 then ({ s with instCount := c }, .fault)
    else if !valid then ({ s with instCount := c }, .fault)
    else ({ instCount := c, live := s.live + 1 }, .ok)
  | .destroy =>
    if s.live = 0 then (s, .none)
    else ({ instCount := s.instCount - 1, live := s.live - 1 }, .ok)

/-- A history; also counts the construction attempts that threw. -/
def exec : St → List Op → St × Nat
  | s, [] => (s, 0)
  | s, op :: ops =>
    let (s', r) := step s op
    let (s'', n) := exec s' ops
    (s'', n + if r = .fault then 1 else 0)

end Verif.Safety.Inst
