import Mathlib.Algebra.Order.Floor.Defs
import Mathlib.Algebra.Order.Field.Basic
/-!
Model of the static part of `src/core/Executor.cpp`: `traverse` (41-48), `createThreads` (52-56), `createThread`
(58-92), `assignPriorities` (170-193).  Periods are exact numbers.
-/
namespace Verif.Core.Executor

variable {K : Type} [Field K] [LinearOrder K] [FloorRing K]

/-- `task::Periodic` (Periodic.hpp:17-18, 137-160): `id` stands for the runnable and the object identity. -/
inductive Task (K : Type) where
  | mk (id : Nat) (period : K) (realtime : Bool) (nice : Int) (before after : List (Task K))

namespace Task
def id : Task K → Nat | .mk i .. => i
def period : Task K → K | .mk _ p .. => p
def realtime : Task K → Bool | .mk _ _ r .. => r
def nice : Task K → Int | .mk _ _ _ n .. => n
def before : Task K → List (Task K) | .mk _ _ _ _ b _ => b
def after : Task K → List (Task K) | .mk _ _ _ _ _ a => a
end Task

/-- `static_cast<int>` of a double: truncation towards zero. -/
def trunc (x : K) : Int := if 0 ≤ x then ⌊x⌋ else -⌊-x⌋

inductive Err where
  /-- "period deviation too high" (82) -/
  | deviation
  /-- "priority not set" (84-85) -/
  | priority
  /-- the conversion to `int` overflows (59): undefined behaviour -/
  | ub
deriving DecidableEq, Repr

/-- One entry of a `HarmonicTaskList`: the runnable itself (divisor 1, HarmonicTaskList.cpp:15-17 default argument),
or the `Async` of another thread with divisor `k` (Executor.cpp:91). -/
inductive Entry where
  | own (id : Nat)
  | async (id : Nat) (k : Int)
deriving DecidableEq, Repr

/-- `TaskThread` (31-39): whose thread it is, its actual period, its task list. -/
structure Thread (K : Type) where
  id : Nat
  actualPeriod : K
  list : List Entry

/-- The checks of `createThread`, lines 59-61 and 82-88, except for the recursion: the divisor `k`.
The task list is never empty (67), so line 87 never throws.
When `period` is zero the quotient in line 61 is 0/0 = NaN and `NaN > 0.01` is false. -/
def divisor (t base : Task K) : Except Err Int :=
  let q := t.period / base.period
  let k := trunc q
  if k > 2147483647 ∨ k < -2147483648 then .error .ub
  else
    let actual := (k : K) * base.period
    if t.period ≠ 0 ∧ |t.period - actual| / t.period > 1 / 100 then .error .deviation
    else if t.realtime ∧ t.nice ≤ 0 then .error .priority
    else .ok k

mutual
/-- `createThread`, Executor.cpp:58-92: the threads pushed (in this order) and the entry appended to `output`.
(The checks come after the recursive calls; whichever throws first, the construction fails as a whole.) -/
def createThread (base : Task K) : Task K → Except Err (List (Thread K) × Entry)
  | .mk id period realtime nice before after => do
    let t := Task.mk id period realtime nice before after
    let (th1, e1) ← createThreads t before
    let (th2, e2) ← createThreads t after
    let k ← divisor t base
    return (th1 ++ th2 ++ [⟨id, (k : K) * base.period, e1 ++ [.own id] ++ e2⟩], .async id k)

/-- `createThreads`, 52-56. -/
def createThreads (base : Task K) : List (Task K) → Except Err (List (Thread K) × List Entry)
  | [] => .ok ([], [])
  | t :: ts => do
    let (th, e) ← createThread base t
    let (ths, es) ← createThreads base ts
    return (th ++ ths, e :: es)
end

mutual
/-- `traverse`, 41-48: pre-order list of all tasks. -/
def flat : Task K → List (Task K)
  | .mk id period realtime nice before after =>
    .mk id period realtime nice before after :: (flatAll before ++ flatAll after)
def flatAll : List (Task K) → List (Task K)
  | [] => []
  | t :: ts => flat t ++ flatAll ts
end

/-- The comparator of the sort, 179-184. -/
def before? (a b : Task K) : Prop :=
  if a.realtime = b.realtime then a.period < b.period else a.realtime = true

/-- Lines 187-192 on the sorted list: (task, new nice value). -/
def assignNice : Int → List (Task K) → List (Task K × Int)
  | _, [] => []
  | nice, t :: ts => if t.realtime then (t, nice) :: assignNice (nice + 1) ts else (t, t.nice) :: assignNice nice ts

end Verif.Core.Executor
