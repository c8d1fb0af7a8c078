import Mathlib.Algebra.Order.Field.Basic
/-!
Model of `System::getTime` for Windows (src/core/System_Windows.cpp:16-34).  The first call stores the frequency and the value of the performance counter in
static variables; the time is the difference of the counter to that value divided by the frequency.  Arithmetic is exact; a division by zero is `none`.

Any number of threads call `getTime`; every statement is a step.  The value of the counter at the time of a step is given with the step.
-/
namespace Verif.Core.WindowsTime

variable {K : Type} [Field K] [LinearOrder K]

/-- Where a thread is: line 21, 23, 24, 25, 26, 29. -/
inductive Pc where
  | start
  | set
  | freq
  | offset
  | conv
  | query
deriving DecidableEq

/-- The static variables (18-20), the threads, and the finished calls: the thread, the counter and the result. -/
structure St (K : Type) where
  initialized : Bool
  offset : K
  scale : K
  pc : Nat → Pc
  log : List (Nat × K × Option K)

/-- Static variables are zero at the start. -/
def new : St K := ⟨false, 0, 0, fun _ => .start, []⟩

def St.goto (s : St K) (i : Nat) (p : Pc) : St K := { s with pc := fun j => if j = i then p else s.pc j }

/-- The result, 30-32: `t - offset` divided by the scale and by `1000000000`. -/
def result (offset scale t : K) : Option K := if scale = 0 then none else some ((t - offset) / scale / 1000000000)

/-- A step of thread `i` when the counter is `t`; `f`: the frequency of the counter. -/
def step (f : K) (s : St K) (x : Nat × K) : St K :=
  match s.pc x.1 with
  | .start => s.goto x.1 (if s.initialized then .query else .set)
  | .set => { s with initialized := true }.goto x.1 .freq
  | .freq => s.goto x.1 .offset
  | .offset => { s with offset := x.2 }.goto x.1 .conv
  | .conv => { s with scale := f / 1000000000 }.goto x.1 .query
  | .query => { s with log := s.log ++ [(x.1, x.2, result s.offset s.scale x.2)] }.goto x.1 .start

def run (f : K) (s : St K) (l : List (Nat × K)) : St K := l.foldl (step f) s

end Verif.Core.WindowsTime
