import Verif.Safety.Spec
/-!
Interleaving model of `triggerEvent` called from several threads while `run` executes,
`src/safety/SafetySystem.cpp:49-71` and `81-123`.

The reads of `currentLevel` (50, 51) and the assignments `currentLevel = nextLevel` (83, 118) are not
protected by the mutex, the section 55-63 is.  Each such piece is one atomic step here; in C++ the
unsynchronised accesses are in addition a data race (undefined behaviour), the model gives them the benefit of
sequential consistency.
-/
namespace Verif.Safety.Conc
variable {V : Type}

/-- A thread inside `triggerEvent` has computed its `newLevel` (51) and waits for the mutex. -/
structure St where
  cur : LevelRef
  next : LevelRef
  /-- per thread: the `newLevel` computed at line 51, if the thread is between 51 and 55 -/
  pending : Nat → Option LevelRef

/-- A newly constructed system with entry level `e` (SafetySystem.cpp:40-42). -/
def init (e : LevelRef) : St := ⟨e, e, fun _ => none⟩

inductive Op where
  /-- thread `th` calls `triggerEvent` and executes lines 50-51 -/
  | lookup (th : Nat) (t : Trig)
  /-- thread `th` executes the locked section 55-63 -/
  | locked (th : Nat)
  /-- `run` executes line 83 or 118 -/
  | take

/-- One atomic step. -/
def step (p : Properties V) (s : St) : Op → St
  | .lookup th t =>
    match s.pending th with
    | some _ => s      -- the thread is still in its previous call: not a step it can do
    | none => { s with pending := fun i =>
        if i = th then (p.lvl s.cur).dest t.event t.priv else s.pending i }
  | .locked th =>
    match s.pending th with
    | none => s
    | some n =>
      let s' := { s with pending := fun i => if i = th then none else s.pending i }
      if s.next = s.cur then { s' with next := n }
      else if (p.lvl n).id < (p.lvl s.next).id then { s' with next := n }
      else s'
  | .take => { s with cur := s.next }

def exec (p : Properties V) (s : St) (ops : List Op) : St := ops.foldl (step p) s

end Verif.Safety.Conc
