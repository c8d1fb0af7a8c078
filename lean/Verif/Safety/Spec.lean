import Verif.Safety.Model
/-!
Specification vocabulary for the safety system properties: statements about traces of
observations only, without reference to the internals of `trigger`/`run`.
-/
namespace Verif.Safety
variable {V : Type}

/-- Level `l` has a registered transition to `m` for the event of `t`; a private transition counts only for a
trigger from the private context. -/
def Registered (p : Properties V) (l : LevelRef) (t : Trig) (m : LevelRef) : Prop :=
  ∃ ty, findTrans (p.lvl l).transitions t.event = some (m, ty) ∧ (ty = .pub ∨ t.priv = true)

/-- A rule for level changes: `R c pend m` = "it is legitimate to make `m` the current level when
`c` is current and exactly the events `pend` (in this order) were triggered since `c` was made current". -/
abbrev LevelRule := LevelRef → List Trig → LevelRef → Prop

/-- The current level and the events triggered since it was assigned, after a trace. -/
def after : LevelRef → List Trig → List Obs → LevelRef × List Trig
  | c, pend, [] => (c, pend)
  | c, pend, .trig t :: o => after c (pend ++ [t]) o
  | _, _, .level m :: o => after m [] o
  | c, pend, _ :: o => after c pend o

/-- Every assignment of the current level in a trace obeys the rule `R`. -/
def Legal (R : LevelRule) : LevelRef → List Trig → List Obs → Prop
  | _, _, [] => True
  | c, pend, .trig t :: o => Legal R c (pend ++ [t]) o
  | c, pend, .level m :: o => R c pend m ∧ Legal R m [] o
  | c, pend, _ :: o => Legal R c pend o

/-- C01's rule: the level stays, or one of the events triggered meanwhile has a registered
transition from the current level to the new one. -/
def registeredRule (p : Properties V) : LevelRule := fun c pend m =>
  m = c ∨ ∃ t ∈ pend, Registered p c t m

/-- C02's rule: if none of the events triggered meanwhile leads from the current level to
itself, the new level is a requested one with the lowest id, or the current one if none was requested. -/
def lowestRule (p : Properties V) : LevelRule := fun c pend m =>
  (∀ t ∈ pend, ¬ Registered p c t c) →
    ((∀ t ∈ pend, ∀ d, ¬ Registered p c t d) ∧ m = c) ∨
    ((∃ t ∈ pend, Registered p c t m) ∧
      ∀ t ∈ pend, ∀ d, Registered p c t d → (p.lvl m).id ≤ (p.lvl d).id)

/-- Observations that are executions of an action of a level. -/
def Obs.isExec : Obs → Bool
  | .checked .. => true
  | .action .. => true
  | .set .. => true
  | _ => false

def Obs.isLevel : Obs → Bool
  | .level _ => true
  | _ => false

/-- The non-null entries of a list with their index, starting to count at `i`. -/
def indexed {α : Type} : Nat → List (Option α) → List (Nat × α)
  | _, [] => []
  | i, none :: r => indexed (i+1) r
  | i, some a :: r => (i, a) :: indexed (i+1) r

/-- What one cycle in level `l` is expected to execute: all input actions in order, the level action,
all output actions in order. -/
def expectedCycle (p : Properties V) (l : LevelRef) : List Obs :=
  ((indexed 0 (p.lvl l).inputAction).map fun x => Obs.checked l x.1 x.2.input) ++
  (if (p.lvl l).hasAction then [Obs.action l] else []) ++
  ((indexed 0 (p.lvl l).outputAction).map fun x => Obs.set l x.1 x.2)

/-- All destinations of transitions and the entry level were added with `addLevel`. -/
def Closed (p : Properties V) : Prop :=
  (∀ e, p.entryLevel = some e → e ∈ p.levels) ∧
  ∀ l ∈ p.levels, ∀ e d ty, findTrans (p.lvl l).transitions e = some (d, ty) → d ∈ p.levels

end Verif.Safety
