/-!
C225: which loop `Executor::run` executes (src/core/Executor.cpp:278-374), for every combination of the macros USE_ETHERCAT, USE_ROS and USE_ROS2 the library
can be built with and of the kinds of synchronisation which the user can ask for.

The text of the function is taken as the list of its tokens with the macros under which they are compiled; the statements are recovered with the grammar of C++.
A loop with its logging in front is one token; the block 359-373 is one token.
-/
namespace Verif.Core.SyncModes

/-- Macros of the build. -/
structure Build where
  ethercat : Bool
  ros : Bool
  ros2 : Bool
deriving DecidableEq, Repr

/-- What the user has asked for: `syncWithEtherCATSTack` (109-112), `syncWithRosTime` (211-214), `syncWithRosTopic` (218-222) or `registerSubscriber` (226-237). -/
structure Sync where
  ethercat : Bool
  rosTime : Bool
  rosTopic : Bool
deriving DecidableEq, Repr

/-- The loops of the function: lines 283-290, 300-309, 322-341, 349-357, 363-371. -/
inductive Loop where
  | ethercat | rosTime | rosTopic | ros2Topic | periodic
deriving DecidableEq, Repr

/-- Conditions in the text: lines 279, 294, 313/345. -/
inductive Cond where
  | ethercat | rosTime | rosTopic
deriving DecidableEq, Repr

inductive Tok where
  | ifc (c : Cond)
  | els
  | loop (l : Loop)
  /-- line 376 -/
  | logStopping
deriving DecidableEq, Repr

/-- The text 278-376: the tokens and when they are compiled. -/
def text : List ((Build → Bool) × Tok) :=
  [ (fun b => b.ethercat, .ifc .ethercat),                       -- 279
    (fun b => b.ethercat, .loop .ethercat),                      -- 283-290
    (fun b => b.ethercat, .els),                                 -- 291
    (fun b => !b.ethercat && (b.ros || b.ros2), .ifc .rosTime),  -- 292-294
    (fun b => !b.ethercat && (b.ros || b.ros2), .loop .rosTime), -- 300-310
    (fun b => !b.ethercat && b.ros, .els),                       -- 312-313
    (fun b => !b.ethercat && b.ros, .ifc .rosTopic),
    (fun b => !b.ethercat && b.ros, .loop .rosTopic),
    (fun b => !b.ethercat && b.ros, .els),                       -- 342
    (fun b => !b.ethercat && b.ros2, .els),                      -- 344-345
    (fun b => !b.ethercat && b.ros2, .ifc .rosTopic),
    (fun b => !b.ethercat && b.ros2, .loop .ros2Topic),
    (fun b => !b.ethercat && b.ros2, .els),                      -- 358
    (fun b => !b.ethercat, .loop .periodic),                     -- 360-373
    (fun _ => true, .logStopping) ]                              -- 376

/-- The preprocessor. -/
def compiled (b : Build) : List Tok := (text.filter (fun p => p.1 b)).map Prod.snd

/-- Statements of C++. -/
inductive Stmt where
  | loop (l : Loop)
  | log
  | ite (c : Cond) (t : Stmt) (e : Option Stmt)
deriving Repr

/-- One statement: an `else` belongs to the `if` in front of it. -/
def parse : Nat → List Tok → Option (Stmt × List Tok)
  | _, .loop l :: ts => some (.loop l, ts)
  | _, .logStopping :: ts => some (.log, ts)
  | n + 1, .ifc c :: ts => match parse n ts with
    | none => none
    | some (t, .els :: ts') => match parse n ts' with
      | none => none
      | some (e, ts'') => some (.ite c t (some e), ts'')
    | some (t, ts') => some (.ite c t none, ts')
  | _, _ => none

/-- The statements of the function; `none`: a syntax error. -/
def parseAll : Nat → List Tok → Option (List Stmt)
  | _, [] => some []
  | 0, _ => none
  | n + 1, ts => match parse n ts with
    | none => none
    | some (s, ts') => (parseAll n ts').map (s :: ·)

def holds (s : Sync) : Cond → Bool
  | .ethercat => s.ethercat
  | .rosTime => s.rosTime
  | .rosTopic => s.rosTopic

/-- The loops executed and whether the end is logged. -/
def exec (s : Sync) : Stmt → List (Option Loop)
  | .loop l => [some l]
  | .log => [none]
  | .ite c t e => if holds s c then exec s t else match e with
    | none => []
    | some e => exec s e

/-- What `run` executes between 277 and 377; `none`: the file cannot be compiled.  A loop which is entered runs until `stop` is called. -/
def runs (b : Build) (s : Sync) : Option (List (Option Loop)) := (parseAll 20 (compiled b)).map (fun l => l.flatMap (exec s))

/-! ### Specification -/

/-- The loop which is meant: a kind of synchronisation which was asked for and is available in this build, otherwise the periodic loop. -/
def Meant (b : Build) (s : Sync) (l : Loop) : Prop :=
  match l with
  | .ethercat => b.ethercat ∧ s.ethercat
  | .rosTime => (b.ros ∨ b.ros2) ∧ s.rosTime
  | .rosTopic => b.ros ∧ s.rosTopic
  | .ros2Topic => b.ros2 ∧ s.rosTopic
  | .periodic => ¬ (b.ethercat ∧ s.ethercat) ∧ ¬ ((b.ros ∨ b.ros2) ∧ (s.rosTime ∨ s.rosTopic))

instance (b : Build) (s : Sync) (l : Loop) : Decidable (Meant b s l) := by cases l <;> unfold Meant <;> infer_instance

/-- What the user can ask for: the functions exist only in builds with the macro. -/
def Possible (b : Build) (s : Sync) : Prop := (s.ethercat → b.ethercat) ∧ (s.rosTime → b.ros ∨ b.ros2) ∧ (s.rosTopic → b.ros ∨ b.ros2)

instance (b : Build) (s : Sync) : Decidable (Possible b s) := by unfold Possible; infer_instance

theorem build_cases (p : Build → Prop) (h : ∀ e r r2, p ⟨e, r, r2⟩) : ∀ b, p b := fun ⟨e, r, r2⟩ => h e r r2
theorem sync_cases (p : Sync → Prop) (h : ∀ e r r2, p ⟨e, r, r2⟩) : ∀ s, p s := fun ⟨e, r, r2⟩ => h e r r2

/-- **C225, the part which holds.** In builds without EtherCAT and with at most one version of ROS, exactly one loop is executed; it is a loop which is meant (the time
has priority over the topic) and the end is logged.  With EtherCAT the loop of the EtherCAT stack is executed if there is a stack. -/
theorem one_loop_partial (b : Build) (s : Sync) (hp : Possible b s) (h1 : ¬ (b.ros ∧ b.ros2)) :
    (b.ethercat = false → ∃ l, runs b s = some [some l, none] ∧ Meant b s l ∧ (s.rosTime → l = .rosTime)) ∧
    (b.ethercat = true → s.ethercat = true → runs b s = some [some .ethercat]) := by
  obtain ⟨e, r, r2⟩ := b
  obtain ⟨x, y, z⟩ := s
  refine ⟨?_, ?_⟩
  · intro he
    simp only at he
    subst he
    have hl : ∀ r r2 x y z, Possible ⟨false, r, r2⟩ ⟨x, y, z⟩ → ¬ (r = true ∧ r2 = true) →
        ∃ l ∈ [Loop.ethercat, .rosTime, .rosTopic, .ros2Topic, .periodic],
        runs ⟨false, r, r2⟩ ⟨x, y, z⟩ = some [some l, none] ∧ Meant ⟨false, r, r2⟩ ⟨x, y, z⟩ l ∧ (y → l = .rosTime) := by decide
    obtain ⟨l, -, h⟩ := hl r r2 x y z hp h1
    exact ⟨l, h⟩
  · intro he hs
    simp only at he hs
    subst he hs
    revert r r2 y z
    decide

/-- Cases: a plain build, ROS time in a ROS 2 build, a topic in a ROS build. -/
example : runs ⟨false, false, false⟩ ⟨false, false, false⟩ = some [some .periodic, none] := by decide
example : runs ⟨false, false, true⟩ ⟨false, true, true⟩ = some [some .rosTime, none] := by decide
example : runs ⟨false, true, false⟩ ⟨false, false, true⟩ = some [some .rosTopic, none] := by decide
example : Possible ⟨false, true, false⟩ ⟨false, false, true⟩ ∧ ¬ ((⟨false, true, false⟩ : Build).ros ∧ (⟨false, true, false⟩ : Build).ros2) := by decide

/-- **C225, violated.** In a build with EtherCAT, if no EtherCAT stack was given, no loop at all is executed: `run` logs that it stops all threads, and
stops them, whatever else was asked for.  (The `else` in line 291 belongs to line 376, as everything between is left out by the preprocessor.) -/
theorem ethercat_build_runs_nothing_violated (b : Build) (s : Sync) (hb : b.ethercat = true) (hs : s.ethercat = false) : runs b s = some [none] := by
  revert hb hs
  refine build_cases (p := fun b => b.ethercat = true → s.ethercat = false → runs b s = some [none]) ?_ b
  intro e r r2
  refine sync_cases (p := fun s => _ → s.ethercat = false → runs _ s = some [none]) ?_ s
  revert e r r2
  decide
/-- Case: the safety system of a program which uses no bus. -/
example : runs ⟨true, false, false⟩ ⟨false, false, false⟩ = some [none] :=
  ethercat_build_runs_nothing_violated ⟨true, false, false⟩ ⟨false, false, false⟩ rfl rfl

/-- **C225, violated.** With both versions of ROS (and without EtherCAT) the function is no C++. -/
theorem both_ros_violated (s : Sync) : runs ⟨false, true, true⟩ s = none := by
  refine sync_cases (p := fun s => runs ⟨false, true, true⟩ s = none) ?_ s
  decide
example : compiled ⟨false, true, true⟩ = [.ifc .rosTime, .loop .rosTime, .els, .ifc .rosTopic, .loop .rosTopic, .els, .els, .ifc .rosTopic, .loop .ros2Topic, .els,
    .loop .periodic, .logStopping] := by decide

end Verif.Core.SyncModes
