import Verif.Common.Race
/-!
Which methods of a block may be called while the block runs: the accesses of the member variables and the use of the
mutex, method by method, of the blocks and of the other classes which several threads share.

The methods are written with the combinators below: `acc` for a list of accesses in the order of the code, `opt` for the
branch of an `if` which may be taken or not, `sync` for the scope of a `std::lock_guard`.  Branches are nondeterministic.
Conditions are read before the branch.  Left out are local variables, arguments, members which never change after the
construction, `std::atomic` members, the logger, and the signals at inputs and outputs, which belong to the time domain
of the block.  A `Signal`, a vector or a `std::vector` member is one variable.

Methods of different objects are left out as well, with one exception: the signals of `Transition`.
-/
namespace Verif.Control.BlockRaces
open Verif.Common.Race

/-! ### Notation -/

/-- The ways a piece of code may be executed. -/
abbrev Code (V : Type) := List (List (Instr V Unit))

def rd {V : Type} (v : V) : Instr V Unit := .rd v
def wr {V : Type} (v : V) : Instr V Unit := .wr v

/-- Accesses one after the other. -/
def acc {V : Type} (l : List (Instr V Unit)) : Code V := [l]

/-- One piece of code after the other. -/
def seq {V : Type} : List (Code V) → Code V
  | [] => [[]]
  | c :: r => c.flatMap fun p => (seq r).map fun q => p ++ q

/-- A branch which may be taken or not. -/
def opt {V : Type} (c : Code V) : Code V := [] :: c

/-- One of two branches. -/
def alt {V : Type} (c d : Code V) : Code V := c ++ d

/-- The scope of a `std::lock_guard` of the mutex of the object. -/
def sync {V : Type} (c : Code V) : Code V := c.map fun p => .lock () :: (p ++ [.unlock ()])

/-- A class: the code of its methods, and the methods which are called by one thread only (the executor runs a block from
one thread: `some 0`). -/
structure Cls (V M : Type) where
  code : M → Code V
  only : M → Option Nat

/-- The threads `0, 1, 2, …` call the methods of `A`, each of them any number of times and in any order; a method of one
thread only is called by that thread only. -/
def Cls.can {V M : Type} (c : Cls V M) (A : M → Prop) (t : Nat) (p : List (Instr V Unit)) : Prop :=
  ∃ m, A m ∧ (∀ k, c.only m = some k → t = k) ∧ p ∈ c.code m

/-- Two threads: the first one calls only `a`, the second one only `b`. -/
def Cls.two {V M : Type} (c : Cls V M) (a b : M) (t : Nat) (p : List (Instr V Unit)) : Prop :=
  (t = 0 ∧ p ∈ c.code a) ∨ (t = 1 ∧ p ∈ c.code b)

/-- Every method of the class unlocks what it has locked. -/
def Cls.Bal {V M : Type} (c : Cls V M) : Prop := ∀ m, ∀ p ∈ c.code m, Balanced [] p

/-- All conflicting accesses of two methods hold the mutex. -/
def Cls.Ok {V M : Type} (c : Cls V M) (a b : M) : Prop := ∀ p ∈ c.code a, ∀ q ∈ c.code b, Guarded p q

instance {V M : Type} [DecidableEq V] (c : Cls V M) (a b : M) : Decidable (c.Ok a b) := by
  unfold Cls.Ok; infer_instance

theorem two_iff {V M : Type} (c : Cls V M) (hb : c.Bal) (a b : M) : RaceFree (c.two a b) ↔ c.Ok a b := by
  rw [race_free_iff]
  · constructor
    · intro h p hp q hq
      exact h 0 1 p q (by decide) (Or.inl ⟨rfl, hp⟩) (Or.inr ⟨rfl, hq⟩)
    · rintro h t u p q htu (⟨rfl, hp⟩ | ⟨rfl, hp⟩) (⟨rfl, hq⟩ | ⟨rfl, hq⟩)
      · exact absurd rfl htu
      · exact h p hp q hq
      · intro x hx y hy hc
        have hc' : Conflict y.1 x.1 := by
          revert hc; cases x.1 <;> cases y.1 <;> simp only [Conflict] <;> intro h <;> first | exact h.symm | exact h
        obtain ⟨m, h1, h2⟩ := h q hq p hp y hy x hx hc'
        exact ⟨m, h2, h1⟩
      · exact absurd rfl htu
  · rintro t p (⟨_, hp⟩ | ⟨_, hp⟩)
    · exact hb a p hp
    · exact hb b p hp

theorem can_free {V M : Type} (c : Cls V M) (hb : c.Bal) (A : M → Prop)
    (h : ∀ m n, A m → A n → (∀ k, ¬ (c.only m = some k ∧ c.only n = some k)) → c.Ok m n) : RaceFree (c.can A) := by
  apply guarded_race_free
  · rintro t p ⟨m, _, _, hp⟩
    exact hb m p hp
  · rintro t u p q htu ⟨m, hm, h1, hp⟩ ⟨n, hn, h2, hq⟩
    refine h m n hm hn ?_ p hp q hq
    rintro k ⟨e1, e2⟩
    exact htu ((h1 k e1).trans (h2 k e2).symm)

/-- The specification of "the block may be reconfigured while it runs": `run` is called by one thread and the methods `m`
by any number of other threads, without a data race. -/
def Usable {V M : Type} (c : Cls V M) (safe : List M) : Prop := RaceFree (c.can (· ∈ safe))

/-- The usual proof for a class with few methods. -/
theorem usable_of {V M : Type} (c : Cls V M) (hb : c.Bal) (safe : List M)
    (h : ∀ m ∈ safe, ∀ n ∈ safe, c.only m = none ∨ c.only m ≠ c.only n → c.Ok m n) : Usable c safe := by
  apply can_free c hb
  intro m n hm hn hk
  apply h m hm n hn
  match e1 : c.only m with
  | none => exact Or.inl rfl
  | some k =>
    refine Or.inr fun e2 => hk k ⟨e1, ?_⟩
    exact e2.symm

/-! ### SignalChecker (SignalChecker.hpp) -/
namespace SignalChecker

inductive Var | lowerLimit | upperLimit | fired | safetySystem | safetyEvent | activeLevel
deriving DecidableEq
inductive M | run | setLimits | reset | registerSafetyEvent | setActiveLevel
deriving DecidableEq
open Var

/-- `run` (83-114), `setLimits` (123-127), `reset` (133-136), `registerSafetyEvent` (145-149), `setActiveLevel`
(157-160). -/
def cls : Cls Var M where
  code
    | .run => sync (seq [acc [rd fired], opt (seq [acc [rd lowerLimit], opt (acc [rd upperLimit]),
        opt (seq [acc [rd safetySystem], opt (seq [acc [rd safetyEvent],
          opt (seq [acc [rd activeLevel], opt (acc [rd activeLevel, rd safetySystem, rd activeLevel]),
            opt (acc [rd safetySystem, rd safetyEvent, wr fired])])])])])])
    | .setLimits => sync (acc [wr lowerLimit, wr upperLimit])
    | .reset => sync (acc [wr fired])
    | .registerSafetyEvent => sync (acc [wr safetySystem, wr safetyEvent])
    | .setActiveLevel => sync (acc [wr activeLevel])
  only
    | .run => some 0
    | _ => none

def all : List M := [.run, .setLimits, .reset, .registerSafetyEvent, .setActiveLevel]

theorem bal : cls.Bal := by intro m; cases m <;> decide +kernel

/-- **The signal checker may be reconfigured while it runs** (as SignalChecker.hpp:37 promises): any number of threads may
call any of its methods. -/
theorem race_free : Usable cls all := by
  apply usable_of cls bal
  decide +kernel

end SignalChecker

/-! ### PeripheralOutput (PeripheralOutput.hpp) -/
namespace PeripheralOutput

inductive Var | val
deriving DecidableEq
inductive M | run | getValue
deriving DecidableEq
open Var

/-- `run` (46-58; the exception of 56 unlocks as well), `getValue` (65-68). -/
def cls : Cls Var M where
  code
    | .run => sync (seq [acc [wr val, rd val], opt (acc [rd val]), opt (acc [wr val]), acc [rd val]])
    | .getValue => sync (acc [rd val])
  only
    | .run => some 0
    | _ => none

def all : List M := [.run, .getValue]

theorem bal : cls.Bal := by intro m; cases m <;> decide +kernel

/-- **The value of a peripheral output may be read while it runs.** -/
theorem race_free : Usable cls all := by
  apply usable_of cls bal
  decide +kernel

end PeripheralOutput

/-! ### KalmanFilter (KalmanFilter.hpp) -/
namespace Kalman

inductive Var | x | dy | y | u | P | K | CPCTR | first | out
deriving DecidableEq
inductive M | predict | correct
deriving DecidableEq
open Var

/-- `prediction` (212-224), `correction` (229-256).  The two blocks run in two time domains, each of them in a thread of
its own.  The matrices of the system never change. -/
def cls : Cls Var M where
  code
    | .predict => sync (acc [wr u, rd x, rd u, wr x, rd x, wr out, rd P, wr P])
    | .correct => sync (seq [acc [rd first], alt (acc [rd x, wr out, wr first])
        (acc [wr y, wr u, rd P, wr CPCTR, rd P, rd CPCTR, wr K, rd y, rd x, rd u, wr dy, rd x, rd K, rd dy, wr x,
          rd x, wr out, rd K, rd P, wr P])])
  only
    | .predict => some 0
    | .correct => some 1

theorem bal : cls.Bal := by intro m; cases m <;> decide +kernel

/-- **Prediction and correction of a Kalman filter may run in two threads.** -/
theorem race_free : Usable cls [.predict, .correct] := by
  apply usable_of cls bal
  decide +kernel

end Kalman

/-! ### Gain (Gain.hpp) -/
namespace Gain

inductive Var | gain | maxGain | minGain | targetGain | gainDiff | enabled | smoothChange | parabolic | switchPoint
deriving DecidableEq
inductive M | run | enable | disable | enableSmoothChange | enableParabolicGain | setGain | setMaxGain | setMinGain
  | setGainDiff | setParabolicGainParams | print
deriving DecidableEq
open Var

/-- `run` (107-142), `enable` (155), `disable` (170), `enableSmoothChange` (188), `enableParabolicGain` (205), `setGain`
(219-229), `setMaxGain` (237), `setMinGain` (248), `setGainDiff` (258), `setParabolicGainParams` (268), `operator<<`
(392-399). -/
def cls : Cls Var M where
  code
    | .run => sync (seq [acc [rd smoothChange],
        opt (seq [acc [rd gain, rd targetGain],
          opt (seq [acc [rd gainDiff, rd gain, wr gain, rd gain, rd targetGain], opt (acc [rd targetGain, wr gain])]),
          acc [rd gain, rd targetGain],
          opt (seq [acc [rd gainDiff, rd gain, wr gain, rd gain, rd targetGain], opt (acc [rd targetGain, wr gain])])]),
        acc [rd gain, rd maxGain], opt (acc [rd maxGain, wr gain]),
        acc [rd gain, rd minGain], opt (acc [rd minGain, wr gain]),
        acc [rd enabled],
        opt (seq [acc [rd parabolic],
          alt (acc [rd gain]) (seq [acc [rd switchPoint], opt (acc [rd switchPoint]), acc [rd gain]])])])
    | .enable => acc [wr enabled]
    | .disable => acc [wr enabled]
    | .enableSmoothChange => acc [wr smoothChange]
    | .enableParabolicGain => acc [wr parabolic]
    | .setGain => sync (seq [acc [rd maxGain], opt (seq [acc [rd minGain],
        opt (seq [acc [rd smoothChange], alt (acc [wr targetGain]) (acc [wr gain])])])])
    | .setMaxGain => sync (acc [wr maxGain])
    | .setMinGain => sync (acc [wr minGain])
    | .setGainDiff => sync (acc [wr gainDiff])
    | .setParabolicGainParams => sync (acc [wr switchPoint])
    | .print => acc [rd enabled, rd gain, rd smoothChange, rd minGain, rd maxGain, rd targetGain, rd gainDiff,
        rd parabolic, rd switchPoint]
  only
    | .run => some 0
    | _ => none

/-- The methods which lock the mutex. -/
def locked : List M := [.run, .setGain, .setMaxGain, .setMinGain, .setGainDiff, .setParabolicGainParams]

theorem bal : cls.Bal := by intro m; cases m <;> decide +kernel

/-- The setters of the values may be called by any number of threads while the block runs. -/
theorem race_free : Usable cls locked := by
  apply usable_of cls bal
  decide +kernel

/-- **Exactly the five methods without the lock race with `run`**, already when one other thread calls nothing else.
Gain.hpp:27-29 excludes `enable`, `disable` and `enableSmoothChange` from the promise, but not `enableParabolicGain` and
`operator<<`. -/
theorem two_violated (m : M) (hm : m ≠ .run) : RaceFree (cls.two .run m) ↔
    m ∉ [.enable, .disable, .enableSmoothChange, .enableParabolicGain, .print] := by
  rw [two_iff cls bal]
  cases m <;> first | (exact absurd rfl hm) | decide +kernel

end Gain

/-! ### Saturation (Saturation.hpp) -/
namespace Saturation

inductive Var | lowerLimit | upperLimit | enabled
deriving DecidableEq
inductive M | run | enable | disable | setLimit
deriving DecidableEq
open Var

/-- `run` (53-60) with `calculateResult` (97-102), `enable` (69), `disable` (80), `setLimit` (90-93). -/
def cls : Cls Var M where
  code
    | .run => sync (seq [acc [rd enabled], opt (seq [acc [rd upperLimit], opt (acc [rd upperLimit]), acc [rd lowerLimit],
        opt (acc [rd lowerLimit])])])
    | .enable => acc [wr enabled]
    | .disable => acc [wr enabled]
    | .setLimit => acc [wr lowerLimit, wr upperLimit]
  only
    | .run => some 0
    | _ => none

theorem bal : cls.Bal := by intro m; cases m <;> decide +kernel

/-- **The mutex of the saturation protects nothing**: only `run` locks it, and every other method races with `run`. -/
theorem two_violated (m : M) (hm : m ≠ .run) : ¬ RaceFree (cls.two .run m) := by
  rw [two_iff cls bal]
  cases m <;> first | (exact absurd rfl hm) | decide +kernel

end Saturation

/-! ### RateLimiter (RateLimiter.hpp) -/
namespace RateLimiter

inductive Var | outPrev | fallingRate | risingRate | enabled
deriving DecidableEq
inductive M | run | enable | disable | setRate | print
deriving DecidableEq
open Var

/-- `run` (79-93) with `calculateResult` (143-150), `enable` (102), `disable` (113), `setRate` (123-127), `operator<<`
(185-189). -/
def cls : Cls Var M where
  code
    | .run => sync (seq [acc [rd outPrev, rd enabled], opt (seq [acc [rd outPrev, rd risingRate],
        alt (acc [rd risingRate, rd outPrev]) (seq [acc [rd fallingRate], opt (acc [rd fallingRate, rd outPrev])])]),
        acc [wr outPrev]])
    | .enable => acc [wr enabled]
    | .disable => acc [wr enabled]
    | .setRate => sync (acc [wr fallingRate, wr risingRate])
    | .print => acc [rd fallingRate, rd risingRate]
  only
    | .run => some 0
    | _ => none

theorem bal : cls.Bal := by intro m; cases m <;> decide +kernel

/-- The rates may be set by any number of threads while the block runs. -/
theorem race_free : Usable cls [.run, .setRate] := by
  apply usable_of cls bal
  decide +kernel

/-- **`enable` and `disable` race with `run`**, and printing races with setting the rates. -/
theorem two_violated : (∀ m, m ≠ M.run → (RaceFree (cls.two .run m) ↔ m ∉ [M.enable, .disable])) ∧
    ¬ RaceFree (cls.two .setRate .print) := by
  constructor
  · intro m hm
    rw [two_iff cls bal]
    cases m <;> first | (exact absurd rfl hm) | decide +kernel
  · rw [two_iff cls bal]
    decide +kernel

end RateLimiter

/-! ### WrapAround (WrapAround.hpp) -/
namespace WrapAround

inductive Var | minVal | maxVal | enabled
deriving DecidableEq
inductive M | run | enable | disable | setMinMax | print
deriving DecidableEq
open Var

/-- `run` (47-54) with `calculateResult` (92-103), `enable` (63), `disable` (74), `setMinMax` (84-88), `operator<<`
(156-161). -/
def cls : Cls Var M where
  code
    | .run => sync (seq [acc [rd enabled], opt (seq [acc [rd maxVal, rd minVal, rd minVal], opt (acc [rd minVal])])])
    | .enable => acc [wr enabled]
    | .disable => acc [wr enabled]
    | .setMinMax => sync (acc [rd minVal, wr minVal, rd maxVal, wr maxVal])
    | .print => acc [rd enabled, rd minVal, rd maxVal]
  only
    | .run => some 0
    | _ => none

theorem bal : cls.Bal := by intro m; cases m <;> decide +kernel

/-- The range may be set by any number of threads while the block runs. -/
theorem race_free : Usable cls [.run, .setMinMax] := by
  apply usable_of cls bal
  decide +kernel

/-- **`enable` and `disable` race with `run`**, and printing races with setting the range. -/
theorem two_violated : (∀ m, m ≠ M.run → (RaceFree (cls.two .run m) ↔ m ∉ [M.enable, .disable])) ∧
    ¬ RaceFree (cls.two .setMinMax .print) := by
  constructor
  · intro m hm
    rw [two_iff cls bal]
    cases m <;> first | (exact absurd rfl hm) | decide +kernel
  · rw [two_iff cls bal]
    decide +kernel

end WrapAround

/-! ### Constant (Constant.hpp) -/
namespace Constant

inductive Var | value
deriving DecidableEq
inductive M | run | setValue | getValue
deriving DecidableEq
open Var

/-- `run` (49-53), `setValue` (60-63), `getValue` (70-72). -/
def cls : Cls Var M where
  code
    | .run => sync (acc [rd value])
    | .setValue => sync (acc [wr value])
    | .getValue => acc [rd value]
  only
    | .run => some 0
    | _ => none

theorem bal : cls.Bal := by intro m; cases m <;> decide +kernel

/-- The value may be set by any number of threads while the block runs. -/
theorem race_free : Usable cls [.run, .setValue] := by
  apply usable_of cls bal
  decide +kernel

/-- **`getValue` races with `setValue`**, and with nothing else. -/
theorem two_violated (m : M) : RaceFree (cls.two .getValue m) ↔ m ≠ .setValue := by
  rw [two_iff cls bal]
  cases m <;> decide +kernel

end Constant

/-! ### I (I.hpp) -/
namespace Integrator

inductive Var | first | enabled | prev | upperLimit | lowerLimit | safetySystem | activeLevel
deriving DecidableEq
inductive M | run | enable | disable | setInitCondition | setLimit | setActiveLevel | print
deriving DecidableEq
open Var

/-- `run` (53-75), `enable` (84), `disable` (95), `setInitCondition` (106), `setLimit` (119-125), `setActiveLevel`
(134-138), `operator<<` (184-189). -/
def cls : Cls Var M where
  code
    | .run => sync (seq [acc [rd activeLevel], opt (acc [rd safetySystem, rd activeLevel, wr enabled]),
        acc [rd prev, rd first], opt (acc [wr first]), acc [rd prev, rd enabled],
        opt (seq [acc [rd upperLimit], opt (acc [rd lowerLimit])]), acc [wr prev]])
    | .enable => acc [wr enabled]
    | .disable => acc [wr enabled]
    | .setInitCondition => acc [wr prev]
    | .setLimit => seq [acc [wr upperLimit, wr lowerLimit, rd prev], opt (acc [wr prev]), opt (acc [wr prev])]
    | .setActiveLevel => sync (acc [wr safetySystem, wr activeLevel])
    | .print => acc [rd enabled, rd upperLimit, rd lowerLimit]
  only
    | .run => some 0
    | _ => none

theorem bal : cls.Bal := by intro m; cases m <;> decide +kernel

/-- The active level may be set by any number of threads while the integrator runs. -/
theorem race_free : Usable cls [.run, .setActiveLevel] := by
  apply usable_of cls bal
  decide +kernel

/-- **All methods but `setActiveLevel` race with `run`.** -/
theorem two_violated (m : M) (hm : m ≠ .run) : RaceFree (cls.two .run m) ↔ m = .setActiveLevel := by
  rw [two_iff cls bal]
  cases m <;> first | (exact absurd rfl hm) | decide +kernel

end Integrator

/-! ### Switch (Switch.hpp) -/
namespace Switch

inductive Var | currentInput | nextInput | switchLevel | delta | armed | switched | safetySystem | safetyEvent
  | activeLevel | c
deriving DecidableEq
inductive M | run | switchToInput | getCurrentInput | registerSafetyEvent | setActiveLevel | setCondition | arm
  | triggered | combine
deriving DecidableEq
open Var

/-- `run` (56-77), `switchToInput` (85-92), `getCurrentInput` (99), `registerSafetyEvent` (111-114), `setActiveLevel`
(125-129), `setCondition` (143-147), `arm` (153-156), `triggered` (164), `combine` (175-178, for the object it is called
on). -/
def cls : Cls Var M where
  code
    | .run => sync (seq [acc [rd currentInput, rd armed],
        opt (seq [acc [rd switched], opt (seq [acc [rd switchLevel, rd delta], opt (seq [acc [rd switchLevel, rd delta],
          opt (seq [acc [rd activeLevel], opt (acc [rd activeLevel, rd safetySystem, rd activeLevel]),
            opt (seq [acc [rd nextInput, wr currentInput, rd c, rd c, wr switched, wr armed, rd safetySystem],
              opt (seq [acc [rd safetyEvent], opt (acc [rd safetySystem, rd safetyEvent])])])])])])]),
        acc [rd currentInput, rd currentInput]])
    | .switchToInput => opt (acc [wr currentInput, rd c])
    | .getCurrentInput => acc [rd currentInput]
    | .registerSafetyEvent => acc [wr safetySystem, wr safetyEvent]
    | .setActiveLevel => sync (acc [wr safetySystem, wr activeLevel])
    | .setCondition => acc [wr switchLevel, wr delta, wr nextInput]
    | .arm => acc [wr armed, wr switched]
    | .triggered => acc [rd switched]
    | .combine => acc [rd c, wr c, rd currentInput]
  only
    | .run => some 0
    | _ => none

theorem bal : cls.Bal := by intro m; cases m <;> decide +kernel

/-- The active level may be set by any number of threads while the switch runs. -/
theorem race_free : Usable cls [.run, .setActiveLevel] := by
  apply usable_of cls bal
  decide +kernel

/-- **All methods but `setActiveLevel` race with `run`**: those which a sequence calls while the block runs, `arm`,
`triggered`, `switchToInput`, among them. -/
theorem two_violated (m : M) (hm : m ≠ .run) : RaceFree (cls.two .run m) ↔ m = .setActiveLevel := by
  rw [two_iff cls bal]
  cases m <;> first | (exact absurd rfl hm) | decide +kernel

end Switch

/-! ### Transition (Transition.hpp) -/
namespace Transition

inductive Var | buf | inp | prevIn | refresh | oPrevIn | oIn | dVal | dTime | count | out
deriving DecidableEq
inductive M | inBlock | outBlock
deriving DecidableEq
open Var

/-- The three ways a transition is constructed (42-54). -/
inductive Mode | steady | up | down
deriving DecidableEq

/-- `TransitionInBlock::run` (82-101) in the thread of one time domain, `TransitionOutBlock::run` (114-150) in the thread
of the other one. -/
def cls (mode : Mode) : Cls Var M where
  code
    | .inBlock => match mode with
      | .steady => sync (acc [wr inp])
      | .up => sync (acc [rd inp, wr prevIn, wr inp, wr refresh])
      | .down => sync (acc [wr buf])
    | .outBlock => match mode with
      | .steady => sync (acc [rd inp, wr out, rd inp, wr out])
      | .up => seq [acc [rd refresh],
          opt (seq [sync (acc [rd prevIn, wr oPrevIn, rd inp, wr oIn, wr refresh]),
            acc [wr count, rd oIn, rd oPrevIn, wr dVal, rd oIn, rd oPrevIn, wr dTime]]),
          acc [rd oPrevIn, rd dVal, rd count, wr out, rd oPrevIn, rd count, rd dTime, wr out, rd count, wr count]]
      | .down => seq [sync (seq [acc [rd buf], opt (acc [rd buf]), acc [rd buf, wr buf]]), acc [wr out]]
  only
    | .inBlock => some 0
    | .outBlock => some 1

theorem bal (mode : Mode) : (cls mode).Bal := by intro m; cases mode <;> cases m <;> decide +kernel

/-- **A transition is free of data races exactly when it does not go up**: from a slow to a fast time domain the fast
domain reads `refresh` without the mutex (122). -/
theorem two_violated (mode : Mode) : RaceFree ((cls mode).two .inBlock .outBlock) ↔ mode ≠ .up := by
  rw [two_iff (cls mode) (bal mode)]
  cases mode <;> decide +kernel

end Transition

/-! ### Path planners (PathPlannerConstAcc.hpp, PathPlannerConstJerk.hpp, PathPlannerCubic.hpp) -/
namespace PlannerAcc

/-- `coeff` stands for all of `a1p … c3a`, `dT` for `dT1`, `dT2`, `dT3`. -/
inductive Var | finished | range | velMax | accMax | decMax | t | dT | coeff | endPos | last
deriving DecidableEq
inductive M | run | move | moveFromLast | endReached | setStart | setMaxSpeed | setMaxAcc | setMaxDec
deriving DecidableEq
open Var

/-- PathPlannerConstAcc.hpp:154-222.  The first two returns are without the mutex, the last section (217-221) locks it. -/
def moveCode : Code Var := seq [acc [rd finished], opt (seq [acc [wr endPos],
  opt (seq [acc [rd velMax, rd accMax, rd decMax, wr dT, rd dT, wr dT, rd dT, wr coeff, rd coeff, rd dT],
    sync (acc [wr finished, wr range, wr t])])])]

/-- `run` (73-136, one component), `move` (154-222), `move` from the last position (TrajectoryGenerator.hpp), `endReached`
(63-66), `setStart` (231-235), `setMaxSpeed` (242), `setMaxAcc` (249), `setMaxDec` (256). -/
def cls : Cls Var M where
  code
    | .run => sync (seq [acc [rd last, rd t, wr t, rd finished],
        opt (seq [acc [rd range],
          alt (seq [acc [rd t, rd dT], opt (acc [rd coeff, rd t]), acc [rd t, rd dT], opt (acc [wr range, wr t])])
            (acc [wr finished, rd endPos]), acc [wr last]])])
    | .move => moveCode
    | .moveFromLast => seq [acc [rd last], moveCode]
    | .endReached => sync (acc [rd finished])
    | .setStart => sync (acc [wr last, wr finished])
    | .setMaxSpeed => acc [wr velMax]
    | .setMaxAcc => acc [wr accMax]
    | .setMaxDec => acc [wr decMax]
  only
    | .run => some 0
    | _ => none

theorem bal : cls.Bal := by intro m; cases m <;> decide +kernel

/-- The end may be asked for and the start be set by any number of threads while the planner runs. -/
theorem race_free : Usable cls [.run, .endReached, .setStart] := by
  apply usable_of cls bal
  decide +kernel

/-- **`move` races with `run`**, from the last position or not: it reads `finished` (155) before it locks the mutex, which
`run` writes at the end of a trajectory (115).  Setting a limit races with a `move` of another thread only. -/
theorem two_violated : (∀ m, m ≠ M.run → (RaceFree (cls.two .run m) ↔ m ≠ .move ∧ m ≠ .moveFromLast)) ∧
    ∀ m, (m = M.setMaxSpeed ∨ m = .setMaxAcc ∨ m = .setMaxDec) → ¬ RaceFree (cls.two .move m) := by
  constructor
  · intro m hm
    rw [two_iff cls bal]
    cases m <;> first | (exact absurd rfl hm) | decide +kernel
  · rintro m (rfl | rfl | rfl) <;> rw [two_iff cls bal] <;> decide +kernel

end PlannerAcc

namespace PlannerJerk

/-- `coeff` stands for all of `a1p … d5j`, `dT` for `dT1`, `dT2`. -/
inductive Var | finished | range | velMax | jerkMax | t | dT | coeff | endPos | last
deriving DecidableEq
inductive M | run | move | moveFromLast | endReached | setStart | setMaxVel | setJerk
deriving DecidableEq
open Var

/-- PathPlannerConstJerk.hpp:187-272. -/
def moveCode : Code Var := seq [acc [rd finished], opt (seq [acc [wr endPos],
  opt (seq [acc [rd velMax, rd jerkMax, wr dT, rd dT, wr dT, rd dT, wr coeff, rd coeff, rd dT],
    sync (acc [wr finished, wr range, wr t])])])]

/-- `run` (75-169), `move` (187-272), `endReached` (65-68), `setStart` (281-285), `setMaxVel` (292), `setJerk` (299). -/
def cls : Cls Var M where
  code
    | .run => sync (seq [acc [rd last, rd t, wr t, rd finished],
        opt (seq [acc [rd range],
          alt (seq [acc [rd t, rd dT], opt (acc [rd coeff, rd t]), acc [rd t, rd dT], opt (acc [wr range, wr t])])
            (acc [wr finished, rd endPos]), acc [wr last]])])
    | .move => moveCode
    | .moveFromLast => seq [acc [rd last], moveCode]
    | .endReached => sync (acc [rd finished])
    | .setStart => sync (acc [wr last, wr finished])
    | .setMaxVel => acc [wr velMax]
    | .setJerk => acc [wr jerkMax]
  only
    | .run => some 0
    | _ => none

theorem bal : cls.Bal := by intro m; cases m <;> decide +kernel

theorem race_free : Usable cls [.run, .endReached, .setStart] := by
  apply usable_of cls bal
  decide +kernel

/-- **The same for the planner with constant jerk.** -/
theorem two_violated : (∀ m, m ≠ M.run → (RaceFree (cls.two .run m) ↔ m ≠ .move ∧ m ≠ .moveFromLast)) ∧
    ∀ m, (m = M.setMaxVel ∨ m = .setJerk) → ¬ RaceFree (cls.two .move m) := by
  constructor
  · intro m hm
    rw [two_iff cls bal]
    cases m <;> first | (exact absurd rfl hm) | decide +kernel
  · rintro m (rfl | rfl) <;> rw [two_iff cls bal] <;> decide +kernel

end PlannerJerk

namespace PlannerCubic

/-- `coeff` stands for `timeCoeff … posCoeff`, `raw` for `timeCoeffRaw … posCoeffRaw`, `prev` for `prevPos … prevJerk`. -/
inductive Var | finished | first | index | interval | t | coeff | raw | prev
deriving DecidableEq
inductive M | run | init | moveScaled | move | endReached | reset
deriving DecidableEq
open Var

/-- `run` (95-146), `init` (55-90), `move` (160-169 with `scalePath`, and 181-198), `endReached` (205), `reset` (211). -/
def cls : Cls Var M where
  code
    | .run => sync (alt
        (seq [acc [rd finished], opt (seq [acc [rd coeff], opt (acc [rd index, rd coeff])]),
          acc [wr t, wr index, wr interval, wr first, rd prev, rd t, wr t, wr prev]])
        (seq [acc [rd finished, rd coeff, rd index, rd coeff, rd t, rd interval],
          alt (acc [rd index, rd coeff, rd prev, rd t, wr t, wr prev])
            (seq [acc [rd first],
              alt (acc [wr index, rd index, rd coeff, wr interval, wr first, rd index, rd coeff, rd t, wr t, wr prev])
                (seq [acc [rd index, wr index, rd index, rd coeff],
                  alt (acc [wr finished])
                    (acc [rd coeff, rd index, rd interval, wr interval, rd index, rd coeff, rd t, wr t, wr prev])])])]))
    | .init => opt (acc [wr raw])
    | .moveScaled => seq [acc [rd finished], opt (seq [acc [rd raw], opt (acc [rd raw, wr coeff, rd coeff, wr coeff,
        wr finished])])]
    | .move => seq [acc [rd finished], opt (seq [acc [rd raw], opt (acc [rd raw, wr coeff, wr finished])])]
    | .endReached => acc [rd finished]
    | .reset => acc [wr finished]
  only
    | .run => some 0
    | _ => none

theorem bal : cls.Bal := by intro m; cases m <;> decide +kernel

/-- **Every method of the cubic planner but `init` races with `run`**, `endReached` among them; and `init` races with
`move`. -/
theorem two_violated : (∀ m, m ≠ M.run → (RaceFree (cls.two .run m) ↔ m = .init)) ∧ ¬ RaceFree (cls.two .init .move) := by
  constructor
  · intro m hm
    rw [two_iff cls bal]
    cases m <;> first | (exact absurd rfl hm) | decide +kernel
  · rw [two_iff cls bal]
    decide +kernel

end PlannerCubic

/-! ### Trace (Trace.hpp) -/
namespace Trace

inductive Var | size | index | cycle | running | buf | timeBuf
deriving DecidableEq
inductive M | run | getTrace | getTimestampTrace | getSize | enable | disable
deriving DecidableEq
open Var

/-- `run` (38-48), `getTrace` (49-63), `getTimestampTrace` (64-78), `getSize` (79), `enable` (80), `disable` (81).  The
class has no mutex, though the framework's `TraceWriter` reads it from a thread of its own (102-139). -/
def cls : Cls Var M where
  code
    | .run => seq [acc [rd running], opt (seq [acc [rd index, wr buf, rd index, wr timeBuf, rd index, wr index, rd index],
        opt (acc [wr index, wr cycle])])]
    | .getTrace => seq [acc [rd cycle], alt (acc [wr size, rd index, rd buf]) (seq [acc [rd index, wr size],
        opt (acc [rd index, rd buf])])]
    | .getTimestampTrace => seq [acc [rd cycle], alt (acc [wr size, rd index, rd timeBuf]) (seq [acc [rd index, wr size],
        opt (acc [rd index, rd timeBuf])])]
    | .getSize => acc [rd size]
    | .enable => acc [wr running]
    | .disable => acc [wr running]
  only
    | .run => some 0
    | _ => none

theorem bal : cls.Bal := by intro m; cases m <;> decide +kernel

/-- **A trace cannot be read, started or stopped while it runs**: every method but `getSize` races with `run`. -/
theorem two_violated (m : M) (hm : m ≠ .run) : RaceFree (cls.two .run m) ↔ m = .getSize := by
  rw [two_iff cls bal]
  cases m <;> first | (exact absurd rfl hm) | decide +kernel

end Trace

/-! ### SafetySystem (SafetySystem.cpp) -/
namespace Safety

inductive Var | currentLevel | nextLevel | nofActivations
deriving DecidableEq
inductive M | run | triggerEvent | getCurrentLevel
deriving DecidableEq
open Var

/-- `triggerEvent` (46-69): the mutex is held in lines 52-61 only. -/
def triggerCode : Code Var := seq [acc [rd currentLevel], opt (seq [acc [rd currentLevel],
  alt (seq [sync (seq [acc [rd nextLevel, rd currentLevel],
      alt (acc [wr nextLevel, rd nextLevel, wr nofActivations])
        (seq [acc [rd nextLevel], opt (acc [wr nextLevel, rd nextLevel, wr nofActivations])])]),
      acc [rd currentLevel, rd nextLevel]])
    (acc [rd currentLevel])])]

/-- `run` (79-120), with at most one event triggered by an input action or by the action of the level; `getCurrentLevel`
(28-35). -/
def cls : Cls Var M where
  code
    | .run => seq [acc [rd nextLevel], opt (acc [rd nextLevel, wr currentLevel]), acc [rd currentLevel],
        opt (seq [acc [rd currentLevel, rd nofActivations, wr nofActivations],
          opt (seq [acc [rd currentLevel], triggerCode, acc [rd nextLevel]]),
          acc [rd nextLevel], opt (acc [rd nextLevel, wr currentLevel])])]
    | .triggerEvent => triggerCode
    | .getCurrentLevel => seq [acc [rd currentLevel], opt (acc [rd currentLevel])]
  only
    | .run => some 0
    | _ => none

theorem bal : cls.Bal := by intro m; cases m <;> decide +kernel

/-- Threads which trigger events do not disturb each other as long as nobody runs the safety system: **not even that
holds**, since `triggerEvent` reads `nextLevel` for its message after it has unlocked the mutex (62). -/
theorem trigger_violated : ¬ RaceFree (cls.two .triggerEvent .triggerEvent) := by
  rw [two_iff cls bal]
  decide +kernel

/-- **Every access of the safety system from another thread races with its `run`.**  (SafetySystem.cpp:50-51 says "can be
called by different threads".) -/
theorem two_violated (m : M) (hm : m ≠ .run) : ¬ RaceFree (cls.two .run m) := by
  rw [two_iff cls bal]
  cases m <;> first | (exact absurd rfl hm) | decide +kernel

/-- Asking for the level from several threads is no race. -/
theorem race_free : Usable cls [.getCurrentLevel] := by
  apply usable_of cls bal
  decide +kernel

end Safety

/-! ### RingBuffer (RingBuffer.hpp) -/
namespace RingBuffer

inductive Var | tail | len | items
deriving DecidableEq
inductive M | push | pop | length
deriving DecidableEq
open Var

/-- `push` (15-20), `pop` (22-29), `length` (31). -/
def cls : Cls Var M where
  code
    | .push => sync (seq [acc [rd len], opt (acc [rd tail, rd len, wr len, wr items])])
    | .pop => sync (seq [acc [rd len], opt (acc [rd tail, rd items, rd tail, wr tail, rd len, wr len])])
    | .length => acc [rd len]
  only _ := none

theorem bal : cls.Bal := by intro m; cases m <;> decide +kernel

/-- **Any number of threads may push and pop.** -/
theorem race_free : Usable cls [.push, .pop] := by
  apply usable_of cls bal
  decide +kernel

/-- **`length` races with `push` and `pop`.** -/
theorem two_violated (m : M) : RaceFree (cls.two .length m) ↔ m = .length := by
  rw [two_iff cls bal]
  cases m <;> decide +kernel

end RingBuffer

/-! ### RosSubscriber (ros2/RosSubscriber.hpp) -/
namespace RosSubscriber

inductive Var | queue
deriving DecidableEq
inductive M | run | callback
deriving DecidableEq
open Var

/-- `run` (82-89), `rosSubscriberCallback` (63-69, called by the threads of the ROS executor; the class of its group is
"reentrant", Executor.cpp:233). -/
def cls : Cls Var M where
  code
    | .run => seq [acc [rd queue], opt (sync (acc [rd queue, wr queue]))]
    | .callback => sync (acc [wr queue])
  only
    | .run => some 0
    | _ => none

theorem bal : cls.Bal := by intro m; cases m <;> decide +kernel

/-- **The subscriber races with its callback**: `run` asks for `queue.empty()` before it locks the mutex (83), though the
comment calls the queue thread-safe (96). -/
theorem two_violated : ¬ RaceFree (cls.two .run .callback) := by
  rw [two_iff cls bal]
  decide +kernel

/-- The callbacks of several messages do not race. -/
theorem race_free : Usable cls [.callback] := by
  apply usable_of cls bal
  decide +kernel

end RosSubscriber

/-! ### Sockets (SocketClient.hpp, SocketServer.hpp) -/
namespace Socket

inductive Var | running | connected | newData | rxBuf | txBuf
deriving DecidableEq
inductive M | connect | cycle | disconnect | stop | isRunning | isConnected | setSendBuffer | readBuffer | newData
deriving DecidableEq
open Var

/-- The thread of a socket with both directions, SocketClient.hpp:60-128 (SocketServer.hpp:64-142 has the same accesses):
`connect` (62-85), one pass of the loop with `connected` (87-122), `disconnect` (123-127).  `readBuffer`: `getReceiveBuffer`
(46-49) locks the mutex, but returns a reference, and the caller reads the buffer after that. -/
def cls : Cls Var M where
  code
    | .connect => seq [opt (acc [wr running]), acc [rd running, wr connected]]
    | .cycle => seq [acc [rd connected], sync (acc [rd txBuf]), opt (acc [wr connected]), acc [rd connected],
        opt (seq [opt (acc [wr connected]), opt (acc [wr connected]), acc [rd connected]]), sync (acc [wr rxBuf]),
        acc [wr newData]]
    | .disconnect => acc [rd connected, wr rxBuf, wr newData]
    | .stop => acc [wr running]
    | .isRunning => acc [rd running]
    | .isConnected => acc [rd connected]
    | .setSendBuffer => sync (acc [wr txBuf])
    | .readBuffer => seq [sync (acc []), acc [rd rxBuf]]
    | .newData => acc [rd newData, wr newData]
  only
    | .connect => some 0
    | .cycle => some 0
    | .disconnect => some 0
    | _ => none

theorem bal : cls.Bal := by intro m; cases m <;> decide +kernel

/-- **Data may be sent by any number of threads**: the buffer for sending is protected. -/
theorem race_free : Usable cls [.connect, .cycle, .disconnect, .setSendBuffer] := by
  apply usable_of cls bal
  decide +kernel

/-- **Everything else races with the thread of the socket**: stopping it and asking whether it runs with its start, asking
for the connection, taking the received data or the flag for new data with a cycle. -/
theorem two_violated :
    (∀ m, m = M.stop ∨ m = .isRunning ∨ m = .isConnected → ¬ RaceFree (cls.two .connect m)) ∧
    (∀ m, m = M.isConnected ∨ m = .readBuffer ∨ m = .newData → ¬ RaceFree (cls.two .cycle m)) ∧
    (∀ m, m = M.readBuffer ∨ m = .newData → ¬ RaceFree (cls.two .disconnect m)) := by
  refine ⟨?_, ?_, ?_⟩
  · rintro m (rfl | rfl | rfl) <;> rw [two_iff cls bal] <;> decide +kernel
  · rintro m (rfl | rfl | rfl) <;> rw [two_iff cls bal] <;> decide +kernel
  · rintro m (rfl | rfl) <;> rw [two_iff cls bal] <;> decide +kernel

end Socket

/-! ### Abortion of sequences (ConditionAbort.hpp, BaseSequence.cpp) -/
namespace Abort

inductive Var | abort | state
deriving DecidableEq
inductive M | check | start | abort
deriving DecidableEq
open Var

/-- The thread of the sequence: `start` resets the flag (Sequence.cpp:46) and `checkMonitors` reads it in every pass
(BaseSequence.cpp:51, ConditionAbort.hpp:15) while `action` holds the mutex; `BaseSequence::abort` (194-196) sets it from
another thread, as does `Sequencer::abort` (Sequencer.cpp:71-77). -/
def cls : Cls Var M where
  code
    | .start => acc [wr abort]
    | .check => sync (acc [rd state, rd abort, wr state])
    | .abort => acc [wr abort]
  only
    | .start => some 0
    | .check => some 0
    | .abort => none

theorem bal : cls.Bal := by intro m; cases m <;> decide +kernel

/-- **Aborting a sequence from another thread is a data race** with the check of the flag and with a start. -/
theorem two_violated : ¬ RaceFree (cls.two .check .abort) ∧ ¬ RaceFree (cls.two .start .abort) := by
  constructor <;> rw [two_iff cls bal] <;> decide +kernel

end Abort

/-! ### Semaphore (Semaphore.cpp) -/
namespace Semaphore

inductive Var | counter
deriving DecidableEq

/-- The waiting of a condition variable: it unlocks the mutex, waits, locks the mutex and reads the counter again, any
number of times. -/
inductive Waits : List (Instr Var Unit) → Prop
  | done : Waits [rd .counter]
  | again {p : List (Instr Var Unit)} : Waits p → Waits (rd .counter :: .unlock () :: .lock () :: p)

/-- `wait` (9-13), `wait` with a time (15-21: the counter is left alone when the time is over), `post` (23-29). -/
inductive Call : List (Instr Var Unit) → Prop
  | wait {p : List (Instr Var Unit)} : Waits p → Call (.lock () :: p ++ [rd .counter, wr .counter, .unlock ()])
  | timeout {p : List (Instr Var Unit)} : Waits p → Call (.lock () :: p ++ [.unlock ()])
  | post : Call [.lock (), rd .counter, wr .counter, .unlock ()]

/-- Every access of the rest `p` of a call holds the mutex, which is held at its start. -/
theorem waits_held {p r : List (Instr Var Unit)} (h : Waits p) :
    (Balanced [()] r → Balanced [()] (p ++ r)) ∧
    ((∀ a ∈ annotate [()] r, ∀ v, a.1 = rd v ∨ a.1 = wr v → a.2 = [()]) →
      ∀ a ∈ annotate [()] (p ++ r), ∀ v, a.1 = rd v ∨ a.1 = wr v → a.2 = [()]) := by
  induction h with
  | done =>
    refine ⟨fun h => h, fun h a ha => ?_⟩
    simp only [rd, List.cons_append, List.nil_append, annotate, List.mem_cons] at ha
    rcases ha with rfl | ha
    · intro v _; rfl
    · exact h a ha
  | again _ ih =>
    refine ⟨fun h => ?_, fun h a ha => ?_⟩
    · have := ih.1 h
      simpa [rd, Balanced] using this
    · simp only [rd, List.cons_append, annotate, List.mem_cons] at ha
      rcases ha with rfl | rfl | rfl | ha
      · intro v _; rfl
      · intro v hv; simp [rd, wr] at hv
      · intro v hv; simp [rd, wr] at hv
      · exact ih.2 h a (by simpa using ha)

theorem call_held {p : List (Instr Var Unit)} (h : Call p) :
    Balanced [] p ∧ ∀ a ∈ annotate [] p, ∀ v, a.1 = rd v ∨ a.1 = wr v → a.2 = [()] := by
  cases h with
  | wait hw =>
    have := @waits_held _ [rd .counter, wr .counter, .unlock ()] hw
    refine ⟨⟨by simp, this.1 (by decide)⟩, fun a ha => ?_⟩
    simp only [List.cons_append, annotate, List.mem_cons] at ha
    rcases ha with rfl | ha
    · intro v hv; simp [rd, wr] at hv
    · refine this.2 ?_ a ha
      intro a ha v
      simp only [rd, wr, annotate, List.mem_cons, List.not_mem_nil, or_false] at ha
      rcases ha with rfl | rfl | rfl <;> simp [rd, wr]
  | timeout hw =>
    have := @waits_held _ [.unlock ()] hw
    refine ⟨⟨by simp, this.1 (by decide)⟩, fun a ha => ?_⟩
    simp only [List.cons_append, annotate, List.mem_cons] at ha
    rcases ha with rfl | ha
    · intro v hv; simp [rd, wr] at hv
    · refine this.2 ?_ a ha
      intro a ha v
      simp only [annotate, List.mem_cons, List.not_mem_nil, or_false] at ha
      subst ha; simp [rd, wr]
  | post =>
    refine ⟨by decide, fun a ha v => ?_⟩
    simp only [rd, wr, annotate, List.mem_cons, List.not_mem_nil, or_false] at ha
    rcases ha with rfl | rfl | rfl | rfl <;> simp [rd, wr]

/-- **A semaphore may be used by any number of threads**, however often a waiting thread is woken. -/
theorem race_free : RaceFree (fun (_ : Nat) p => Call p) := by
  apply guarded_race_free
  · intro _ p hp; exact (call_held hp).1
  · rintro _ _ p q _ hp hq a ha b hb hc
    have h1 : a.2 = [()] := by
      cases hx : a.1 with
      | rd v => exact (call_held hp).2 a ha v (Or.inl hx)
      | wr v => exact (call_held hp).2 a ha v (Or.inr hx)
      | lock m => rw [hx] at hc; simp [Conflict] at hc
      | unlock m => rw [hx] at hc; simp [Conflict] at hc
    have h2 : b.2 = [()] := by
      cases hx : b.1 with
      | rd v => exact (call_held hq).2 b hb v (Or.inl hx)
      | wr v => exact (call_held hq).2 b hb v (Or.inr hx)
      | lock m => rw [hx] at hc; cases a.1 <;> simp [Conflict] at hc
      | unlock m => rw [hx] at hc; cases a.1 <;> simp [Conflict] at hc
    exact ⟨(), by simp [h1], by simp [h2]⟩

example : Call [.lock (), rd .counter, .unlock (), .lock (), rd .counter, rd .counter, wr .counter, .unlock ()] :=
  .wait (.again .done)

end Semaphore

/-! ### Concrete cases -/

/-- A thread changes the limits of a saturation between the two comparisons of `run`: the state with the race. -/
example : ∃ s, Reach (Saturation.cls.two .run .setLimit) s ∧ RaceIn s := by
  by_contra h
  exact Saturation.two_violated .setLimit (by decide) fun s hs hr => h ⟨s, hs, hr⟩

/-- Thread 0 runs the checker, thread 5 sets its limits and thread 7 resets it: all of them are allowed by `race_free`. -/
example : SignalChecker.cls.can (· ∈ SignalChecker.all) 5 [.lock (), .wr .lowerLimit, .wr .upperLimit, .unlock ()] ∧
    SignalChecker.cls.can (· ∈ SignalChecker.all) 7 [.lock (), .wr .fired, .unlock ()] ∧
    ¬ SignalChecker.cls.can (· ∈ SignalChecker.all) 7 [.lock (), .rd .fired, .unlock ()] := by
  refine ⟨⟨.setLimits, by decide, by simp [SignalChecker.cls], by decide⟩,
    ⟨.reset, by decide, by simp [SignalChecker.cls], by decide⟩, ?_⟩
  rintro ⟨m, _, h, hp⟩
  cases m
  · exact absurd (h 0 rfl) (by decide)
  all_goals revert hp; decide

end Verif.Control.BlockRaces
