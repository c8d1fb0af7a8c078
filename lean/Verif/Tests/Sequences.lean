import Verif.Sequencer.Machine
/-!
Unit tests of the project for the sequencer (/repo/test/sequencer), replayed on the model of a thread of the sequencer: what the tests expect of the code the
model does.  These are checks that the model fits the code, not proofs of properties; no claim refers to them.
-/
namespace Verif.Tests.Sequences
open Sequencer

/-- The user code of a test: variables `E` and, for every sequence, what its functions do with them. -/
structure User (E : Type) where
  /-- the action up to its first call or return -/
  enter : Nat → E → E
  /-- the next call or return of the action -/
  act : Nat → E → Inp × E
  pre : Nat → E → Bool
  exitc : Nat → E → Bool × E
  cond : E → Bool

/-- The thread running the user code, at most `fuel` steps. -/
def drive {E : Type} (P : Prog) (U : User E) : Nat → M → E → M × E × List Ev
  | 0, s, e => (s, e, [])
  | fuel + 1, s, e =>
    let go (x : Inp) (e : E) : M × E × List Ev :=
      match step P s x with
      | none => (s, e, [])
      | some (s', evs) =>
        let e := evs.foldl (fun e v => match v with | .enter i => U.enter i e | _ => e) e
        let r := drive P U fuel s' e
        (r.1, r.2.1, evs ++ r.2.2)
    match s.frames with
    | [] => (s, e, [])
    | .body i :: _ => let r := U.act i e; go r.1 r.2
    | .exit i _ :: _ => let r := U.exitc i e; go (.exitc r.1) r.2
    | .loop i _ :: _ => if s.st i = .starting then go (.pre (U.pre i e)) e else go .tick e
    | .check k :: _ => match k.os, k.ms with
      | _ :: _, some (_ :: _) => go (.cond (U.cond e)) e
      | _, _ => go .tick e
    | .exc _ _ _ :: _ => go .tick e

/-- `seq(); sequencer.wait();`: the machine and the variables afterwards and the value of `getResult`. -/
def call {E : Type} (P : Prog) (U : User E) (s : M) (e : E) (i : Nat) : M × E × Option Int :=
  match step P s (.call i) with
  | none => (s, e, none)
  | some (s', _) =>
    let r := drive P U 2000 s' e
    (r.1, r.2.1, if r.1.frames = [] ∧ r.1.halt = none then (r.2.2.getLast?.bind fun v => match v with | .ret j v => if j = i then some v else none | _ => none) else none)

/-- Sequence 0 with the steps and sequences 1 and 2, all blocking; the monitors of sequence 0. -/
def prog (mons : List Mon) : Prog where
  caller i := if i = 1 ∨ i = 2 then some 0 else none
  older i c h := by split at h <;> simp_all; omega
  blocking _ := true
  mons i := if i = 0 then mons else []

/-- Variables: the counter of the steps, the counter of exceptions, the limit of the loop and its index. -/
structure Vars where
  count : Int
  eCount : Int
  limit : Int
  i : Int
deriving DecidableEq

/-! ### SeqTest1.cpp -/

/-- 11-34: `Step1` (1) and `MainSequence` (0); the `count` of the main sequence is the result of the last step. -/
def seq1 : User Vars where
  enter j e := if j = 0 then { e with i := 0 } else if j = 1 then { e with count := e.count + 1 } else e
  act j e := if j = 0 then (if e.i < 5 then (.call 1, { e with i := e.i + 1 }) else (.ret e.count, e)) else (.ret e.count, e)
  pre _ _ := true
  exitc _ e := (true, e)
  cond _ := false
/-- 60-67: `stepping`. -/
example : (call (prog []) seq1 init ⟨0, 0, 0, 0⟩ 0).2.2 = some 5 := by decide +kernel

/-- 36-48: `SequenceA` (0); `eCount` is its `count`. -/
def seq1A : User Vars where
  enter j e := if j = 0 then { e with i := 0 } else { e with count := e.count + 1 }
  act j e := if j = 0 then (if e.i = 0 then (.call 1, { e with i := 1, count := e.count + e.eCount }) else (.ret e.count, e)) else (.ret e.count, e)
  pre _ _ := true
  exitc _ e := (true, e)
  cond _ := false
/-- 119-134: `params`. -/
example : let r := call (prog []) seq1A init ⟨0, 100, 0, 0⟩ 0
    let r' := call (prog []) seq1A r.1 { r.2.1 with eCount := 1000 } 0
    (r.2.2, r.2.1.count, r'.2.2, r'.2.1.count) = (some 101, 101, some 1102, 1102) := by decide +kernel

/-! ### SeqTest2.cpp -/

/-- 36-45: `SequenceA`. -/
def seq2A : User Vars where
  enter _ e := { e with count := e.count + 1 }
  act _ e := (.ret e.count, e)
  pre _ e := e.count = 5
  exitc _ e := (true, e)
  cond _ := false
/-- 77-89: `preCondition`. -/
example : let r := call (prog []) seq2A init ⟨0, 0, 0, 0⟩ 0
    let r' := call (prog []) seq2A r.1 { r.2.1 with count := 5 } 0
    (r.2.2, r.2.1.count, r'.2.2, r'.2.1.count) = (some (-1), 0, some 6, 6) := by decide +kernel

/-- 47-56: `SequenceB`; the test sets `count` to 15 while the sequence waits for its exit condition, here when it has been evaluated three times. -/
def seq2B : User Vars where
  enter _ e := { e with count := e.count + 1 }
  act _ e := (.ret e.count, e)
  pre _ _ := true
  exitc _ e := (e.count = 15, { e with i := e.i + 1, count := if e.i = 2 then 15 else e.count })
  cond _ := false
/-- 92-101: `exitCondition`. -/
example : let r := call (prog []) seq2B init ⟨0, 0, 0, 0⟩ 0
    (r.2.2, r.2.1.count) = (some 1, 15) := by decide +kernel

/-! ### SeqTest3.cpp -/

/-- 11-54: `Step1` (1), `ExceptionSeq` (2), `MainSequence` (0) and its monitor. -/
def seq3 : User Vars where
  enter j e :=
    if j = 0 then { e with count := 0, i := 0 }
    else if j = 1 then { e with count := e.count + 1 }
    else { e with count := e.count + 100, eCount := e.eCount + 1, limit := if e.eCount + 1 = 3 then 2 else e.limit }
  act j e :=
    if j = 0 then (if e.i < e.limit then (.call 1, { e with i := e.i + 1 }) else (.ret e.count, e))
    else if j = 1 then (.ret e.count, e) else (.ret 0, e)
  pre _ _ := true
  exitc _ e := (true, e)
  cond e := 2 < e.count ∧ e.count < 100
def mon (b : Beh) : List Mon := [⟨7, b, some 2⟩]
/-- 77-102: `condition`. -/
example : let r := call (prog (mon .abort)) seq3 init ⟨0, 0, 5, 0⟩ 0
    let r' := call (prog (mon .resume)) seq3 r.1 { r.2.1 with count := 0, eCount := 0 } 0
    let r'' := call (prog (mon .restart)) seq3 r'.1 { r'.2.1 with count := 0, eCount := 0 } 0
    [(r.2.1.count, r.2.1.eCount), (r'.2.1.count, r'.2.1.eCount), (r''.2.1.count, r''.2.1.eCount)] = [(105, 1), (105, 1), (2, 3)] ∧
    r.2.2.isSome ∧ r'.2.2.isSome ∧ r''.2.2.isSome := by decide +kernel

/-! ### SeqTest4.cpp -/

/-- 11-45. -/
def seq4 : User Vars where
  enter j e :=
    if j = 0 then { e with count := 10 }
    else { e with count := e.count + 100, eCount := e.eCount + 1, limit := if e.eCount + 1 = 3 then 2 else e.limit }
  act j e := if j = 0 then (.ret e.count, e) else (.ret 0, e)
  pre _ _ := true
  exitc j e := if j = 0 then (e.count ≥ 121, { e with count := e.count + 1 }) else (true, e)
  cond e := e.count ≥ 13 ∧ e.eCount < 1
/-- 48-59: `condition`. -/
example : let r := call (prog (mon .abort)) seq4 init ⟨0, 0, 5, 0⟩ 0
    (r.2.1.count, r.2.1.eCount, r.2.2.isSome) = (114, 1, true) := by decide +kernel

end Verif.Tests.Sequences
