/-
C285-C288: exact rules behind the partial claims C117 (ElmoOutput), C120 (CANsend), C124 (safety level publisher) and C112 (ports of subsystems).
No new model; the definitions are those of `EtherCat.lean`, `CanSend.lean`, `SafetyLevelPub.lean` and `Subio.lean`.
-/
import Verif.Control.EtherCatProps
import Verif.Control.CanSendProps
import Verif.Control.SafetyLevelPubProps
import Verif.Control.SubioProps

namespace Verif.Control.EtherCat

/-- **C285** For all modes and all combinations of connected inputs: the target of the mode is sent exactly if it is connected, the torque limit exactly if both are connected, nothing else
is sent, and a fault is raised exactly if one of the two is missing in a mode which has a target. -/
theorem elmo_exact (m : Mode) (i : Inputs) :
    (elmo m i).1 = (target m i).toList ++ (match target m i, i.torqueMax with | some _, some x => [.setMaximumTorque x] | _, _ => []) ∧
    ((elmo m i).2 = false ↔ m ≠ .other ∧ (target m i = none ∨ i.torqueMax = none)) := by
  obtain ⟨p, v, t, x⟩ := i
  cases m <;> cases p <;> cases v <;> cases t <;> cases x <;> simp [elmo, target, send]

/-- **C285** A fault leaves the drive without a new target exactly if the target is not connected. -/
theorem elmo_fault_silent_iff (m : Mode) (i : Inputs) (hf : (elmo m i).2 = false) : (elmo m i).1 = [] ↔ target m i = none := by
  obtain ⟨p, v, t, x⟩ := i
  cases m <;> cases p <;> cases v <;> cases t <;> cases x <;> simp_all [elmo, target, send]

example : (elmo .velocity ⟨some 1, some 2, none, none⟩).2 = false ∧ (elmo .velocity ⟨some 1, some 2, none, none⟩).1 = [.setTargetVelocity 2] := by decide

end Verif.Control.EtherCat

namespace Verif.Control.CanSend
open Verif.Control.Can (Byte)
variable {K : Type} [Field K] [LinearOrder K] [IsStrictOrderedRing K] [FloorRing K]

/-- Specification: a number which a conversion to an unsigned number of `bits` bits can take. -/
def Fits (bits : Nat) (x : K) : Prop := -1 < x ∧ x < 2 ^ bits

/-- Specification: the frame for index `i` can be built. -/
def CanBuild (N : Nat) (b : Block K) (input : Nat → K) (i : Nat) : Prop :=
  i < N ∧ Fits 32 (input i * b.scale i) ∧ ∃ s, b.speed = some s ∧ Fits 16 (s i)

omit [IsStrictOrderedRing K] in
theorem frame_ok_iff (N : Nat) (enc : Nat → Nat → List Byte) (b : Block K) (input : Nat → K) (i node : Nat) :
    (∃ f, frame N enc b input i node = .ok f) ↔ CanBuild N b input i := by
  unfold frame CanBuild
  by_cases hi : i < N
  · rw [if_pos hi]
    by_cases h1 : Fits 32 (input i * b.scale i)
    · have e1 : toUnsigned 32 (input i * b.scale i) = some _ := if_pos h1
      rw [e1]
      cases hs : b.speed with
      | none => simp
      | some s =>
        by_cases h2 : Fits 16 (s i)
        · have e2 : toUnsigned 16 (s i) = some _ := if_pos h2
          simp only [e2]
          exact ⟨fun _ => ⟨hi, h1, s, rfl, h2⟩, fun _ => ⟨_, rfl⟩⟩
        · have e2 : toUnsigned 16 (s i) = none := if_neg h2
          simp only [e2]
          constructor
          · rintro ⟨f, hf⟩; cases hf
          · rintro ⟨-, -, s', hs', h2'⟩; cases hs'; exact absurd h2' h2
    · have e1 : toUnsigned 32 (input i * b.scale i) = none := if_neg h1
      rw [e1]
      simp [h1]
  · rw [if_neg hi]
    simp [hi]

omit [IsStrictOrderedRing K] in
theorem loop_ok_iff (N : Nat) (enc : Nat → Nat → List Byte) (b : Block K) (input : Nat → K) (bus : Nat → Bool) (nodes : List Nat) (i : Nat) :
    (loop N enc b input bus nodes i).2 = .ok ↔ ∀ k, i ≤ k → k < i + nodes.length → CanBuild N b input k ∧ bus k = true := by
  induction nodes generalizing i with
  | nil => simp only [loop, List.length_nil, true_iff]; intro k h1 h2; omega
  | cons node rest ih =>
    rw [loop]
    have hfr := frame_ok_iff N enc b input i node
    have herr : ∀ e, frame N enc b input i node = .error e → e ≠ .ok := by
      intro e he
      unfold frame at he
      split at he
      · split at he
        · cases he; simp
        · split at he
          · cases he; simp
          · split at he
            · cases he; simp
            · cases he
      · cases he; simp
    cases hf : frame N enc b input i node with
    | error e =>
      have hb : ¬ CanBuild N b input i := by
        intro h
        obtain ⟨f, h'⟩ := hfr.2 h
        rw [hf] at h'
        cases h'
      simp only [herr e hf, false_iff]
      exact fun h => hb (h i (Nat.le_refl _) (by simp)).1
    | ok f =>
      have hb := hfr.1 ⟨f, hf⟩
      by_cases hbus : bus i = true
      · simp only [hbus, if_true]
        rw [ih]
        constructor
        · intro h k h1 h2
          by_cases hk : k = i
          · subst hk; exact ⟨hb, hbus⟩
          · exact h k (by omega) (by simp only [List.length_cons] at h2; omega)
        · intro h k h1 h2
          exact h k (by omega) (by simp only [List.length_cons]; omega)
      · simp only [hbus, Bool.false_eq_true, if_false, reduceCtorEq, false_iff]
        exact fun h => hbus (h i (Nat.le_refl _) (by simp)).2

omit [IsStrictOrderedRing K] in
/-- **C286** A run ends without fault, exception or undefined behaviour exactly if the block is disabled, or for each node: the index is within the matrix, the set point times scale and the speed
(which was set) are greater than -1 and below 2^32 and 2^16, and the bus takes the frame. -/
theorem run_ok_iff (N : Nat) (enc : Nat → Nat → List Byte) (b : Block K) (input : Nat → K) (bus : Nat → Bool) :
    (run N enc b input bus).2 = .ok ↔ b.enabled = false ∨ ∀ i < b.nodes.length, CanBuild N b input i ∧ bus i = true := by
  unfold run
  cases he : b.enabled with
  | false => simp
  | true =>
    rw [if_pos rfl, loop_ok_iff]
    simp

/-- A negative set point above -1 is no error: the drive gets 0. -/
example (enc : Nat → Nat → List Byte) : (run 1 enc (K := ℚ) ⟨true, fun _ => 1, some fun _ => 5, [3]⟩ (fun _ => -1 / 2) (fun _ => true)).2 = .ok := by
  rw [run_ok_iff]
  refine .inr fun i hi => ⟨⟨?_, ⟨?_, ?_⟩, _, rfl, ?_, ?_⟩, rfl⟩
  · simpa using hi
  all_goals norm_num

example (enc : Nat → Nat → List Byte) : (run 1 enc (K := ℚ) ⟨true, fun _ => 1, some fun _ => 5, [3]⟩ (fun _ => -1) (fun _ => true)).2 ≠ .ok := by
  rw [Ne, run_ok_iff]
  rintro (h | h)
  · cases h
  · have := (h 0 (by simp)).1.2.1.1
    norm_num at this

end Verif.Control.CanSend

namespace Verif.Control.SafetyLevelPub

/-- Specification: the safety system which was set last. -/
def lastSet (os : List Op) : Option Nat :=
  os.foldl (fun p o => match o with | .setSafetySystem k => some k | _ => p) none

/-- Specification: for each run, the level which the safety system set last has at this time. -/
def expectedAll (ros2 : Bool) (level : Nat → Level) (os : List Op) : List Msg :=
  (List.range os.length).filterMap fun i =>
    if os[i]? = some .run then (lastSet (os.take i)).map fun k =>
      if ros2 then .text (current k (level k) (os.take i)).desc else .id (current k (level k) (os.take i)).id
    else none

theorem expectedAll_append (ros2 : Bool) (level : Nat → Level) (os : List Op) (o : Op) :
    expectedAll ros2 level (os ++ [o]) = expectedAll ros2 level os ++
      if o = .run then ((lastSet os).map fun k => if ros2 then Msg.text (current k (level k) os).desc else .id (current k (level k) os).id).toList else [] := by
  unfold expectedAll
  rw [List.length_append, List.length_singleton, List.range_succ, List.filterMap_append]
  congr 1
  · apply List.filterMap_congr
    intro i hi
    rw [List.mem_range] at hi
    rw [List.getElem?_append_left hi, List.take_append_of_le_length (by omega)]
  · have h1 : (os ++ [o])[os.length]? = some o := by simp
    have h2 : (os ++ [o]).take os.length = os := by simp
    simp only [List.filterMap_cons, List.filterMap_nil, h1, h2]
    by_cases h : o = .run
    · simp only [h, if_true]
      cases lastSet os <;> rfl
    · simp [h]

theorem lastSet_append (os : List Op) (o : Op) : lastSet (os ++ [o]) = (match o with | .setSafetySystem k => some k | _ => lastSet os) := by
  unfold lastSet
  rw [List.foldl_append]
  cases o <;> rfl

/-- The state after every history. -/
theorem run_inv (ros2 : Bool) (level : Nat → Level) (os : List Op) :
    let s := run (construct ros2 true level) os
    s.running = true ∧ s.ros2 = ros2 ∧ s.ptr = (match lastSet os with | none => .indeterminate | some k => .system k) ∧
      (∀ k, s.level k = current k (level k) os) ∧ s.published = expectedAll ros2 level os ∧
      (s.undefined = true ↔ ∃ a b, os = a ++ .run :: b ∧ lastSet a = none) := by
  induction os using List.reverseRecOn with
  | nil => refine ⟨rfl, rfl, rfl, fun _ => rfl, rfl, ?_⟩; simp [run, construct]
  | append_singleton os o ih =>
    obtain ⟨h1, h2, h3, h4, h5, h6⟩ := ih
    have hw : run (construct ros2 true level) (os ++ [o]) = step (run (construct ros2 true level) os) o := by
      rw [run, List.foldl_append]
      rfl
    have hc : ∀ k, current k (level k) (os ++ [o]) = changed k (current k (level k) os) o := by
      intro k
      unfold current
      rw [List.foldl_append]
      rfl
    have hex : (∃ a b, os ++ [o] = a ++ Op.run :: b ∧ lastSet a = none) ↔ (∃ a b, os = a ++ .run :: b ∧ lastSet a = none) ∨ (o = .run ∧ lastSet os = none) := by
      constructor
      · rintro ⟨a, b, e, ha⟩
        rcases List.eq_nil_or_concat b with rfl | ⟨b', x, rfl⟩
        · have := List.append_inj' e rfl
          exact .inr ⟨by simpa using this.2, by rw [this.1]; exact ha⟩
        · left
          refine ⟨a, b', ?_, ha⟩
          rw [List.concat_eq_append, ← List.cons_append, ← List.append_assoc] at e
          exact (List.append_inj' e rfl).1
      · rintro (⟨a, b, rfl, ha⟩ | ⟨rfl, ha⟩)
        · exact ⟨a, b ++ [o], by simp, ha⟩
        · exact ⟨os, [], rfl, ha⟩
    intro s
    have hs : s = step (run (construct ros2 true level) os) o := hw
    rw [expectedAll_append, lastSet_append, hex, hs]
    simp only [hc]
    revert h1 h2 h3 h4 h5 h6
    generalize run (construct ros2 true level) os = u
    intro h1 h2 h3 h4 h5 h6
    cases o with
    | setSafetySystem j => exact ⟨h1, h2, rfl, h4, by rw [if_neg (by simp), List.append_nil]; exact h5, by simpa [step] using h6⟩
    | change j m =>
      refine ⟨h1, h2, h3, fun k => ?_, by rw [if_neg (by simp), List.append_nil]; exact h5, by simpa [step] using h6⟩
      show (if k = j then m else u.level k) = if j = k then m else current k (level k) os
      rw [h4]
      by_cases hjk : j = k
      · rw [if_pos hjk, if_pos hjk.symm]
      · rw [if_neg hjk, if_neg fun e => hjk e.symm]
    | run =>
      cases hl : lastSet os with
      | none =>
        rw [hl] at h3
        have : step u .run = { u with undefined := true } := by simp [step, h1, h3]
        rw [this]
        exact ⟨h1, h2, h3, h4, by simp [h5], by simp⟩
      | some k =>
        rw [hl] at h3
        have : step u .run = { u with published := u.published ++ [if u.ros2 then .text (u.level k).desc else .id (u.level k).id] } := by simp [step, h1, h3]
        rw [this]
        refine ⟨h1, h2, h3, h4, ?_, by simpa using h6⟩
        simp [h5, h2, h4]

/-- **C287** For all histories, with any number of calls of `setSafetySystem`: undefined behaviour happens exactly if ROS runs and there is a run before the first call of `setSafetySystem`. -/
theorem undefined_iff (ros2 ok : Bool) (level : Nat → Level) (os : List Op) :
    (run (construct ros2 ok level) os).undefined = true ↔ ok = true ∧ ∃ a b, os = a ++ .run :: b ∧ ∀ k, .setSafetySystem k ∉ a := by
  have hl : ∀ a : List Op, lastSet a = none ↔ ∀ k, .setSafetySystem k ∉ a := by
    intro a
    induction a using List.reverseRecOn with
    | nil => simp [lastSet]
    | append_singleton a o ih =>
      rw [lastSet_append]
      cases o with
      | setSafetySystem j =>
        simp only [reduceCtorEq, false_iff, not_forall, not_not]
        exact ⟨j, by simp⟩
      | change j m => simp [ih]
      | run => simp [ih]
  cases ok with
  | false => simp [(silent ros2 level os).2]
  | true =>
    rw [(run_inv ros2 level os).2.2.2.2.2]
    simp [hl]

/-- **C287** For all histories without undefined behaviour every run publishes the level which the safety system set last has at this time, and nothing else is published. -/
theorem published_exact (ros2 : Bool) (level : Nat → Level) (os : List Op) :
    (run (construct ros2 true level) os).published = expectedAll ros2 level os := (run_inv ros2 level os).2.2.2.2.1

/-- Two safety systems. -/
example : (run (construct false true fun k => ⟨k, "start"⟩) [.setSafetySystem 0, .run, .change 1 ⟨7, "moving"⟩, .setSafetySystem 1, .run]).published = [.id 0, .id 7] := by
  rw [published_exact]
  decide

example : ¬ (run (construct false true fun k => ⟨k, "start"⟩) [.setSafetySystem 0, .run]).undefined = true := by
  rw [undefined_iff]
  rintro ⟨-, a, b, e, h⟩
  cases a with
  | nil => cases e
  | cons x a => exact h 0 (by injection e with e1; rw [← e1]; exact List.mem_cons_self ..)

end Verif.Control.SafetyLevelPub

namespace Verif.Control.Subio

/-- **C288** The result of every method after every history of calls: `getIn` gives the input or a fault; `getOut` a fault for ports which do not exist, else the output assigned last, and undefined
behaviour exactly if there is none; `setOut` is defined exactly for ports which exist. -/
theorem results_exact (N M self : Nat) (outputs : Nat → Output) (ops : List Op) (op : Op) :
    (step N self (run N self (new M outputs) ops) op).2 =
      match op with
      | .getIn i => if i < N then .input i else .fault
      | .getOut i => if i < M then (match assigned i ops with | some a => .output a | none => .undefined) else .fault
      | .setOut _ i => if i < M then .done else .undefined := by
  obtain ⟨p1, -, -⟩ := ports_partial N M self outputs ops 0
  cases op with
  | getIn i => exact (ports_partial N M self outputs ops i).1
  | getOut i =>
    obtain ⟨-, h2, h3⟩ := ports_partial N M self outputs ops i
    by_cases hi : i < M
    · simp only [hi, if_true]
      cases ha : assigned i ops with
      | some a => exact h3 a hi ha
      | none => exact unassigned_violated N M self outputs ops i hi ha
    · simp only [hi, if_false]
      exact h2 (by omega)
  | setOut a i =>
    by_cases hi : i < M
    · simp only [hi, if_true]
      have hl : (run N self (new M outputs) ops).out.length = M := by rw [(run_spec N self ops (new M outputs)).1]; simp [new]
      simp [step, hl, hi]
    · simp only [hi, if_false]
      exact setOut_violated N M self outputs ops a i (by omega)

example : (step 1 7 (run 1 7 (new 2 fun _ => ⟨none, false⟩) [.setOut 20 0, .setOut 21 1, .setOut 22 1]) (.getOut 1)).2 = .output 22 := results_exact 1 2 7 _ _ _

end Verif.Control.Subio
