import Verif.Hal.HalArgs
import Mathlib.Tactic.SplitIfs
/-!
Theorems about the command line of the hardware abstraction layer.
-/
namespace Verif.Hal.HalArgs

/-- An operand: an element which does not begin with `-`. -/
def Operand (a : Arg) : Prop := a.head? ≠ some 45

/-- Specification: the file is given with `-c` as an element of its own, somewhere in the arguments, and the other ones are operands. -/
def Given (argv : List Arg) (file : Arg) : Prop :=
  ∃ prog pre post, argv = prog :: pre ++ bytes "-c" :: file :: post ∧ (∀ a ∈ pre, Operand a) ∧ ∀ a ∈ post, Operand a

/-- No argument begins with the bytes of an en dash. -/
def NoDash (argv : List Arg) : Prop := ∀ a ∈ argv, ¬ ([226, 128, 147] <+: a)

theorem signed_never (a : Arg) (hb : ∀ b ∈ a, b < 256) : enDash true a = false := by
  have : charVal true (a.getD 0 0) ≠ 226 := by
    cases a with
    | nil => decide
    | cons b l =>
      have : b < 256 := hb b (by simp)
      simp only [List.getD_cons_zero, charVal, Bool.true_and, decide_eq_true_eq]
      split <;> omega
  unfold enDash
  rw [decide_eq_false this]
  rfl

theorem unsigned_iff (a : Arg) : enDash false a = true ↔ [226, 128, 147] <+: a := by
  match a with
  | [] => simp [enDash, charVal]
  | [x] => simp [enDash, charVal]
  | [x, y] => simp [enDash, charVal]
  | x :: y :: z :: l =>
    simp only [enDash, charVal, Bool.false_and, List.getD_cons_zero, List.getD_cons_succ, Bool.false_eq_true, if_false, Bool.and_eq_true, decide_eq_true_eq]
    constructor
    · rintro ⟨⟨h1, h2⟩, h3⟩
      have e1 : x = 226 := by omega
      have e2 : y = 128 := by omega
      have e3 : z = 147 := by omega
      subst e1 e2 e3
      exact ⟨l, rfl⟩
    · rintro ⟨t, ht⟩
      simp only [List.cons_append, List.nil_append, List.cons.injEq] at ht
      obtain ⟨rfl, rfl, rfl, -⟩ := ht
      exact ⟨⟨rfl, rfl⟩, rfl⟩

theorem no_dash_any (signed : Bool) (argv : List Arg) (hb : ∀ a ∈ argv, ∀ b ∈ a, b < 256) (h : NoDash argv) : argv.any (enDash signed) = false := by
  rw [List.any_eq_false]
  intro a ha
  cases signed with
  | true => rw [signed_never a (hb a ha)]; simp
  | false => rw [unsigned_iff]; exact h a ha

theorem getopt_operand (a : Arg) (rest : List Arg) (p : Option Arg) (ha : Operand a) : getopt (a :: rest) p = getopt rest p := by
  rw [getopt, if_neg (fun h => ha h.1)]

/-- A fault exactly if there are fewer than two arguments. -/
theorem fault_iff (signed again : Bool) (argv : List Arg) : readConfig signed again argv = .fault ↔ argv.length < 3 := by
  unfold readConfig
  split_ifs with h1 h2 <;> simp [h1]

/-- `-c file` as the first two arguments: this file is read, whatever follows. -/
theorem first_partial (signed : Bool) (prog file : Arg) (post : List Arg) (hb : ∀ a ∈ prog :: bytes "-c" :: file :: post, ∀ b ∈ a, b < 256)
    (hd : NoDash (prog :: bytes "-c" :: file :: post)) :
    readConfig signed false (prog :: bytes "-c" :: file :: post) = .parsed file := by
  have hl : ¬ (prog :: bytes "-c" :: file :: post).length < 3 := by simp
  rw [readConfig, if_neg hl, no_dash_any signed _ hb hd]
  have h : bytes "-c" = [45, 99] := by decide
  simp only [Bool.false_eq_true, if_false, List.drop_succ_cons, List.drop_zero, List.take_succ_cons, List.take_zero, h]
  rw [getopt]
  simp [letters, getopt]

/-- `program -c HwConfig.json log`. -/
example : Given [bytes "program", bytes "-c", bytes "HwConfig.json", bytes "log"] (bytes "HwConfig.json") ∧
    NoDash [bytes "program", bytes "-c", bytes "HwConfig.json", bytes "log"] ∧
    readConfig true false [bytes "program", bytes "-c", bytes "HwConfig.json", bytes "log"] = .parsed (bytes "HwConfig.json") := by
  refine ⟨⟨bytes "program", [], [bytes "log"], by decide, by simp, ?_⟩, ?_, ?_⟩
  · intro a ha
    simp only [List.mem_cons, List.not_mem_nil, or_false] at ha
    subst ha
    simp only [Operand]; decide
  · unfold NoDash; decide
  · refine first_partial true _ _ _ ?_ ?_
    · decide
    · unfold NoDash; decide

/-- Violation: `-c file` after two or more operands is not seen: the path is empty. -/
theorem late_violated (signed : Bool) (prog a b file : Arg) (pre post : List Arg) (ha : Operand a) (hbo : Operand b)
    (hb : ∀ x ∈ prog :: a :: b :: (pre ++ bytes "-c" :: file :: post), ∀ y ∈ x, y < 256)
    (hd : NoDash (prog :: a :: b :: (pre ++ bytes "-c" :: file :: post))) :
    readConfig signed false (prog :: a :: b :: (pre ++ bytes "-c" :: file :: post)) = .parsed [] := by
  have hl : ¬ (prog :: a :: b :: (pre ++ bytes "-c" :: file :: post)).length < 3 := by simp
  rw [readConfig, if_neg hl, no_dash_any signed _ hb hd]
  simp only [Bool.false_eq_true, if_false, List.drop_succ_cons, List.drop_zero, List.take_succ_cons, List.take_zero]
  rw [getopt_operand a [b] none ha, getopt_operand b [] none hbo, getopt]
  rfl

/-- `program log 5 -c HwConfig.json`. -/
example : Operand (bytes "log") ∧ Operand (bytes "5") ∧
    Given (bytes "program" :: bytes "log" :: bytes "5" :: ([] ++ bytes "-c" :: bytes "f.json" :: [])) (bytes "f.json") := by
  refine ⟨by simp only [Operand]; decide, by simp only [Operand]; decide, bytes "program", [bytes "log", bytes "5"], [], by decide, ?_, by simp⟩
  intro a ha
  simp only [List.mem_cons, List.not_mem_nil, or_false] at ha
  rcases ha with rfl | rfl <;> (simp only [Operand]; decide)

/-- Violation: a second call does not find the file any more. -/
theorem again_violated (signed : Bool) (prog file : Arg) (post : List Arg) (hb : ∀ a ∈ prog :: bytes "-c" :: file :: post, ∀ b ∈ a, b < 256)
    (hd : NoDash (prog :: bytes "-c" :: file :: post)) :
    readConfig signed true (prog :: bytes "-c" :: file :: post) = .parsed [] := by
  have hl : ¬ (prog :: bytes "-c" :: file :: post).length < 3 := by simp
  rw [readConfig, if_neg hl, no_dash_any signed _ hb hd]
  rfl

/-- Violation: the check for en dashes never succeeds where `char` is signed; where it is unsigned the call returns true without reading anything. -/
theorem dash_violated (again : Bool) (argv : List Arg) (hl : 3 ≤ argv.length) (hb : ∀ a ∈ argv, ∀ b ∈ a, b < 256) (hd : ¬ NoDash argv) :
    readConfig true again argv ≠ .nothing ∧ readConfig true again argv ≠ .fault ∧ readConfig false again argv = .nothing := by
  have hl' : ¬ argv.length < 3 := by omega
  have h1 : argv.any (enDash true) = false := by
    rw [List.any_eq_false]
    intro a ha
    rw [signed_never a (hb a ha)]; simp
  have h2 : argv.any (enDash false) = true := by
    simp only [NoDash, Classical.not_forall, Classical.not_not] at hd
    obtain ⟨a, ha, hp⟩ := hd
    exact List.any_eq_true.2 ⟨a, ha, (unsigned_iff a).2 hp⟩
  rw [readConfig, if_neg hl', h1, readConfig, if_neg hl', h2]
  simp

/-- `program –c f.json` with an en dash. -/
example : ¬ NoDash [bytes "program", [226, 128, 147, 99], bytes "f.json"] := by unfold NoDash; decide

/-- Violation: `--config file` is taken for `-c` with the argument `onfig`. -/
theorem long_option_violated (signed : Bool) (prog file : Arg) (post : List Arg)
    (hb : ∀ a ∈ prog :: bytes "--config" :: file :: post, ∀ b ∈ a, b < 256) (hd : NoDash (prog :: bytes "--config" :: file :: post)) (hf : Operand file) :
    readConfig signed false (prog :: bytes "--config" :: file :: post) = .parsed (bytes "onfig") := by
  have hl : ¬ (prog :: bytes "--config" :: file :: post).length < 3 := by simp
  rw [readConfig, if_neg hl, no_dash_any signed _ hb hd]
  have h : bytes "--config" = [45, 45, 99, 111, 110, 102, 105, 103] := by decide
  have h' : bytes "onfig" = [111, 110, 102, 105, 103] := by decide
  simp only [Bool.false_eq_true, if_false, List.drop_succ_cons, List.drop_zero, List.take_succ_cons, List.take_zero, h]
  rw [getopt, if_pos (by simp), if_neg (by simp)]
  simp only [List.tail_cons, letters, Nat.reduceEqDiff, if_false, if_true]
  rw [getopt_operand file [] _ hf, getopt, h']
  rfl

/-- Case: `program --config f.json`. -/
example : readConfig true false [bytes "program", bytes "--config", bytes "f.json"] = .parsed (bytes "onfig") :=
  long_option_violated true (bytes "program") (bytes "f.json") [] (by decide) (by unfold NoDash; decide) (by simp only [Operand]; decide)

end Verif.Hal.HalArgs
