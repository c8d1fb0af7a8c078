/-
C297: exact rule behind the partial claim C97 (commands of the user interface of the sequencer).
No new model; the definitions are those of `Stepping.lean`.
-/
import Verif.Sequencer.SteppingProps

namespace Verif.Sequencer.Stepping

/-- **C297** For every text which a client sends before it leaves: the operations executed are exactly those requested if and only if the text is not empty and its last character is none of the commands. -/
theorem as_requested_iff (l : List Char) :
    client none (l.map .char ++ [.closed]) = some (requested l) ↔ ∃ c, l.getLast? = some c ∧ c ≠ 's' ∧ c ≠ 'c' ∧ c ≠ 'b' := by
  rw [client_closed, Option.or_none]
  cases h : l.getLast? with
  | none => simp
  | some c =>
    simp only [Option.map_some, Option.some.injEq]
    constructor
    · intro e
      refine ⟨c, rfl, ?_⟩
      have hnil : command c = [] := List.append_right_eq_self.1 e
      refine ⟨?_, ?_, ?_⟩ <;> rintro rfl <;> revert hnil <;> decide
    · rintro ⟨d, rfl, h1, h2, h3⟩
      simp [command, h1, h2, h3]

/-- **C297** It is undefined exactly for clients which send nothing; otherwise the operations are those requested and then the last command again. -/
theorem client_exact (l : List Char) :
    (client none (l.map .char ++ [.closed]) = none ↔ l = []) ∧
    ∀ c, l.getLast? = some c → client none (l.map .char ++ [.closed]) = some (requested l ++ command c) := by
  rw [client_closed, Option.or_none]
  constructor
  · cases h : l.getLast? with
    | none => simpa using h
    | some c => simp only [Option.map_some, reduceCtorEq, false_iff]; rintro rfl; cases h
  · intro c h
    rw [h]
    rfl

example : client none (['s', 'c'].map .char ++ [.closed]) = some [.singleStepping, .step, .stopStepping, .step, .stopStepping, .step] := (client_exact ['s', 'c']).2 'c' rfl

end Verif.Sequencer.Stepping
