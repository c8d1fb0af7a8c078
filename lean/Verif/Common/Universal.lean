import Verif.Config.ConfigProps
import Verif.Math.Matrix1Props
import Verif.Core.TasksProps
/-!
Violations of C20, C45 and C127 for all inputs instead of single ones.
-/
namespace Verif.Config

/-- **C45, violated**, for every value and all further properties: the line of a property with the empty name is taken for a property named `=`, so its value is not loaded; loading
has the same effect as loading a file without this line. -/
theorem empty_name_violated (v : Val) (qs ps : Props) (hv : '\n' ∉ text v) (hn : ['='] ∉ ps.map Prod.fst) :
    load (save (([], v) :: qs)) ps = load (save qs) ps := by
  have e : save (([], v) :: qs) = (' ' :: '=' :: ' ' :: text v) ++ '\n' :: save qs := by simp [save]
  have hk : (splitLine (' ' :: '=' :: ' ' :: text v)).1 = ['='] := by
    have h1 : isSpace ' ' = true := by decide
    have h2 : isSpace '=' = false := by decide
    simp [splitLine, List.dropWhile_cons, List.takeWhile_cons, h1, h2]
  rw [e]
  exact (unknown_ignored [] _ _ ps (by simp [hv]) (by rw [hk]; exact hn)).1

/-- The property without name is saved with the value 5 and keeps the value 0 when loaded; the other one gets its value back. -/
example : load (save [([], .int 5), ("n".toList, .int 7)]) [([], .int 0), ("n".toList, .int 0)] = .ok [([], .int 0), ("n".toList, .int 7)] := by
  rw [empty_name_violated _ _ _ (by decide) (by decide), save]
  decide +kernel

end Verif.Config

namespace Verif.Math.Matrix1

/-- **C127, violated**, over every field in which 1 and -1 differ: the matrix (-1) is orthogonal and is not called so; it is the only one. -/
theorem orthogonal_exact_violated {T : Type} [Field T] [DecidableEq T] (h : (-1 : T) ≠ 1) (v : T) :
    (isOrthogonal v = false ∧ toM v * (toM v).transpose = 1) ↔ v = -1 := by
  have ht : toM v * (toM v).transpose = toM (v * v) := toM_mul v v
  rw [ht, ← toM_one, toM_inj, mul_self_eq_one_iff]
  simp only [isOrthogonal, decide_eq_false_iff_not]
  constructor
  · rintro ⟨h1, h2⟩
    exact h2.resolve_left h1
  · rintro rfl
    exact ⟨h, .inr rfl⟩

example : (-1 : ℚ) ≠ 1 := by decide

end Verif.Math.Matrix1

namespace Verif.Core.Async

/-- **C20, violated**, in every state in which the worker has tested `finished` but not yet begun: after `stop` has returned, and whatever the clients do then, the task starts. -/
theorem start_after_stop_violated (s : St) (hp : s.pc = .about) (ops : List Op) (ho : .worker ∉ ops) :
    starts (exec s ([.stopFlag, .stopPost] ++ ops ++ [.worker])).2 = 1 := by
  have one : ∀ (ops : List Op) (s : St), s.pc = .about → .worker ∉ ops → starts (exec s (ops ++ [.worker])).2 = 1 := by
    intro ops
    induction ops with
    | nil => intro s hs _; obtain ⟨c, f, pc⟩ := s; simp only at hs; subst hs; simp [exec, step, starts]
    | cons op ops ih =>
      intro s hs ho
      have hw : op ≠ .worker := fun h => ho (by simp [h])
      have := ih (step s op).1 (by cases op <;> simp_all [step]) (fun h => ho (by simp [h]))
      cases op <;> simp_all [exec, step, starts]
  exact one _ s hp (by simpa using ho)

example : (exec init [.run, .worker, .worker]).1.pc = .about := by decide

end Verif.Core.Async
