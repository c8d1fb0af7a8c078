/-
C292: exact rules behind the partial claims C102 (executor synchronised with a topic) and C275 (EtherCAT loop of the executor): when a call of `stop` ends the executor.
No new model; the definitions are those of `RosSync.lean` and `EtherCatSync.lean`.
-/
import Verif.Core.RosSyncProps
import Verif.Core.EtherCatSync
import Mathlib.Tactic.Tauto

namespace Verif.Core.RosSync.Topic

/-- Steps which are still to be made. -/
def left : Pc → Nat
  | .cycle => 2
  | .test => 1
  | _ => 0

theorem ends_aux (l : List Step) (s : St) (hr : s.running = false) (hj : s.joinable = false) (hs : s.shutdown = true)
    (hp : s.pc = .cycle ∨ s.pc = .test ∨ s.pc = .done) :
    ((run s l).pc = .cycle ∨ (run s l).pc = .test ∨ (run s l).pc = .done) ∧ left (run s l).pc = left s.pc - l.count .exec := by
  induction l generalizing s with
  | nil => simpa [run] using hp
  | cons a l ih =>
    obtain ⟨r, pc, c, sh, jo, ex⟩ := s
    simp only at hr hj hs hp
    subst hr hj hs
    have key : (step ⟨false, pc, c, true, false, ex⟩ a).running = false ∧ (step ⟨false, pc, c, true, false, ex⟩ a).joinable = false ∧ (step ⟨false, pc, c, true, false, ex⟩ a).shutdown = true ∧
        ((step ⟨false, pc, c, true, false, ex⟩ a).pc = .cycle ∨ (step ⟨false, pc, c, true, false, ex⟩ a).pc = .test ∨ (step ⟨false, pc, c, true, false, ex⟩ a).pc = .done) ∧
        left (step ⟨false, pc, c, true, false, ex⟩ a).pc = left pc - (if a = .exec then 1 else 0) := by
      rcases hp with rfl | rfl | rfl <;> cases a <;> simp [step, left]
    obtain ⟨k1, k2, k3, k4, k5⟩ := key
    obtain ⟨h1, h2⟩ := ih _ k1 k2 k3 k4
    refine ⟨h1, ?_⟩
    show left (run (step ⟨false, pc, c, true, false, ex⟩ a) l).pc = _
    rw [h2, k5, List.count_cons]
    cases a <;> simp <;> omega

/-- **C292** The first call of `stop`, at its notification (whatever happened since it cleared `running` and shut ROS down): if the executor is anywhere but between the test of `running` and the
waiting, every continuation with two steps of the executor ends it; if it is just there, no continuation without a spurious wake-up ever ends it. -/
theorem stop_ends_iff (s : St) (hr : s.running = false) (hs : s.shutdown = true) (hj : s.joinable = true) :
    ((∀ l : List Step, 2 ≤ l.count .exec → (run (step s .stopNotify) l).pc = .done) ↔ s.pc ≠ .beforeWait) ∧
    ((∃ l : List Step, .spurious ∉ l ∧ (run (step s .stopNotify) l).pc = .done) ↔ s.pc ≠ .beforeWait) := by
  have good : s.pc ≠ .beforeWait → ∀ l : List Step, 2 ≤ l.count .exec → (run (step s .stopNotify) l).pc = .done := by
    intro hp l hl
    have hn : (step s .stopNotify).running = false ∧ (step s .stopNotify).joinable = false ∧ (step s .stopNotify).shutdown = true ∧
        ((step s .stopNotify).pc = .cycle ∨ (step s .stopNotify).pc = .test ∨ (step s .stopNotify).pc = .done) := by
      obtain ⟨r, pc, c, sh, jo, ex⟩ := s
      simp only at hr hj hs hp
      subst hr hj hs
      cases pc <;> simp_all [step, notify]
    obtain ⟨h1, h2⟩ := ends_aux l _ hn.1 hn.2.1 hn.2.2.1 hn.2.2.2
    have : left (step s .stopNotify).pc ≤ 2 := by cases (step s .stopNotify).pc <;> simp [left]
    have h0 : left (run (step s .stopNotify) l).pc = 0 := by omega
    rcases h1 with h | h | h
    · rw [h] at h0; simp [left] at h0
    · rw [h] at h0; simp [left] at h0
    · exact h
  have bad : s.pc = .beforeWait → ∀ l : List Step, .spurious ∉ l → (run (step s .stopNotify) l).pc ≠ .done := by
    intro hp l hl
    have e : run s [.stopFlag, .stopNotify] = step s .stopNotify := by
      obtain ⟨r, pc, c, sh, jo, ex⟩ := s
      simp only at hr hs
      subst hr hs
      rfl
    rw [← e]
    exact (stop_lost s hj hp l hl).1
  constructor
  · constructor
    · intro h hp
      exact bad hp [.exec, .exec] (by simp) (h [.exec, .exec] (by decide))
    · exact good
  · constructor
    · rintro ⟨l, hl, h⟩ hp
      exact bad hp l hl h
    · intro hp
      exact ⟨[.exec, .exec], by simp, good hp _ (by decide)⟩

/-- Both cases can be reached. -/
example : (run init [.exec, .stopFlag]).pc = .beforeWait ∧ (run init [.exec, .exec, .stopFlag]).pc = .asleep ∧ (run init [.exec, .stopFlag]).running = false ∧
    (run init [.exec, .stopFlag]).shutdown = true ∧ (run init [.exec, .stopFlag]).joinable = true := by decide

/-- **C292** A message leads to a cycle exactly if it finds the executor asleep and ROS has not been shut down; otherwise nothing changes. -/
theorem message_iff (s : St) :
    (step s .message ≠ s ↔ s.pc = .asleep ∧ s.shutdown = false) ∧
    (s.pc = .asleep → s.shutdown = false → (run s [.message, .exec]).cycles = s.cycles + 1) := by
  obtain ⟨r, pc, c, sh, jo, ex⟩ := s
  constructor
  · cases pc <;> cases sh <;> simp [step, notify]
  · rintro rfl rfl
    simp [run, step, notify]

example : (run init [.exec, .exec]).pc = .asleep ∧ (run init [.exec, .exec]).shutdown = false := by decide

end Verif.Core.RosSync.Topic

namespace Verif.Core.EtherCatSync

/-- **C292** A call of `stop` with a stack whose `sync` returns then: every continuation with three steps of the executor ends it exactly if the executor has passed line 276 when `running` is cleared. -/
theorem stop_ends_iff (s : St) :
    (∀ l : List Step, 3 ≤ l.count .exec → (run true (run true s [.stopFlag, .stopStack]) l).pc = .done) ↔ s.pc ≠ .starting := by
  constructor
  · intro h hp
    have h1 := h [.exec, .exec, .exec] (by decide)
    obtain ⟨r, pc, c, st⟩ := s
    simp only at hp
    subst hp
    simp [run, step] at h1
  · intro hp l hl
    exact (stop_ends_partial s hp l).2 hl

/-- An executor in the loop, and one which starts. -/
example : (run true init [.exec]).pc ≠ .starting ∧ ¬ init.pc ≠ .starting := by decide

end Verif.Core.EtherCatSync
