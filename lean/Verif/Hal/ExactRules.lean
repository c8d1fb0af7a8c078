/-
C282: exact rules behind the partial claims C90 (RPLidar) and C91 (threads of devices).
No new model; the definitions are those of `RPLidar.lean` and `DeviceThread.lean`.
-/
import Verif.Hal.DeviceThreadProps
import Verif.Hal.RPLidarProps

namespace Verif.Hal.DeviceThread

/-- **C282** Whenever the destructor of a device starts: it returns under every schedule which gives turns to both threads exactly if the thread has come to its loop, and under no schedule at all otherwise. -/
theorem destructor_returns_iff (c h : Bool) (before : List Who) (hm : (run c (init h) before).main = .alive) :
    ((∀ sched, fair sched → (run c (stepMain c (run c (init h) before)) sched).main = .done) ↔ (run c (init h) before).worker = .loop) ∧
    ((run c (init h) before).worker ≠ .loop → ∀ sched, (run c (stepMain c (run c (init h) before)) sched).main ≠ .done) := by
  have hcases := cases_complete c h before _ rfl hm
  have hno : (run c (init h) before).worker ≠ .loop → ∀ sched, (run c (stepMain c (run c (init h) before)) sched).main ≠ .done := by
    intro hw sched
    apply early_violated c _ hm
    rcases hcases with h' | h' | h'
    · exact .inl h'
    · exact .inr h'
    · exact absurd h'.1 hw
  refine ⟨⟨fun hall => ?_, fun hw sched hf => returns_partial c _ hm hw sched hf⟩, hno⟩
  by_contra hw
  exact hno hw [.worker, .main] (hall [.worker, .main] ⟨[], [], [], rfl⟩)

/-- **C282** A device which was not found and has the flag `starting` is never destroyed; without the flag, and for devices which were found, there is a schedule on which it is. -/
theorem destructible_iff (c h : Bool) : (∃ sched, (run c (init h) sched).main = .done) ↔ (c = true ∨ h = false) := by
  constructor
  · rintro ⟨sched, hs⟩
    by_contra hn
    have : c = false ∧ h = true := by revert hn; cases c <;> cases h <;> simp
    obtain ⟨rfl, rfl⟩ := this
    exact (not_connected_violated sched).1 hs
  · intro hn
    refine ⟨[.main, .worker, .worker, .main, .worker, .worker, .main, .main], ?_⟩
    revert hn
    cases c <;> cases h <;> decide

/-- Both cases: a thread which has come to its loop, and one which has not. -/
example : (run true (init true) [.main, .worker, .worker]).main = .alive ∧ (run true (init true) [.main, .worker, .worker]).worker = .loop ∧
    (run true (init true) [.main, .worker]).main = .alive ∧ (run true (init true) [.main, .worker]).worker = .set := by decide

end Verif.Hal.DeviceThread

namespace Verif.Hal.RPLidar
variable {K : Type} [Field K] [LinearOrder K] [IsStrictOrderedRing K]

/-- **C282** A sequence of scans is processed without reading outside of an array exactly if every successful scan contains a measurement. -/
theorem run_defined_iff (s : Out K) (l : List Answer) :
    (run s l).isSome ↔ ∀ nodes, Answer.ok nodes ∈ l → ∃ n ∈ nodes, n.dist ≠ 0 := by
  induction l generalizing s with
  | nil => simp [run]
  | cons a l ih =>
    cases a with
    | error =>
      simp only [run, step, Option.bind_some, ih, List.mem_cons, reduceCtorEq, false_or]
    | ok nodes =>
      have hd := defined_iff (K := K) nodes
      rcases e : process (K := K) nodes with _ | o
      · rw [e] at hd
        simp only [run, step, e, Option.bind_none, Option.isSome_none, Bool.false_eq_true, false_iff]
        intro hall
        exact absurd (hd.2 (hall nodes (List.mem_cons_self ..))) (by simp)
      · rw [e] at hd
        simp only [run, step, e, Option.bind_some, ih]
        constructor
        · intro h ns hns
          rcases List.mem_cons.1 hns with h' | h'
          · cases h'; exact hd.1 rfl
          · exact h ns h'
        · exact fun h ns hns => h ns (List.mem_cons_of_mem _ hns)

/-- Two scans with an error between them. -/
example (s : Out ℚ) : (run s [.ok [⟨0, 0, 0⟩, ⟨16384, 4000, 188⟩], .error, .ok [⟨0, 39, 4⟩]]).isSome :=
  (run_defined_iff s _).2 (by
    intro nodes h
    simp only [List.mem_cons, reduceCtorEq, Answer.ok.injEq, List.not_mem_nil, or_false, false_or] at h
    rcases h with rfl | rfl
    · exact ⟨⟨16384, 4000, 188⟩, by simp, by decide⟩
    · exact ⟨⟨0, 39, 4⟩, by simp, by decide⟩)

end Verif.Hal.RPLidar
