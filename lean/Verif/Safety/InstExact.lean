import Verif.Safety.Props
/-!
C05, C267: the exact rule of the instance counter of the safety system, for all histories (model: `Safety/Instances.lean`).
-/
namespace Verif.Safety.Inst

theorem exec_append (a b : List Op) (s : St) : exec s (a ++ b) = ((exec (exec s a).1 b).1, (exec s a).2 + (exec (exec s a).1 b).2) := by
  induction a generalizing s with
  | nil => simp [exec]
  | cons o a ih => simp only [List.cons_append, exec, ih, Prod.mk.injEq, true_and]; omega

/-- **C267** After any history a construction succeeds exactly if the properties are valid and the number of living objects plus the number of all
constructions which failed before is a multiple of 256, or one less. -/
theorem construct_exact (ops : List Op) (valid : Bool) :
    (step (exec init ops).1 (.construct valid)).2 = .ok ↔
      valid = true ∧ (((exec init ops).1.live + (exec init ops).2) % 256 = 0 ∨ ((exec init ops).1.live + (exec init ops).2) % 256 = 255) := by
  have h := count_eq ops init 0 rfl
  generalize exec init ops = r at h ⊢
  obtain ⟨s, f⟩ := r
  simp only [Nat.zero_add] at h ⊢
  have hb := s.instCount.toNat_lt
  rw [← h]
  have hc : (s.instCount + 1 > 1) ↔ ¬ (s.instCount.toNat = 0 ∨ s.instCount.toNat = 255) := by
    rw [gt_iff_lt, UInt8.lt_iff_toNat_lt, UInt8.toNat_add]
    simp only [UInt8.toNat_one]
    omega
  simp only [step]
  by_cases hg : s.instCount + 1 > 1
  · rw [if_pos hg]
    have := hc.1 hg
    simp [this]
  · rw [if_neg hg]
    have := not_not.1 (hc.not.1 hg)
    cases valid <;> simp [this]

example : (exec init [.construct true, .destroy, .construct true, .destroy]).1.live = 0 ∧
    (exec init [.construct true, .destroy, .construct true, .destroy]).2 = 0 ∧
    (step (exec init [.construct true, .destroy, .construct true, .destroy]).1 (.construct true)).2 = .ok := by decide
example : (exec init [.construct false]).2 = 1 ∧ (step (exec init [.construct false]).1 (.construct true)).2 = .fault := by decide

/-- **C05 violated**, for every history: if between 1 and 254 constructions failed so far and no safety system exists, none can be constructed. -/
theorem failed_attempts_block_violated (ops : List Op) (valid : Bool) (h0 : (exec init ops).1.live = 0)
    (h1 : 1 ≤ (exec init ops).2) (h2 : (exec init ops).2 ≤ 254) : (step (exec init ops).1 (.construct valid)).2 = .fault := by
  have h := (construct_exact ops valid).not.2 (by rw [h0]; omega)
  simp only [step] at h ⊢
  (repeat' split) <;> simp_all

example : (exec init [.construct true, .construct true, .destroy]).1.live = 0 ∧ (exec init [.construct true, .construct true, .destroy]).2 = 1 := by decide

theorem invalid_fails (s : St) : step s (.construct false) = ({ s with instCount := s.instCount + 1 }, .fault) := by
  simp only [step]; split <;> simp

theorem invalid_many (k : Nat) (s : St) : (exec s (List.replicate k (.construct false))).1.live = s.live ∧
    (exec s (List.replicate k (.construct false))).1.instCount.toNat = (s.instCount.toNat + k) % 256 := by
  induction k generalizing s with
  | zero => simp [exec, Nat.mod_eq_of_lt s.instCount.toNat_lt]
  | succ k ih =>
    simp only [List.replicate_succ, exec, invalid_fails]
    obtain ⟨h1, h2⟩ := ih { s with instCount := s.instCount + 1 }
    refine ⟨h1, ?_⟩
    rw [h2]
    simp only [UInt8.toNat_add, UInt8.toNat_one]
    omega

/-- **C05 violated**, for every history: whatever number of safety systems exists, at most 255 failed attempts later one more can be constructed. -/
theorem one_more_violated (ops : List Op) : ∃ k ≤ 255,
    (exec init (ops ++ (List.replicate k (.construct false) ++ [.construct true]))).1.live = (exec init ops).1.live + 1 := by
  generalize hs : (exec init ops).1 = s
  have hb := s.instCount.toNat_lt
  refine ⟨255 - s.instCount.toNat, by omega, ?_⟩
  rw [exec_append, exec_append, hs]
  obtain ⟨h1, h2⟩ := invalid_many (255 - s.instCount.toNat) s
  generalize (exec s (List.replicate (255 - s.instCount.toNat) (.construct false))).1 = t at h1 h2 ⊢
  have hc : t.instCount + 1 = 0 := by
    apply UInt8.toNat_inj.1
    rw [UInt8.toNat_add, h2]
    simp only [UInt8.toNat_one, UInt8.toNat_zero]
    omega
  simp [exec, step, hc, h1]

example : ∃ k ≤ 255, (exec init ([.construct true] ++ (List.replicate k (.construct false) ++ [.construct true]))).1.live = 2 :=
  one_more_violated [.construct true]

end Verif.Safety.Inst
