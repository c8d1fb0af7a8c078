import Verif.Safety.Props
/-!
C07, C271: the interleaving of `triggerEvent` with `run` under which the level discipline holds, and the one under which it fails, for all safety
properties (model: `Safety/Concurrent.lean`, `src/safety/SafetySystem.cpp:49-71`, `81-123`).
-/
namespace Verif.Safety.Conc
variable {V : Type}

/-- Specification: `run` assigns the current level only while no thread is between looking up its destination (51) and updating the next level (55). -/
def Calm (p : Properties V) : St → List Op → Prop
  | _, [] => True
  | s, op :: ops => (op = .take → ∀ th, s.pending th = none) ∧ Calm p (step p s op) ops

/-- Specification: every assignment of the current level keeps it or follows a transition registered in the level which is left. -/
def Disciplined (p : Properties V) : St → List Op → Prop
  | _, [] => True
  | s, op :: ops => ((step p s op).cur = s.cur ∨ ∃ t, Registered p s.cur t (step p s op).cur) ∧ Disciplined p (step p s op) ops

/-- What is known between two assignments of the current level. -/
def Fresh (p : Properties V) (s : St) : Prop :=
  (∀ th n, s.pending th = some n → ∃ t, Registered p s.cur t n) ∧ (s.next = s.cur ∨ ∃ t, Registered p s.cur t s.next)

theorem fresh_step {p : Properties V} {s : St} (h : Fresh p s) (op : Op) (hc : op = .take → ∀ th, s.pending th = none) :
    Fresh p (step p s op) ∧ ((step p s op).cur = s.cur ∨ ∃ t, Registered p s.cur t (step p s op).cur) := by
  obtain ⟨h1, h2⟩ := h
  cases op with
  | lookup th t =>
    simp only [step]
    split
    · exact ⟨⟨h1, h2⟩, .inl rfl⟩
    · refine ⟨⟨?_, h2⟩, .inl rfl⟩
      intro th' n hn
      by_cases ht : th' = th
      · simp only [ht, if_true] at hn
        exact ⟨t, dest_eq_some.1 hn⟩
      · simp only [ht, if_false] at hn
        exact h1 th' n hn
  | locked th =>
    simp only [step]
    split
    · exact ⟨⟨h1, h2⟩, .inl rfl⟩
    · rename_i n hn
      have hp : ∀ th' m, (if th' = th then none else s.pending th') = some m → ∃ t, Registered p s.cur t m := by
        intro th' m hm
        by_cases ht : th' = th
        · simp [ht] at hm
        · simp only [ht, if_false] at hm
          exact h1 th' m hm
      split
      · exact ⟨⟨hp, .inr (h1 th n hn)⟩, .inl rfl⟩
      · split
        · exact ⟨⟨hp, .inr (h1 th n hn)⟩, .inl rfl⟩
        · exact ⟨⟨hp, h2⟩, .inl rfl⟩
  | take =>
    have hn := hc rfl
    refine ⟨⟨?_, .inl rfl⟩, h2⟩
    intro th n hp
    have : s.pending th = some n := hp
    rw [hn th] at this
    simp at this

theorem fresh_exec {p : Properties V} (ops : List Op) {s : St} (h : Fresh p s) (hc : Calm p s ops) : Disciplined p s ops := by
  induction ops generalizing s with
  | nil => trivial
  | cons op ops ih =>
    obtain ⟨ha, hb⟩ := fresh_step h op hc.1
    exact ⟨hb, ih ha hc.2⟩

/-- **C271** For all safety properties, any number of threads and any interleaving in which no thread is inside `triggerEvent`, between reading the current level and
its locked section, while `run` assigns the current level: every change of the level follows a transition registered in the level which is left. -/
theorem calm_disciplined (p : Properties V) (e : LevelRef) (ops : List Op) (h : Calm p (init e) ops) : Disciplined p (init e) ops :=
  fresh_exec ops ⟨by simp [init], .inl rfl⟩ h

example : Calm demo' (init 2) [.lookup 0 ⟨7, false⟩, .lookup 1 ⟨8, true⟩, .locked 1, .locked 0, .take] ∧
    (exec demo' (init 2) [.lookup 0 ⟨7, false⟩, .lookup 1 ⟨8, true⟩, .locked 1, .locked 0, .take]).cur = 0 := by
  refine ⟨⟨by simp, by simp, by simp, by simp, ?_, trivial⟩, rfl⟩
  intro _ th
  by_cases h0 : th = 0
  · subst h0; rfl
  · by_cases h1 : th = 1
    · subst h1; rfl
    · simp [step, init, demo', demo, Level.dest, findTrans, h0, h1]

/-- **C07 violated**, for all safety properties and every two transitions which leave a level `a`, to `b` and to `c`: an interleaving of two `triggerEvent` calls with two
assignments of the current level goes from `a` to `b` and on to `c`, whether `b` has a transition to `c` or not. -/
theorem stale_transition_violated (p : Properties V) (a b c : LevelRef) (t u : Trig) (hb : Registered p a t b) (hc : Registered p a u c) :
    (exec p (init a) [.lookup 0 u, .lookup 1 t, .locked 1, .take]).cur = b ∧
      (exec p (init a) [.lookup 0 u, .lookup 1 t, .locked 1, .take, .locked 0, .take]).cur = c := by
  have h1 := dest_eq_some.2 hb
  have h2 := dest_eq_some.2 hc
  constructor <;> simp [exec, step, init, h1, h2]

example : (exec demo' (init 2) [.lookup 0 ⟨7, false⟩, .lookup 1 ⟨8, true⟩, .locked 1, .take]).cur = 0 ∧
    (exec demo' (init 2) [.lookup 0 ⟨7, false⟩, .lookup 1 ⟨8, true⟩, .locked 1, .take, .locked 0, .take]).cur = 1 :=
  stale_transition_violated demo' 2 0 1 ⟨8, true⟩ ⟨7, false⟩ ⟨.priv, rfl, .inr rfl⟩ ⟨.pub, rfl, .inl rfl⟩

/-- So the discipline fails for these safety properties as soon as `b` has no transition to `c`. -/
theorem stale_undisciplined_violated (p : Properties V) (a b c : LevelRef) (t u : Trig) (hb : Registered p a t b) (hc : Registered p a u c) (hne : b ≠ c)
    (hno : ∀ v, ¬ Registered p b v c) : ¬ Disciplined p (init a) [.lookup 0 u, .lookup 1 t, .locked 1, .take, .locked 0, .take] := by
  have h1 := dest_eq_some.2 hb
  have h2 := dest_eq_some.2 hc
  simp [Disciplined, step, init, h1, h2, hno, Ne.symm hne]

example : ¬ Disciplined demo' (init 2) [.lookup 0 ⟨7, false⟩, .lookup 1 ⟨8, true⟩, .locked 1, .take, .locked 0, .take] :=
  stale_undisciplined_violated demo' 2 0 1 ⟨8, true⟩ ⟨7, false⟩ ⟨.priv, rfl, .inr rfl⟩ ⟨.pub, rfl, .inl rfl⟩ (by decide) (by
    rintro v ⟨ty, hf, -⟩
    simp [demo', demo, findTrans] at hf)

end Verif.Safety.Conc
