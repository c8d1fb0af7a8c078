/-
C124: publishing the safety level.
-/
import Verif.Control.SafetyLevelPub
import Mathlib.Data.List.Induction

namespace Verif.Control.SafetyLevelPub

/-! ### Specification -/

/-- The level of system `k` after one operation. -/
def changed (k : Nat) (l : Level) : Op → Level
  | .change j m => if j = k then m else l
  | _ => l

/-- The current level of system `k` after the operations (the last change), `l0` at the beginning. -/
def current (k : Nat) (l0 : Level) (os : List Op) : Level :=
  os.foldl (changed k) l0

/-- What a subscriber should get: for each run, the level at this time. -/
def expected (ros2 : Bool) (k : Nat) (l0 : Level) (os : List Op) : List Msg :=
  (List.range os.length).filterMap fun i =>
    if os[i]? = some .run then some (if ros2 then .text (current k l0 (os.take i)).desc else .id (current k l0 (os.take i)).id) else none

theorem expected_append (ros2 : Bool) (k : Nat) (l0 : Level) (os : List Op) (o : Op) :
    expected ros2 k l0 (os ++ [o]) = expected ros2 k l0 os ++ if o = .run then [if ros2 then .text (current k l0 os).desc else .id (current k l0 os).id] else [] := by
  unfold expected
  rw [List.length_append, List.length_singleton, List.range_succ, List.filterMap_append]
  congr 1
  · apply List.filterMap_congr
    intro i hi
    rw [List.mem_range] at hi
    rw [List.getElem?_append_left hi, List.take_append_of_le_length (by omega)]
  · have h1 : (os ++ [o])[os.length]? = some o := by simp
    have h2 : (os ++ [o]).take os.length = os := by simp
    simp only [List.filterMap_cons, List.filterMap_nil, h1, h2]
    by_cases h : o = .run
    · simp [h]
    · simp [h]

/-- **C124 (partial)** After `setSafetySystem`: every run publishes the level which the safety system has at this time, and nothing else is ever published.
Missing: runs before, see `unset_violated`. -/
theorem published_partial (ros2 : Bool) (level : Nat → Level) (k : Nat) (os : List Op) (h : ∀ j, .setSafetySystem j ∉ os) :
    let s := run (construct ros2 true level) (.setSafetySystem k :: os)
    s.undefined = false ∧ s.published = expected ros2 k (level k) os := by
  have key : let s := run (construct ros2 true level) (.setSafetySystem k :: os)
      s.undefined = false ∧ s.running = true ∧ s.ptr = .system k ∧ s.ros2 = ros2 ∧ s.level k = current k (level k) os ∧ s.published = expected ros2 k (level k) os := by
    induction os using List.reverseRecOn with
    | nil => exact ⟨rfl, rfl, rfl, rfl, rfl, rfl⟩
    | append_singleton os o ih =>
      obtain ⟨h1, h2, h3, h4, h5, h6⟩ := ih fun j hm => h j (List.mem_append_left _ hm)
      have ho : ∀ j, o ≠ .setSafetySystem j := fun j e => h j (List.mem_append_right _ (by rw [e]; exact List.mem_cons_self ..))
      have hw : run (construct ros2 true level) (.setSafetySystem k :: (os ++ [o])) = step (run (construct ros2 true level) (.setSafetySystem k :: os)) o := by
        rw [← List.cons_append, run, List.foldl_append]
        rfl
      have hc : current k (level k) (os ++ [o]) = changed k (current k (level k) os) o := by
        unfold current
        rw [List.foldl_append]
        rfl
      intro s
      have hs : s = step (run (construct ros2 true level) (.setSafetySystem k :: os)) o := hw
      rw [expected_append, hc, hs]
      revert h1 h2 h3 h4 h5 h6
      generalize run (construct ros2 true level) (.setSafetySystem k :: os) = t
      intro h1 h2 h3 h4 h5 h6
      cases o with
      | setSafetySystem j => exact absurd rfl (ho j)
      | change j m =>
        refine ⟨h1, h2, h3, h4, ?_, by rw [if_neg (by simp), List.append_nil]; exact h6⟩
        show (if k = j then m else t.level k) = if j = k then m else current k (level k) os
        rw [h5]
        by_cases hjk : j = k
        · rw [if_pos hjk, if_pos hjk.symm]
        · rw [if_neg hjk, if_neg fun e => hjk e.symm]
      | run =>
        unfold step
        simp only [h2, h3, if_true]
        exact ⟨h1, trivial, trivial, h4, h5, by rw [h4, h5, h6]⟩
  exact ⟨key.1, key.2.2.2.2.2⟩

/-- The level changes between two runs. -/
example : (run (construct false true fun _ => ⟨3, "operational"⟩) [.setSafetySystem 0, .run, .change 0 ⟨1, "emergency"⟩, .run]).published = [.id 3, .id 1] :=
  (published_partial false (fun _ => ⟨3, "operational"⟩) 0 [.run, .change 0 ⟨1, "emergency"⟩, .run] (by simp)).2

/-- **C124** Without ROS nothing is published and nothing is undefined. -/
theorem silent (ros2 : Bool) (level : Nat → Level) (os : List Op) :
    (run (construct ros2 false level) os).published = [] ∧ (run (construct ros2 false level) os).undefined = false := by
  have key : ∀ os (s : St), s.running = false → (run s os).published = s.published ∧ (run s os).undefined = s.undefined := by
    intro os
    induction os with
    | nil => intro s _; exact ⟨rfl, rfl⟩
    | cons o os ih =>
      intro s hs
      have h1 : (step s o).running = false ∧ (step s o).published = s.published ∧ (step s o).undefined = s.undefined := by
        cases o <;> simp [step, hs]
      obtain ⟨a, b⟩ := ih (step s o) h1.1
      exact ⟨a.trans h1.2.1, b.trans h1.2.2⟩
  exact key os _ rfl

example : (run (construct true false fun _ => ⟨3, "operational"⟩) [.run, .setSafetySystem 0, .run]).published = [] := (silent _ _ _).1

/-- **C124 violated**: a run before `setSafetySystem` (and whatever happened, or happens later): the check against the null pointer does not help, because the pointer was never initialised. -/
theorem unset_violated (ros2 : Bool) (level : Nat → Level) (a b : List Op) (h : ∀ j, .setSafetySystem j ∉ a) : (run (construct ros2 true level) (a ++ .run :: b)).undefined = true := by
  have h1 : ∀ a (s : St), s.ptr = .indeterminate → s.running = true → (∀ j, Op.setSafetySystem j ∉ a) → (run s a).ptr = .indeterminate ∧ (run s a).running = true := by
    intro a
    induction a with
    | nil => intro s h1 h2 _; exact ⟨h1, h2⟩
    | cons o a ih =>
      intro s h1 h2 h3
      have h4 : (step s o).ptr = .indeterminate ∧ (step s o).running = true := by
        cases o with
        | setSafetySystem j => exact absurd (List.mem_cons_self ..) (h3 j)
        | change j m => exact ⟨h1, h2⟩
        | run => simp [step, h1, h2]
      exact ih _ h4.1 h4.2 fun j hm => h3 j (List.mem_cons_of_mem _ hm)
  have h2 : ∀ b (s : St), s.undefined = true → (run s b).undefined = true := by
    intro b
    induction b with
    | nil => intro s h; exact h
    | cons o b ih =>
      intro s h
      refine ih _ ?_
      cases o with
      | setSafetySystem j => exact h
      | change j m => exact h
      | run =>
        unfold step
        simp only
        split
        · split
          · rfl
          · exact h
        · exact h
  rw [run, List.foldl_append, List.foldl_cons]
  refine h2 b _ ?_
  obtain ⟨h3, h4⟩ := h1 a (construct ros2 true level) rfl rfl h
  show (step (run (construct ros2 true level) a) .run).undefined = true
  unfold step
  simp only [h3, h4, if_true]

example : (run (construct true true fun _ => ⟨3, "operational"⟩) [.run, .setSafetySystem 0, .run]).undefined = true := unset_violated true _ [] [.setSafetySystem 0, .run] (by simp)

end Verif.Control.SafetyLevelPub
