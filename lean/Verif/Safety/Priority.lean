/-
C02: which level is entered in general, with transitions of a level to itself (`/repo/src/safety/SafetySystem.cpp` 49-71).
-/
import Verif.Safety.Props
import Mathlib.Data.List.Induction

namespace Verif.Safety
variable {V : Type}

/-- The rule which the code follows.  A request for a level below the current one is never lost: the lowest of all requests is entered.
Without such a request, a request for the current level discards all requests before it: the lowest of the requests behind the last one is entered
(the current level if there is none). -/
def priorityRule (p : Properties V) : LevelRule := fun c pend m =>
  ((∃ t ∈ pend, ∃ d, Registered p c t d ∧ (p.lvl d).id < (p.lvl c).id) →
    (∃ t ∈ pend, Registered p c t m) ∧ ∀ t ∈ pend, ∀ d, Registered p c t d → (p.lvl m).id ≤ (p.lvl d).id) ∧
  ((∀ t ∈ pend, ∀ d, Registered p c t d → (p.lvl c).id ≤ (p.lvl d).id) →
    ∀ a b, pend = a ++ b → (a = [] ∨ ∃ a' t, a = a' ++ [t] ∧ Registered p c t c) → (∀ t ∈ b, ¬ Registered p c t c) →
      ((∀ t ∈ b, ∀ d, ¬ Registered p c t d) ∧ m = c) ∨
      ((∃ t ∈ b, Registered p c t m) ∧ ∀ t ∈ b, ∀ d, Registered p c t d → (p.lvl m).id ≤ (p.lvl d).id))

/-- Only the current level itself has its id among the destinations (`addLevel` counts the ids). -/
def DistinctIds (p : Properties V) : Prop := ∀ c t d, Registered p c t d → (p.lvl d).id = (p.lvl c).id → d = c

theorem pick_none {p : Properties V} {c n : LevelRef} {t : Trig} (h : ∀ d, ¬ Registered p c t d) : pick p c n t = n := by
  unfold pick
  cases hd : (p.lvl c).dest t.event t.priv with
  | none => rfl
  | some d => exact absurd (dest_eq_some.1 hd) (h d)

theorem pick_some {p : Properties V} {c n d : LevelRef} {t : Trig} (h : Registered p c t d) :
    pick p c n t = if n = c then d else if (p.lvl d).id < (p.lvl n).id then d else n := by
  unfold pick
  rw [dest_eq_some.2 h]

theorem registered_unique {p : Properties V} {c d d' : LevelRef} {t : Trig} (h : Registered p c t d) (h' : Registered p c t d') : d' = d := by
  have h1 := dest_eq_some.2 h
  have h2 := dest_eq_some.2 h'
  rw [h1] at h2
  exact (Option.some.inj h2).symm

/-- Pending level after the requests `pend`: not below the current one as long as no request was; the lowest one afterwards. -/
theorem pick_cases (p : Properties V) (hid : DistinctIds p) (c : LevelRef) (pend : List Trig) :
    ((∀ t ∈ pend, ∀ d, Registered p c t d → (p.lvl c).id ≤ (p.lvl d).id) ∧
      (pend.foldl (pick p c) c = c ∨ (p.lvl c).id < (p.lvl (pend.foldl (pick p c) c)).id)) ∨
    ((∃ t ∈ pend, Registered p c t (pend.foldl (pick p c) c)) ∧ (p.lvl (pend.foldl (pick p c) c)).id < (p.lvl c).id ∧
      ∀ t ∈ pend, ∀ d, Registered p c t d → (p.lvl (pend.foldl (pick p c) c)).id ≤ (p.lvl d).id) := by
  induction pend using List.reverseRecOn with
  | nil => left; simp
  | append_singleton ts t ih =>
    rw [List.foldl_append, List.foldl_cons, List.foldl_nil]
    generalize ts.foldl (pick p c) c = n at ih
    by_cases hd : ∃ d, Registered p c t d
    · obtain ⟨d, hd⟩ := hd
      rw [pick_some hd]
      have hu : ∀ d', Registered p c t d' → d' = d := fun d' h => registered_unique hd h
      rcases ih with ⟨h1, h2⟩ | ⟨⟨t1, ht1, hr1⟩, h2, h3⟩
      · by_cases hlt : (p.lvl d).id < (p.lvl c).id
        · right
          have hr : (if n = c then d else if (p.lvl d).id < (p.lvl n).id then d else n) = d := by
            rcases h2 with rfl | h2
            · rw [if_pos rfl]
            · rw [if_pos (show (p.lvl d).id < (p.lvl n).id by omega)]
              split <;> rfl
          rw [hr]
          refine ⟨⟨t, by simp, hd⟩, hlt, ?_⟩
          intro t' ht' d' hd'
          rcases List.mem_append.1 ht' with h | h
          · have := h1 t' h d' hd'; omega
          · simp at h; subst h; rw [hu _ hd']
        · left
          refine ⟨?_, ?_⟩
          · intro t' ht' d' hd'
            rcases List.mem_append.1 ht' with h | h
            · exact h1 t' h d' hd'
            · simp at h; subst h; rw [hu _ hd']; omega
          · have hdc : d = c ∨ (p.lvl c).id < (p.lvl d).id := by
              by_cases he : (p.lvl d).id = (p.lvl c).id
              · exact Or.inl (hid c t d hd he)
              · exact Or.inr (by omega)
            split
            · exact hdc
            · split
              · exact hdc
              · exact h2
      · right
        have hnc : n ≠ c := by rintro rfl; omega
        rw [if_neg hnc]
        split
        · refine ⟨⟨t, by simp, hd⟩, by omega, ?_⟩
          intro t' ht' d' hd'
          rcases List.mem_append.1 ht' with h | h
          · have := h3 t' h d' hd'; omega
          · simp at h; subst h; rw [hu _ hd']
        · refine ⟨⟨t1, by simp [ht1], hr1⟩, h2, ?_⟩
          intro t' ht' d' hd'
          rcases List.mem_append.1 ht' with h | h
          · exact h3 t' h d' hd'
          · simp at h; subst h; rw [hu _ hd']; omega
    · have hno : ∀ d, ¬ Registered p c t d := fun d h => hd ⟨d, h⟩
      rw [pick_none hno]
      rcases ih with ⟨h1, h2⟩ | ⟨⟨t1, ht1, hr1⟩, h2, h3⟩
      · left
        refine ⟨?_, h2⟩
        intro t' ht' d' hd'
        rcases List.mem_append.1 ht' with h | h
        · exact h1 t' h d' hd'
        · simp at h; subst h; exact absurd hd' (hno d')
      · right
        refine ⟨⟨t1, by simp [ht1], hr1⟩, h2, ?_⟩
        intro t' ht' d' hd'
        rcases List.mem_append.1 ht' with h | h
        · exact h3 t' h d' hd'
        · simp at h; subst h; exact absurd hd' (hno d')

theorem exact_priority (p : Properties V) (hid : DistinctIds p) (c pend m) (h : exactRule p c pend m) : priorityRule p c pend m := by
  unfold exactRule at h
  subst h
  refine ⟨?_, ?_⟩
  · rintro ⟨t, ht, d, hd, hlt⟩
    rcases pick_cases p hid c pend with ⟨h1, _⟩ | ⟨h1, _, h3⟩
    · have := h1 t ht d hd; omega
    · exact ⟨h1, h3⟩
  · rintro hno a b rfl ha hb
    have hc : a.foldl (pick p c) c = c := by
      rcases ha with rfl | ⟨a', t, rfl, ht⟩
      · rfl
      · rw [List.foldl_append, List.foldl_cons, List.foldl_nil]
        have h' := pick_cases p hid c a'
        generalize a'.foldl (pick p c) c = n at h'
        rw [pick_some ht]
        rcases h' with ⟨_, h2⟩ | ⟨⟨t1, ht1, hr1⟩, h2, _⟩
        · rcases h2 with rfl | h2
          · rw [if_pos rfl]
          · split
            · rfl
            · rfl
        · have := hno t1 (by simp [ht1]) n hr1
          omega
    rw [List.foldl_append, hc]
    exact foldl_pick_lowest p c b hb

/-- **C02, the exact rule.** In every history, at every assignment of the current level, the level which is entered is the one of `priorityRule`: a request for a lower level always wins;
without one, a request for the current level discards the requests before it.  For levels with different ids. -/
theorem priority_exact [CppVal V] (p : Properties V) (hid : DistinctIds p) (acts : LevelRef → Nat) (s0 : Sys)
    (h : construct p acts = .ok s0) (ops : List (Op V)) :
    ∃ s tr e, exec p s0 ops = .ok (s, tr) ∧ p.entryLevel = some e ∧
      s.cur = some (after e [] tr).1 ∧ Legal (priorityRule p) e [] tr := by
  obtain ⟨e, he, -, hi⟩ := construct_inv h
  obtain ⟨s, tr, hx, hl, hi'⟩ := exec_sat ops hi
  exact ⟨s, tr, e, hx, he, hi'.1, legal_mono (exact_priority p hid) _ _ _ hl⟩

/-- A system with a transition of level 2 to itself (event 2), one to level 1 (event 1) and one to level 5 (event 3). -/
def selfDemo : Properties Bool :=
  { lvl := fun r => { id := (r : Int), transitions := if r = 2 then [(1, (1, .pub)), (2, (2, .pub)), (3, (5, .pub))] else [] }
    levels := [1, 2, 5], entryLevel := some 2, count := 6 }

theorem selfDemo_ids : DistinctIds selfDemo := by
  intro c t d _ h
  have h' : (d : Int) = (c : Int) := h
  exact_mod_cast h'

/-- Cases: the request for level 1 wins whatever else is requested; without it the last request for level 2 counts. -/
example : ∃ s0 s1 s2 tr1 tr2, construct selfDemo (fun _ => 0) = .ok s0 ∧
    exec selfDemo s0 [.trigger 3, .trigger 1, .trigger 2, .trigger 3] = .ok (s1, tr1) ∧ s1.next = some 1 ∧
    exec selfDemo s0 [.trigger 3, .trigger 2] = .ok (s2, tr2) ∧ s2.next = some 2 :=
  ⟨_, _, _, _, _, rfl, rfl, rfl, rfl, rfl⟩

end Verif.Safety
