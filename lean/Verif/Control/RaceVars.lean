import Verif.Control.BlockRaces
/-!
Data races variable by variable: which member variables of a class take part in a race.  `Verif/Common/Race.lean` says whether there is
a race at all; here the rule of the locks is made exact for every single variable.
-/
namespace Verif.Control.RaceVars
open Verif.Common.Race Verif.Control.BlockRaces

section
variable {V X T : Type}

/-- Two accesses of the variable `v`, one of them a write. -/
def ConflictOn (v : V) (a b : Instr V X) : Prop :=
  (a = .rd v ∨ a = .wr v) ∧ (b = .rd v ∨ b = .wr v) ∧ (a = .wr v ∨ b = .wr v)

/-- Two threads are about to use the variable `v` at the same time, one of them to write it. -/
def RaceOn (s : St V X T) (v : V) : Prop :=
  ∃ t u, t ≠ u ∧ ∃ a b r q, s.rest t = a :: r ∧ s.rest u = b :: q ∧ ConflictOn v a b

/-- A race is a race on a variable. -/
theorem raceIn_iff (s : St V X T) : RaceIn s ↔ ∃ v, RaceOn s v := by
  constructor
  · rintro ⟨t, u, h, a, b, r, q, h1, h2, hc⟩
    obtain ⟨v, hv⟩ := (conflict_iff a b).1 hc
    exact ⟨v, t, u, h, a, b, r, q, h1, h2, hv⟩
  · rintro ⟨v, t, u, h, a, b, r, q, h1, h2, hc⟩
    exact ⟨t, u, h, a, b, r, q, h1, h2, (conflict_iff a b).2 ⟨v, hc⟩⟩

variable [DecidableEq X] [DecidableEq T]

/-- No reachable state has a race on the variable `v`. -/
def FreeOn (can : T → List (Instr V X) → Prop) (v : V) : Prop := ∀ s, Reach can s → ¬ RaceOn s v

/-- No race at all is no race on any variable. -/
theorem raceFree_iff (can : T → List (Instr V X) → Prop) : RaceFree can ↔ ∀ v, FreeOn can v := by
  constructor
  · intro h v s hs hv
    exact h s hs ((raceIn_iff s).2 ⟨v, hv⟩)
  · intro h s hs hr
    obtain ⟨v, hv⟩ := (raceIn_iff s).1 hr
    exact h v s hs hv

/-- Every two conflicting accesses of `v` have a mutex in common. -/
def GuardedOn (v : V) (p q : List (Instr V X)) : Prop :=
  ∀ a ∈ annotate [] p, ∀ b ∈ annotate [] q, ConflictOn v a.1 b.1 → ∃ m ∈ a.2, m ∈ b.2

instance [DecidableEq V] (v : V) (p q : List (Instr V X)) : Decidable (GuardedOn v p q) := by
  unfold GuardedOn ConflictOn; infer_instance

theorem guarded_free (can : T → List (Instr V X) → Prop) (hb : ∀ t p, can t p → Balanced [] p) (v : V)
    (hg : ∀ t u p q, t ≠ u → can t p → can u q → GuardedOn v p q) : FreeOn can v := by
  intro s hs ⟨t, u, htu, a, b, r, q, h1, h2, hc⟩
  have hi := inv_reach can hb s hs
  obtain ⟨d, hd, ho⟩ := hi.pos t
  obtain ⟨e, he, hp⟩ := hi.pos u
  rw [h1] at hd
  rw [h2] at he
  rcases hd with hd | hd
  · simp at hd
  rcases he with he | he
  · simp at he
  obtain ⟨m, hm1, hm2⟩ := hg t u _ _ htu hd he _ (mem_annotate [] d a r) _ (mem_annotate [] e b q) hc
  have e1 := (ho m).2 hm1
  rw [(hp m).2 hm2] at e1
  simp only [Option.some.injEq] at e1
  exact htu e1.symm

theorem unlocked_on (can : T → List (Instr V X) → Prop) (t u : T) (htu : t ≠ u) (p q : List (Instr V X))
    (hp : can t p) (hq : can u q) (bp : Balanced [] p) (bq : Balanced [] q) (v : V) (a b : Instr V X) (l : List X)
    (ha : (a, ([] : List X)) ∈ annotate [] p) (hb : (b, l) ∈ annotate [] q) (hc : ConflictOn v a b) :
    ¬ FreeOn can v := by
  intro hfree
  obtain ⟨d, r, h1, h2⟩ := annotate_split [] p a [] ha
  obtain ⟨e, o, h3, _⟩ := annotate_split [] q b l hb
  have r1 : Reach can (⟨fun _ => none, fun v => if v = t then p else []⟩ : St V X T) :=
    Reach.init.step (.call init t p rfl hp)
  obtain ⟨s, k1, k2, k3, k4⟩ := drive can t d (a :: r) [] _ r1 (by simp [h1]) (by rw [← h1]; exact bp) (by simp)
    (fun m => by simp)
  rw [← h2] at k4
  have ku : s.rest u = [] := by rw [k3 u (Ne.symm htu)]; simp [Ne.symm htu]
  have r2 := k1.step (.call s u q ku hq)
  obtain ⟨s', j1, j2, j3, _⟩ := drive can u e (b :: o) [] _ r2 (by simp [h3]) (by rw [← h3]; exact bq) (by simp)
    (fun m => by simp [k4])
  refine hfree s' j1 ⟨t, u, htu, a, b, r, o, ?_, j2, hc⟩
  rw [j3 t htu]
  simp [htu, k2]

end

section
variable {V T : Type} [DecidableEq T]

/-- **With one mutex the rule is exact for every variable**: there is no race on `v` if and only if of every two conflicting accesses of
`v` by methods which two different threads may call both hold the mutex. -/
theorem free_on_iff (can : T → List (Instr V Unit) → Prop) (hb : ∀ t p, can t p → Balanced [] p) (v : V) :
    FreeOn can v ↔ ∀ t u p q, t ≠ u → can t p → can u q → GuardedOn v p q := by
  constructor
  · intro hf t u p q htu hp hq
    by_contra hg
    simp only [GuardedOn, not_forall] at hg
    obtain ⟨⟨a, la⟩, ha, ⟨b, lb⟩, hb', hc, hn⟩ := hg
    obtain ⟨d, r, h1, h2⟩ := annotate_split [] p a la ha
    obtain ⟨e, o, h3, h4⟩ := annotate_split [] q b lb hb'
    have ka := held_unit [] (Or.inl rfl) d (a :: r) (by rw [← h1]; exact hb t p hp)
    have kb := held_unit [] (Or.inl rfl) e (b :: o) (by rw [← h3]; exact hb u q hq)
    rw [← h2] at ka
    rw [← h4] at kb
    rcases ka with ka | ka
    · rw [ka] at ha
      exact unlocked_on can t u htu p q hp hq (hb t p hp) (hb u q hq) v a b lb ha hb' hc hf
    rcases kb with kb | kb
    · rw [kb] at hb'
      exact unlocked_on can u t (Ne.symm htu) q p hq hp (hb u q hq) (hb t p hp) v b a la hb' ha ⟨hc.2.1, hc.1, hc.2.2.symm⟩ hf
    · exact hn ⟨(), by simp [ka], by simp [kb]⟩
  · exact guarded_free can hb v

end

/-- All conflicting accesses of `v` by two methods hold the mutex. -/
def OkOn {V M : Type} (c : Cls V M) (v : V) (a b : M) : Prop := ∀ p ∈ c.code a, ∀ q ∈ c.code b, GuardedOn v p q

instance {V M : Type} [DecidableEq V] (c : Cls V M) (v : V) (a b : M) : Decidable (OkOn c v a b) := by
  unfold OkOn; infer_instance

/-- Two threads with one method each: whether they race on `v` is decided by the table of the two methods. -/
theorem two_on_iff {V M : Type} (c : Cls V M) (hb : c.Bal) (a b : M) (v : V) : FreeOn (c.two a b) v ↔ OkOn c v a b := by
  rw [free_on_iff]
  · constructor
    · intro h p hp q hq
      exact h 0 1 p q (by decide) (Or.inl ⟨rfl, hp⟩) (Or.inr ⟨rfl, hq⟩)
    · rintro h t u p q htu (⟨rfl, hp⟩ | ⟨rfl, hp⟩) (⟨rfl, hq⟩ | ⟨rfl, hq⟩)
      · exact absurd rfl htu
      · exact h p hp q hq
      · intro x hx y hy hc
        obtain ⟨m, h1, h2⟩ := h q hq p hp y hy x hx ⟨hc.2.1, hc.1, hc.2.2.symm⟩
        exact ⟨m, h2, h1⟩
      · exact absurd rfl htu
  · rintro t p (⟨_, hp⟩ | ⟨_, hp⟩)
    · exact hb a p hp
    · exact hb b p hp

/-! ### Examples -/

/-- A writer of two variables of which only the first is protected, and a reader of both. -/
example : (∀ v : Bool, FreeOn (T := Nat) (fun t p => (t = 0 ∧ p = [.lock (), .wr false, .unlock (), .wr true]) ∨
    (t = 1 ∧ p = [.lock (), .rd false, .rd true, .unlock ()])) v ↔ v = false) := by
  intro v
  rw [free_on_iff]
  · constructor
    · intro h
      have := h 0 1 _ _ (by decide) (Or.inl ⟨rfl, rfl⟩) (Or.inr ⟨rfl, rfl⟩)
      revert this; cases v <;> decide
    · rintro rfl t u p q h (⟨h1, rfl⟩ | ⟨h1, rfl⟩) (⟨h2, rfl⟩ | ⟨h2, rfl⟩) <;> first | exact absurd (h1.trans h2.symm) h | decide
  · rintro t p (⟨_, rfl⟩ | ⟨_, rfl⟩) <;> decide

end Verif.Control.RaceVars
