/-!
C14: names and ids of sequences, src/sequencer/Sequence.cpp:15-26 and src/sequencer/Sequencer.cpp:21-49.
-/
namespace Verif.Sequencer.Registry

/-- A registered sequence: the object, its name and its id. -/
structure Entry where
  obj : Nat
  name : String
  id : Int
deriving DecidableEq

/-- `sequenceList` and `sequenceCount`. -/
structure Reg where
  list : List Entry
  count : Int
deriving DecidableEq

def Reg.new : Reg := { list := [], count := 0 }

/-- The constructor of the sequence object `obj`, Sequence.cpp:15-26 with Sequencer.cpp:21-24; `none`: it throws and nothing is registered. -/
def construct (r : Reg) (obj : Nat) (name : String) : Option Reg :=
  if name = "" then none
  else if r.list.any (fun e => decide (name = e.name)) then none
  else some { list := r.list ++ [{ obj := obj, name := name, id := r.count }], count := r.count + 1 }

/-- `clearList`, Sequencer.cpp:46-49. -/
def clear (_ : Reg) : Reg := { list := [], count := 0 }

/-- `getSequenceById`, 26-32. -/
def byId (r : Reg) (id : Int) : Option Entry := r.list.find? (fun e => decide (id = e.id))

/-- `getSequenceByName`, 34-40. -/
def byName (r : Reg) (name : String) : Option Entry := r.list.find? (fun e => decide (name = e.name))

inductive Op where
  | construct (obj : Nat) (name : String)
  | clear

def apply (r : Reg) : Op → Reg
  | .construct obj name => (construct r obj name).getD r
  | .clear => clear r

/-- All histories. -/
def Reachable (r : Reg) : Prop := ∃ ops : List Op, r = ops.foldl apply Reg.new

theorem nodup_append_one {α : Type} {l : List α} {a : α} (h : l.Nodup) (ha : a ∉ l) : (l ++ [a]).Nodup := by
  rw [List.nodup_append]
  refine ⟨h, by simp, ?_⟩
  intro x hx y hy
  simp only [List.mem_singleton] at hy
  subst hy
  rintro rfl
  exact ha hx

structure Inv (r : Reg) : Prop where
  count : r.count = r.list.length
  ids : ∀ n (h : n < r.list.length), (r.list[n]).id = n
  nonempty : ∀ e ∈ r.list, e.name ≠ ""
  names : (r.list.map Entry.name).Nodup

theorem inv_apply (r : Reg) (op : Op) (h : Inv r) : Inv (apply r op) := by
  cases op with
  | clear => exact ⟨by simp [apply, clear], by simp [apply, clear], by simp [apply, clear], by simp [apply, clear]⟩
  | construct obj name =>
    simp only [apply, construct]
    split
    · exact h
    · rename_i hne
      split
      · exact h
      · rename_i hany
        simp only [Option.getD_some]
        refine ⟨by simp [h.count], ?_, ?_, ?_⟩
        · intro n hn
          simp only [List.length_append, List.length_singleton] at hn
          by_cases hl : n < r.list.length
          · simp only [List.getElem_append_left hl]; exact h.ids n hl
          · have : n = r.list.length := by omega
            subst this
            simp [h.count]
        · intro e he
          rcases List.mem_append.1 he with he | he
          · exact h.nonempty e he
          · simp only [List.mem_singleton] at he; subst he; exact hne
        · simp only [List.map_append, List.map_cons, List.map_nil]
          refine nodup_append_one h.names ?_
          intro hm
          obtain ⟨e, he, hen⟩ := List.mem_map.1 hm
          apply hany
          rw [List.any_eq_true]
          exact ⟨e, he, by simp [hen]⟩

theorem reachable_inv (r : Reg) (h : Reachable r) : Inv r := by
  obtain ⟨ops, rfl⟩ := h
  have : ∀ (ops : List Op) (r : Reg), Inv r → Inv (ops.foldl apply r) := by
    intro ops
    induction ops with
    | nil => intro r h; exact h
    | cons o ops ih => intro r h; exact ih _ (inv_apply r o h)
  exact this ops _ ⟨rfl, by simp [Reg.new], by simp [Reg.new], by simp [Reg.new]⟩

/-- Names are not empty and pairwise different. -/
theorem names_unique (r : Reg) (h : Reachable r) : (r.list.map Entry.name).Nodup ∧ "" ∉ r.list.map Entry.name := by
  refine ⟨(reachable_inv r h).names, ?_⟩
  intro hm
  obtain ⟨e, he, hn⟩ := List.mem_map.1 hm
  exact (reachable_inv r h).nonempty e he hn

/-- Ids are pairwise different: they are the positions in the list. -/
theorem ids_unique (r : Reg) (h : Reachable r) : (r.list.map Entry.id).Nodup := by
  have hi := reachable_inv r h
  rw [List.Nodup, List.pairwise_iff_getElem]
  intro i j hil hj hij he
  simp only [List.length_map] at hil hj
  simp only [List.getElem_map] at he
  rw [hi.ids i hil, hi.ids j hj] at he
  omega

/-- A registry with two sequences, reached by a refused duplicate, a cleared list and two constructions. -/
theorem two_registered : Reachable { list := [{ obj := 3, name := "b", id := 0 }, { obj := 4, name := "a", id := 1 }], count := 2 } :=
  ⟨[.construct 1 "a", .construct 2 "a", .clear, .construct 3 "b", .construct 4 "a", .construct 5 "b", .construct 6 ""], by decide +kernel⟩

/-- Case: names and ids there. -/
example : ["b", "a"].Nodup ∧ [(0 : Int), 1].Nodup := ⟨(names_unique _ two_registered).1, ids_unique _ two_registered⟩

theorem find_unique {α β : Type} [DecidableEq β] (f : α → β) (l : List α) (h : (l.map f).Nodup) (b : β) (e : α) :
    l.find? (fun e => decide (b = f e)) = some e ↔ e ∈ l ∧ f e = b := by
  induction l with
  | nil => simp
  | cons a l ih =>
    simp only [List.map_cons, List.nodup_cons] at h
    rw [List.find?_cons]
    by_cases hb : b = f a
    · simp only [hb, decide_true, Option.some.injEq, List.mem_cons]
      constructor
      · rintro rfl; exact ⟨Or.inl rfl, rfl⟩
      · rintro ⟨h1 | h1, h2⟩
        · exact h1.symm
        · exact absurd (by rw [← h2]; exact List.mem_map_of_mem h1) h.1
    · simp only [hb, decide_false, List.mem_cons]
      rw [ih h.2]
      constructor
      · rintro ⟨h1, h2⟩; exact ⟨Or.inr h1, h2⟩
      · rintro ⟨h1 | h1, h2⟩
        · subst h1; exact absurd h2.symm hb
        · exact ⟨h1, h2⟩

/-- Lookup by name gives exactly the sequence with this name. -/
theorem byName_exact (r : Reg) (h : Reachable r) (name : String) (e : Entry) : byName r name = some e ↔ e ∈ r.list ∧ e.name = name :=
  find_unique Entry.name r.list (names_unique r h).1 name e

/-- Lookup by id gives exactly the sequence with this id. -/
theorem byId_exact (r : Reg) (h : Reachable r) (id : Int) (e : Entry) : byId r id = some e ↔ e ∈ r.list ∧ e.id = id :=
  find_unique Entry.id r.list (ids_unique r h) id e

/-- Case: "a" and the id 1 belong to the object 4. -/
example : byName { list := [{ obj := 3, name := "b", id := 0 }, { obj := 4, name := "a", id := 1 }], count := 2 } "a" = some { obj := 4, name := "a", id := 1 } ∧
    byId { list := [{ obj := 3, name := "b", id := 0 }, { obj := 4, name := "a", id := 1 }], count := 2 } 1 = some { obj := 4, name := "a", id := 1 } :=
  ⟨(byName_exact _ two_registered _ _).2 ⟨by simp, rfl⟩, (byId_exact _ two_registered _ _).2 ⟨by simp, rfl⟩⟩

/-- A construction succeeds exactly for a new non-empty name, and then the new sequence is found under its name. -/
theorem construct_iff (r : Reg) (h : Reachable r) (obj : Nat) (name : String) :
    (construct r obj name ≠ none ↔ name ≠ "" ∧ byName r name = none) ∧
    ∀ r', construct r obj name = some r' → ∃ e, byName r' name = some e ∧ e.obj = obj ∧ ∀ e' ∈ r.list, e' ∈ r'.list := by
  constructor
  · unfold construct byName
    by_cases hn : name = ""
    · simp [hn]
    · simp only [hn, if_false]
      simp [List.find?_eq_none, hn]
  · intro r' hr
    have hre : Reachable r' := by
      obtain ⟨ops, rfl⟩ := h
      exact ⟨ops ++ [.construct obj name], by rw [List.foldl_append]; simp [apply, hr]⟩
    unfold construct at hr
    split at hr
    · cases hr
    · split at hr
      · cases hr
      · simp only [Option.some.injEq] at hr
        subst hr
        refine ⟨{ obj := obj, name := name, id := r.count }, ?_, rfl, ?_⟩
        · rw [byName_exact _ hre]; exact ⟨by simp, rfl⟩
        · intro e' he'; simp [he']

example : Reachable { list := [{ obj := 3, name := "b", id := 0 }, { obj := 4, name := "a", id := 1 }], count := 2 } :=
  ⟨[.construct 1 "a", .construct 2 "a", .clear, .construct 3 "b", .construct 4 "a", .construct 5 ""], by decide⟩

/-! ### Renaming -/

/-- `setName` of a registered sequence, BaseSequence.cpp:162 (public). -/
def setName (r : Reg) (obj : Nat) (name : String) : Reg :=
  { r with list := r.list.map (fun e => if e.obj = obj then { e with name := name } else e) }

/-- Outside the histories of C14: `setName` checks nothing, so two registered sequences can get the same name and one is then not found. -/
theorem rename_duplicates : ∃ r, Reachable r ∧ ¬ ((setName r 2 "a").list.map Entry.name).Nodup ∧
    byName (setName r 2 "a") "a" = some { obj := 1, name := "a", id := 0 } :=
  ⟨{ list := [{ obj := 1, name := "a", id := 0 }, { obj := 2, name := "b", id := 1 }], count := 2 },
    ⟨[.construct 1 "a", .construct 2 "b"], by decide⟩, by decide, by decide⟩

end Verif.Sequencer.Registry
