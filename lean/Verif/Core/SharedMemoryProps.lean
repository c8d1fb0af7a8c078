import Verif.Core.SharedMemory
namespace Verif.Core.SharedMemory

/-! ### C96: shared memory is mapped and released once -/

/-- The kernel chooses an address which is not in use. -/
def Fresh (k : Kernel) (e : Env) : Prop := ∀ a, e.addr = some a → a ∉ k.maps

theorem filter_fresh (l : List Nat) (a : Nat) (h : a ∉ l) : l.filter (· ≠ a) = l := by
  rw [List.filter_eq_self]
  intro b hb
  simp only [ne_eq, decide_not, Bool.not_eq_eq_eq_not, Bool.not_true, decide_eq_false_iff_not]
  rintro rfl
  exact h hb

/-- **C96 (partial).** An object whose only user is the constructor, with any answers of the kernel: the pointer is a mapped address or
`kShmError`, and after the destructor the mappings are those from before; `destroy` reports success exactly if there was a mapping.  Missing: the file descriptor, `initialize` after the
constructor, and `destroy` before the destructor. -/
theorem life_partial (k : Kernel) (e : Env) (hf : Fresh k e) :
    (∀ a, (new k e).2.memory = some a → a ∈ (new k e).1.maps) ∧ (destroy (new k e).1 (new k e).2).1.maps = k.maps ∧
    ((destroy (new k e).1 (new k e).2).2 = true ↔ (new k e).2.memory.isSome) := by
  obtain ⟨o, t, a⟩ := e
  cases o <;> cases t <;> cases a <;> simp [new, map, destroy]
  intro b hb hc
  subst hc
  exact hf _ rfl hb

/-- **C96.** The pointer is valid exactly if all three calls of the kernel succeeded. -/
theorem pointer_iff (k : Kernel) (e : Env) : (new k e).2.memory.isSome ↔ e.openOk = true ∧ e.truncOk = true ∧ e.addr.isSome := by
  obtain ⟨o, t, a⟩ := e
  cases o <;> cases t <;> cases a <;> simp [new, map]

example : Fresh ⟨[1, 2], 3⟩ ⟨true, true, some 3⟩ := by intro a h; cases h; decide

/-- **C96, violated.** The file descriptor is never closed: after the destructor one more is open than before. -/
theorem descriptor_violated (k : Kernel) (e : Env) (h : e.openOk = true) : (destroy (new k e).1 (new k e).2).1.fds = k.fds + 1 := by
  obtain ⟨o, t, a⟩ := e
  simp only at h
  subst h
  cases t <;> cases a <;> simp [new, map, destroy]

/-- **C96, violated.** `initialize` after a successful constructor maps the memory a second time; the first mapping stays for ever. -/
theorem initialize_violated (k : Kernel) (e e' : Env) (a : Nat) (ho : e.openOk = true) (ht : e.truncOk = true) (ha : e.addr = some a)
    (ho' : e'.openOk = true) (ht' : e'.truncOk = true) (hf' : Fresh (new k e).1 e') :
    let (k1, o1) := new k e
    let (k2, o2) := init k1 o1 e'
    a ∈ (destroy k2 o2).1.maps ∨ e'.addr = none := by
  obtain ⟨o, t, a0⟩ := e
  obtain ⟨o', t', a'⟩ := e'
  simp only at ho ht ha ho' ht'
  subst ho ht ha ho' ht'
  cases a' with
  | none => right; rfl
  | some b =>
    left
    have hb := hf' b rfl
    simp only [new, map, Bool.not_true, Bool.false_eq_true, if_false, List.mem_cons, not_or] at hb
    simp only [map, Bool.not_true, Bool.false_eq_true, if_false, Option.getD_some, destroy, List.filter_cons]
    have : a ≠ b := fun h => hb.1 h.symm
    simp [this]


/-- The memory is mapped at 3, then `initialize` maps it at 4: the mapping at 3 remains. -/
example : let k : Kernel := ⟨[1, 2], 3⟩
    Fresh (new k ⟨true, true, some 3⟩).1 ⟨true, true, some 4⟩ ∧
    3 ∈ (destroy (init (new k ⟨true, true, some 3⟩).1 (new k ⟨true, true, some 3⟩).2 ⟨true, true, some 4⟩).1 (init (new k ⟨true, true, some 3⟩).1 (new k ⟨true, true, some 3⟩).2 ⟨true, true, some 4⟩).2).1.maps := by
  refine ⟨by intro a h; cases h; decide, by decide⟩

/-- **C96, violated.** `destroy` followed by the destructor unmaps the address twice: if another part of the program was given the
address in between, its memory is taken away. -/
theorem destroy_twice_violated (k : Kernel) (e : Env) (a : Nat) (ho : e.openOk = true) (ht : e.truncOk = true) (ha : e.addr = some a) :
    let (k1, o1) := new k e
    let k2 := (destroy k1 o1).1
    a ∉ k2.maps ∧
    let k3 : Kernel := { k2 with maps := a :: k2.maps }
    a ∉ (destroy k3 o1).1.maps := by
  obtain ⟨o, t, a0⟩ := e
  simp only at ho ht ha
  subst ho ht ha
  simp [new, map, destroy]

/-- Case: address 4096, given to another part of the program after `destroy`, is gone after the destructor. -/
example : (destroy { (destroy (new ⟨[8192], 0⟩ ⟨true, true, some 4096⟩).1 ⟨some 4096⟩).1 with maps := [4096, 8192] } ⟨some 4096⟩).1.maps = [8192] := by decide

end Verif.Core.SharedMemory
