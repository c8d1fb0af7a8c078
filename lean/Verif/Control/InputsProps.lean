import Verif.Control.Inputs
namespace Verif.Control.Inputs

/-- Specification: the output an input is connected to after a history: the first connect since the start or the last disconnect.
`cur` is the connection before the history. -/
def connection (i : Nat) : List Op → Option Target → Option Target
  | [], cur => cur
  | .connect j t :: ops, cur => connection i ops (if j = i then cur.or (some t) else cur)
  | .connectPtr j t :: ops, cur => connection i ops (if j = i then cur.or t else cur)
  | .disconnect j :: ops, cur => connection i ops (if j = i then none else cur)

/-- **C23, first connection counts.** After any history the input is connected to the first output it was connected to since the last
disconnect. -/
theorem connection_of_history (ops : List Op) (i : Nat) : (exec World.init ops) i = connection i ops none := by
  suffices H : ∀ (ops : List Op) (w : World), (exec w ops) i = connection i ops (w i) from H ops World.init
  intro ops
  induction ops with
  | nil => intro w; rfl
  | cons op ops ih =>
    intro w
    change exec (step w op).1 ops i = _
    rw [ih]
    cases op with
    | connect j t =>
      simp only [connection, step]
      by_cases hj : j = i
      · subst hj; cases h : w j <;> simp [World.set, h]
      · have hj' : ¬ i = j := fun h => hj h.symm
        cases h : w j <;> simp [World.set, hj, hj']
    | connectPtr j t =>
      simp only [connection, step]
      by_cases hj : j = i
      · subst hj; cases h : w j <;> simp [World.set, h]
      · have hj' : ¬ i = j := fun h => hj h.symm
        cases h : w j <;> simp [World.set, hj, hj']
    | disconnect j =>
      simp only [connection, step, World.set]
      by_cases hj : j = i
      · subst hj; simp
      · have hj' : ¬ i = j := fun h => hj h.symm
        simp [hj, hj']

/-- **C23, second connection refused.** Connecting a connected input returns false and changes nothing; connecting an unconnected one
returns true and afterwards it is connected to that output, all other inputs unchanged. -/
theorem connect_spec (w : World) (i : Nat) (t : Target) :
    (isConnected w i = true → step w (.connect i t) = (w, false)) ∧
    (isConnected w i = false → (step w (.connect i t)).2 = true ∧ (step w (.connect i t)).1 i = some t ∧
      ∀ j, j ≠ i → (step w (.connect i t)).1 j = w j) := by
  constructor
  · intro h
    have : w i ≠ none := by intro hn; simp [isConnected, hn] at h
    simp [step, this]
  · intro h
    have : w i = none := by simpa [isConnected] using h
    refine ⟨by simp [step, this], by simp [step, this, World.set], ?_⟩
    intro j hj
    simp [step, this, World.set, hj]

/-- **C23, connection by pointer.** The same for `connect(Output*)`: refused without any effect when connected; otherwise accepted, and with a null
pointer the input stays unconnected. -/
theorem connectPtr_spec (w : World) (i : Nat) (t : Option Target) :
    (isConnected w i = true → step w (.connectPtr i t) = (w, false)) ∧
    (isConnected w i = false → (step w (.connectPtr i t)).2 = true ∧ (step w (.connectPtr i t)).1 i = t ∧
      ∀ j, j ≠ i → (step w (.connectPtr i t)).1 j = w j) := by
  constructor
  · intro h
    have : w i ≠ none := by intro hn; simp [isConnected, hn] at h
    simp [step, this]
  · intro h
    have : w i = none := by simpa [isConnected] using h
    refine ⟨by simp [step, this], by simp [step, this, World.set], ?_⟩
    intro j hj
    simp [step, this, World.set, hj]

theorem readF_mono (w : World) (f : Nat) : ∀ i r, readF w f i = some r → ∀ g, f ≤ g → readF w g i = some r := by
  induction f with
  | zero => intro i r h; simp [readF] at h
  | succ f ih =>
    intro i r h g hg
    obtain ⟨g, rfl⟩ : ∃ k, g = k + 1 := ⟨g - 1, by omega⟩
    simp only [readF] at h ⊢
    cases hw : w i with
    | none => simpa [hw] using h
    | some t =>
      cases t with
      | out o => simpa [hw] using h
      | sub j => simp only [hw] at h ⊢; exact ih j r h g (by omega)

/-- A read has at most one result. -/
theorem reads_unique (w : World) (i : Nat) (r r' : Res) (h : Reads w i r) (h' : Reads w i r') : r = r' := by
  obtain ⟨f, hf⟩ := h
  obtain ⟨g, hg⟩ := h'
  have h1 := readF_mono w f i r hf (max f g) (Nat.le_max_left _ _)
  have h2 := readF_mono w g i r' hg (max f g) (Nat.le_max_right _ _)
  rw [h1] at h2; exact Option.some.inj h2

/-- **C23, read.** An unconnected input raises NotConnectedFault, a connected one returns the signal of its output, and an input
connected to a sub-block input returns exactly what that one returns. -/
theorem read_spec (w : World) (i : Nat) :
    (w i = none → ∀ r, Reads w i r ↔ r = .notConnected) ∧
    (∀ o, w i = some (.out o) → ∀ r, Reads w i r ↔ r = .signal o) ∧
    (∀ j, w i = some (.sub j) → ∀ r, Reads w i r ↔ Reads w j r) := by
  refine ⟨?_, ?_, ?_⟩
  · intro h r
    constructor
    · intro hr; exact reads_unique w i _ _ hr ⟨1, by simp [readF, h]⟩
    · rintro rfl; exact ⟨1, by simp [readF, h]⟩
  · intro o h r
    constructor
    · intro hr; exact reads_unique w i _ _ hr ⟨1, by simp [readF, h]⟩
    · rintro rfl; exact ⟨1, by simp [readF, h]⟩
  · intro j h r
    constructor
    · rintro ⟨f, hf⟩
      cases f with
      | zero => simp [readF] at hf
      | succ f => exact ⟨f, by simpa [readF, h] using hf⟩
    · rintro ⟨f, hf⟩
      exact ⟨f+1, by simpa [readF, h] using hf⟩

/-- A chain of nested sub-block inputs: every element is connected to the next one. -/
def Chain (w : World) : Nat → List Nat → Prop
  | _, [] => True
  | i, j :: l => w i = some (.sub j) ∧ Chain w j l

/-- **C23, nesting.** Through any number of nesting levels the innermost read returns what the outermost input is connected to:
its output, or NotConnectedFault if the outermost input is unconnected. -/
theorem nested_read (w : World) (i : Nat) (l : List Nat) (h : Chain w i l) :
    ((∀ o, w ((i :: l).getLast (by simp)) = some (.out o) → Reads w i (.signal o)) ∧
     (w ((i :: l).getLast (by simp)) = none → Reads w i .notConnected)) := by
  induction l generalizing i with
  | nil => exact ⟨fun o ho => ((read_spec w i).2.1 o ho _).2 rfl, fun hn => ((read_spec w i).1 hn _).2 rfl⟩
  | cons j l ih =>
    obtain ⟨h1, h2⟩ := h
    have := ih j h2
    rw [List.getLast_cons (by simp)]
    exact ⟨fun o ho => ((read_spec w i).2.2 j h1 _).2 (this.1 o ho), fun hn => ((read_spec w i).2.2 j h1 _).2 (this.2 hn)⟩


/-- A chain of three inputs, the last of which is connected to an output. -/
example : Reads (exec World.init [.connect 0 (.sub 1), .connect 1 (.sub 2), .connect 2 (.out 7)]) 0 (.signal 7) :=
  (nested_read _ 0 [1, 2] ⟨by decide, by decide, trivial⟩).1 7 (by decide)

/-- Two sub-block inputs connected to each other: the read never returns (unbounded recursion in the code). -/
theorem cyclic_read_diverges : let w := exec World.init [.connect 0 (.sub 1), .connect 1 (.sub 0)]
    ∀ r, ¬ Reads w 0 r := by
  intro w r ⟨f, hf⟩
  have h0 : w 0 = some (.sub 1) := by decide
  have h1 : w 1 = some (.sub 0) := by decide
  have : ∀ f, readF w f 0 = none ∧ readF w f 1 = none := by
    intro f
    induction f with
    | zero => exact ⟨rfl, rfl⟩
    | succ f ih => exact ⟨by simp [readF, h0, ih.2], by simp [readF, h1, ih.1]⟩
  rw [(this f).1] at hf
  simp at hf

/-- Non-vacuity: two nesting levels, a refused second connect, and a disconnect. -/
example : let w := exec World.init [.connect 0 (.sub 1), .connect 1 (.sub 2), .connect 2 (.out 7), .connect 2 (.out 8)]
    Reads w 0 (.signal 7) ∧ Reads (exec w [.disconnect 2]) 0 .notConnected :=
  ⟨⟨3, by decide⟩, ⟨3, by decide⟩⟩
example : Chain (exec World.init [.connect 0 (.sub 1), .connect 1 (.sub 2)]) 0 [1, 2] :=
  ⟨by decide, by decide, trivial⟩

end Verif.Control.Inputs
