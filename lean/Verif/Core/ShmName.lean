/-!
The name of shared memory: src/core/SharedMemory.cpp:12-53 for any number of objects, of one or several processes, which were constructed with the same
`virtualPath`.

`shm_open` with O_CREAT gives the segment to which the name refers, or creates a new one; `shm_unlink` removes the name, existing mappings stay.  `munmap` of the
member `memory` fails for `kShmError` and succeeds for every address, whether or not something is mapped there (`Verif/Core/SharedMemory.lean`).

Simplification: the calls of different processes follow each other; all objects may open the memory (the constructor creates with 0666, `initialize` with 0600).
-/
namespace Verif.Core.ShmName

/-- The member `memory` of an object: `kShmError`, the address of a mapping of a segment, or the address of a mapping which was removed. -/
inductive Ob
  | error
  | mapped (segment : Nat)
  | gone
deriving DecidableEq, Repr

structure St where
  /-- the segment to which the name refers -/
  name : Option Nat
  /-- number of segments created so far -/
  next : Nat
  obj : Nat → Ob

/-- Which calls of the kernel succeed. -/
structure Env where
  openOk : Bool
  truncOk : Bool
  mapOk : Bool
deriving DecidableEq, Repr

inductive Op
  /-- constructor of object `i` -/
  | new (i : Nat) (e : Env)
  /-- `initialize` of object `i` -/
  | init (i : Nat) (e : Env)
  /-- `destroy` of object `i`, also called by the destructor -/
  | destroy (i : Nat)
deriving DecidableEq, Repr

/-- At the beginning there is no segment of this name. -/
def start : St := ⟨none, 0, fun _ => .error⟩

def put (f : Nat → Ob) (i : Nat) (o : Ob) : Nat → Ob := fun k => if k = i then o else f k

/-- `shm_open` with O_CREAT: the segment. -/
def segment (s : St) : Nat := s.name.getD s.next

/-- `shm_open`, state after it. -/
def opened (s : St) : St := match s.name with
  | some _ => s
  | none => { s with name := some s.next, next := s.next + 1 }

/-- Constructor (lines 12-18, where `memory` is `kShmError` before the calls) and `initialize` (lines 32-45, where it is what it was); the returned code is the one of
`initialize`, includes/eeros/core/SharedMemory.hpp:9-10. -/
def acquire (s : St) (i : Nat) (e : Env) : St × Int :=
  if !e.openOk then (s, -1)
  else if !e.truncOk then (opened s, -2)
  else if !e.mapOk then ({ opened s with obj := put s.obj i .error }, -3)
  else ({ opened s with obj := put s.obj i (.mapped (segment s)) }, 0)

/-- `destroy`, lines 47-53. -/
def destroy (s : St) (i : Nat) : St × Int := match s.obj i with
  | .error => (s, -4)
  | _ => ({ s with name := none, obj := put s.obj i .gone }, 0)

def step (s : St) : Op → St
  | .new i e => (acquire { s with obj := put s.obj i .error } i e).1
  | .init i e => (acquire s i e).1
  | .destroy i => (destroy s i).1

def run (s : St) (ops : List Op) : St := ops.foldl step s

/-! ### Specification -/

/-- All calls of the kernel succeed. -/
def good : Env := ⟨true, true, true⟩

/-- In the course of `ops` one object which ever had the memory mapped is destroyed. -/
def Destroyed (s : St) (ops : List Op) : Prop := ∃ pre k post, ops = pre ++ .destroy k :: post ∧ (run s pre).obj k ≠ .error

/-! ### Lemmas -/

/-- Numbers of segments in use are below `next`. -/
structure Inv (s : St) : Prop where
  name : ∀ a, s.name = some a → a < s.next
  obj : ∀ i a, s.obj i = .mapped a → a < s.next

theorem inv_start : Inv start := ⟨fun a h => by simp [start] at h, fun i a h => by simp [start] at h⟩

theorem inv_opened {s : St} (h : Inv s) : Inv (opened s) ∧ segment s < (opened s).next ∧ s.next ≤ (opened s).next ∧ (opened s).name = some (segment s) ∧ (opened s).obj = s.obj := by
  cases hn : s.name with
  | some b => exact ⟨by simpa [opened, hn] using h, by simpa [opened, segment, hn] using h.name b hn, by simp [opened, hn], by simp [opened, segment, hn], by simp [opened, hn]⟩
  | none =>
    refine ⟨⟨fun a ha => ?_, fun i a ha => ?_⟩, by simp [opened, segment, hn], by simp [opened, hn], by simp [opened, segment, hn], by simp [opened, hn]⟩
    · simp [opened, hn] at ha ⊢; omega
    · simp [opened, hn] at ha ⊢; have := h.obj i a ha; omega

theorem inv_put {s : St} (h : Inv s) (i : Nat) (o : Ob) (ho : ∀ a, o = .mapped a → a < s.next) : Inv { s with obj := put s.obj i o } :=
  ⟨h.name, fun k a ha => by
    simp only [put] at ha
    split at ha
    · exact ho a ha
    · exact h.obj k a ha⟩

theorem inv_acquire {s : St} (h : Inv s) (i : Nat) (e : Env) : Inv (acquire s i e).1 := by
  obtain ⟨h1, h2, -, -, h5⟩ := inv_opened h
  unfold acquire
  rw [← h5]
  split
  · exact h
  · split
    · exact h1
    · split
      · exact inv_put h1 i _ (fun a ha => by cases ha)
      · exact inv_put h1 i _ (fun a ha => by cases ha; exact h2)

theorem inv_step {s : St} (h : Inv s) (op : Op) : Inv (step s op) := by
  cases op with
  | new i e => exact inv_acquire (inv_put h i .error (fun a ha => by cases ha)) i e
  | init i e => exact inv_acquire h i e
  | destroy i =>
    simp only [step, destroy]
    split
    · exact h
    · have := inv_put h i .gone (fun a ha => by cases ha)
      exact ⟨fun a ha => by simp at ha, this.obj⟩

theorem inv_run {s : St} (h : Inv s) (ops : List Op) : Inv (run s ops) := by
  induction ops generalizing s with
  | nil => exact h
  | cons op ops ih => exact ih (inv_step h op)

theorem run_append (s : St) (a b : List Op) : run s (a ++ b) = run (run s a) b := List.foldl_append

theorem acquire_name {s : St} (i : Nat) (e : Env) (a : Nat) (h : s.name = some a) : (acquire s i e).1.name = some a := by
  obtain ⟨o, t, m⟩ := e
  cases o <;> cases t <;> cases m <;> simp [acquire, opened, h]

/-- One call keeps the name or removes it; a new name is a new segment. -/
theorem name_step {s : St} (h : Inv s) (op : Op) (a : Nat) : s.next ≤ (step s op).next ∧ ((step s op).name = some a → s.name = some a ∨ s.next ≤ a) := by
  have key : ∀ (s : St), Inv s → ∀ i e, s.next ≤ (acquire s i e).1.next ∧ ((acquire s i e).1.name = some a → s.name = some a ∨ s.next ≤ a) := by
    intro s h i e
    obtain ⟨-, -, h3, h4, -⟩ := inv_opened h
    have hs : some (segment s) = some a → s.name = some a ∨ s.next ≤ a := by
      intro hh
      cases hn : s.name with
      | some b => simp [segment, hn] at hh; subst hh; exact Or.inl rfl
      | none => simp [segment, hn] at hh; exact Or.inr (by omega)
    unfold acquire
    split
    · exact ⟨Nat.le_refl _, Or.inl⟩
    · split
      · exact ⟨h3, fun hh => hs (h4 ▸ hh)⟩
      · split <;> exact ⟨h3, fun hh => hs (h4 ▸ hh)⟩
  cases op with
  | new i e => exact key _ (inv_put h i .error (fun a ha => by cases ha)) i e
  | init i e => exact key s h i e
  | destroy i =>
    simp only [step, destroy]
    split
    · exact ⟨Nat.le_refl _, Or.inl⟩
    · exact ⟨Nat.le_refl _, fun hh => by simp at hh⟩

theorem never_again {s : St} (h : Inv s) (a : Nat) (ha : a < s.next) (hn : s.name ≠ some a) (ops : List Op) : (run s ops).name ≠ some a := by
  induction ops generalizing s with
  | nil => exact hn
  | cons op ops ih =>
    have hs := name_step h op a
    refine ih (inv_step h op) (by omega) (fun hh => ?_)
    rcases hs.2 hh with h1 | h1
    · exact hn h1
    · omega

theorem name_kept_iff {s : St} (h : Inv s) (a : Nat) (ha : s.name = some a) (ops : List Op) : (run s ops).name = some a ↔ ¬ Destroyed s ops := by
  induction ops generalizing s with
  | nil =>
    refine ⟨fun _ hd => ?_, fun _ => ha⟩
    obtain ⟨pre, k, post, h1, -⟩ := hd
    simp at h1
  | cons op ops ih =>
    by_cases hop : ∃ k, op = .destroy k ∧ s.obj k ≠ .error
    · obtain ⟨k, rfl, hk⟩ := hop
      have hnone : (step s (.destroy k)).name ≠ some a := by
        cases ho : s.obj k <;> simp_all [step, destroy]
      refine ⟨fun hh => absurd hh (never_again (inv_step h _) a (Nat.lt_of_lt_of_le (h.name a ha) (name_step h _ a).1) hnone ops), fun hh => ?_⟩
      exact absurd ⟨[], k, ops, rfl, hk⟩ hh
    · have hkeep : (step s op).name = some a := by
        cases op with
        | new i e => exact acquire_name i e a ha
        | init i e => exact acquire_name i e a ha
        | destroy k =>
          simp only [step, destroy]
          split
          · exact ha
          · rename_i hk; exact absurd ⟨k, rfl, hk⟩ hop
      rw [show run s (op :: ops) = run (step s op) ops from rfl, ih (inv_step h op) hkeep]
      refine not_congr ⟨fun ⟨pre, k, post, h1, h2⟩ => ⟨op :: pre, k, post, by rw [h1]; rfl, h2⟩, fun ⟨pre, k, post, h1, h2⟩ => ?_⟩
      cases pre with
      | nil =>
        simp at h1
        exact absurd ⟨k, h1.1, h2⟩ hop
      | cons p pre =>
        simp at h1
        obtain ⟨rfl, h1⟩ := h1
        exact ⟨pre, k, post, h1, h2⟩

theorem next_mono {s : St} (h : Inv s) (ops : List Op) : s.next ≤ (run s ops).next := by
  induction ops generalizing s with
  | nil => exact Nat.le_refl _
  | cons op ops ih => exact Nat.le_trans (name_step h op 0).1 (ih (inv_step h op))

theorem segment_iff {s : St} (h : Inv s) (a : Nat) (ha : s.name = some a) (ops : List Op) : segment (run s ops) = a ↔ (run s ops).name = some a := by
  have h1 := next_mono h ops
  have h2 := h.name a ha
  cases hn : (run s ops).name with
  | some b => simp [segment, hn]
  | none => simp [segment, hn]; omega

theorem new_good {s : St} (h : Inv s) (i : Nat) : (step s (.new i good)).obj i = .mapped (segment s) ∧ (step s (.new i good)).name = some (segment s) := by
  have hp := inv_put h i .error (fun a ha => by cases ha)
  obtain ⟨-, -, -, h4, -⟩ := inv_opened hp
  simp only [step, acquire, good, Bool.not_true, Bool.false_eq_true, if_false, put, if_true]
  exact ⟨rfl, h4⟩

/-! ### C355: objects of the same name share the memory -/

/-- **C355, exactly when it holds.** Object `i` is constructed after any history, then anything happens, then object `j` is constructed: `j` gets the memory of `i`
exactly if no object which ever had the memory, of whatever process, was destroyed in between. -/
theorem same_iff (hist ops : List Op) (i j : Nat) :
    (run start (hist ++ [.new i good] ++ ops ++ [.new j good])).obj j = (run start (hist ++ [.new i good])).obj i ↔
      ¬ Destroyed (run start (hist ++ [.new i good])) ops := by
  have h0 := inv_run inv_start hist
  obtain ⟨a1, a2⟩ := new_good h0 i
  have e1 : run start (hist ++ [.new i good]) = step (run start hist) (.new i good) := by rw [run_append]; rfl
  have h1 : Inv (run start (hist ++ [.new i good])) := inv_run inv_start _
  have h2 : Inv (run start (hist ++ [.new i good] ++ ops)) := inv_run inv_start _
  have e2 : run start (hist ++ [.new i good] ++ ops ++ [.new j good]) = step (run start (hist ++ [.new i good] ++ ops)) (.new j good) := by rw [run_append _ _ [_]]; rfl
  rw [e2, (new_good h2 j).1]
  rw [← e1] at a1 a2
  rw [a1, ← name_kept_iff h1 _ a2 ops, ← segment_iff h1 _ a2 ops, ← run_append]
  exact ⟨fun hh => Ob.mapped.inj hh, fun hh => congrArg _ hh⟩

/-- **C355, the part which holds.** As long as no object is destroyed. -/
theorem same_partial (hist ops : List Op) (i j : Nat) (h : ∀ k, .destroy k ∉ ops) :
    (run start (hist ++ [.new i good] ++ ops ++ [.new j good])).obj j = (run start (hist ++ [.new i good])).obj i :=
  (same_iff hist ops i j).2 fun ⟨pre, k, post, h1, _⟩ => h k (by rw [h1]; simp)

/-- **C355 is violated**: a process which uses the memory of `i` and ends, as a program which only looks at the values, takes the name with it; the next object `j`
works with other memory, while `i` still has its own. -/
theorem leaves_violated (hist : List Op) (i j k : Nat) (hik : i ≠ k) (hij : i ≠ j) :
    ∃ a b, (run start (hist ++ [.new i good, .new k good, .destroy k, .new j good])).obj i = .mapped a ∧
      (run start (hist ++ [.new i good, .new k good, .destroy k, .new j good])).obj j = .mapped b ∧ a ≠ b := by
  have h0 := inv_run inv_start hist
  rw [run_append]
  generalize run start hist = s at h0
  cases hn : s.name with
  | none => exact ⟨s.next, s.next + 1, by simp [run, step, acquire, good, opened, segment, destroy, put, hn, hik, hij], by simp [run, step, acquire, good, opened, segment, destroy, put, hn], by omega⟩
  | some a =>
    have := h0.name a hn
    exact ⟨a, s.next, by simp [run, step, acquire, good, opened, segment, destroy, put, hn, hik, hij], by simp [run, step, acquire, good, opened, segment, destroy, put, hn], by omega⟩

/-- **C355 is violated**: `destroy` which is followed by the destructor removes the name twice, the second time the one of the object `i` constructed in between. -/
theorem twice_violated (hist : List Op) (i j k : Nat) (hik : i ≠ k) (hij : i ≠ j) :
    ∃ a b, (run start (hist ++ [.new k good, .destroy k, .new i good, .destroy k, .new j good])).obj i = .mapped a ∧
      (run start (hist ++ [.new k good, .destroy k, .new i good, .destroy k, .new j good])).obj j = .mapped b ∧ a ≠ b := by
  rw [run_append]
  generalize run start hist = s
  have hki : k ≠ i := Ne.symm hik
  cases hn : s.name with
  | none => exact ⟨s.next + 1, s.next + 2, by simp [run, step, acquire, good, opened, segment, destroy, put, hn, hik, hki, hij], by simp [run, step, acquire, good, opened, segment, destroy, put, hn, hki], by omega⟩
  | some a => exact ⟨s.next, s.next + 1, by simp [run, step, acquire, good, opened, segment, destroy, put, hn, hik, hki, hij], by simp [run, step, acquire, good, opened, segment, destroy, put, hn, hki], by omega⟩

/-! ### C356: the name is removed with the object, and the codes -/

/-- **C356, exactly when it holds.** `destroy` leaves no name and reports 0 exactly if the object has or had the memory; otherwise it reports -4 and changes nothing. -/
theorem removed_iff (s : St) (i : Nat) (hs : s.name.isSome) :
    ((destroy s i).1.name = none ↔ s.obj i ≠ .error) ∧ ((destroy s i).2 = 0 ↔ s.obj i ≠ .error) ∧ (s.obj i = .error → destroy s i = (s, -4)) := by
  cases ho : s.obj i <;> simp [destroy, ho]
  intro h; simp [h] at hs

/-- **C356 is violated**: if the size cannot be set or the mapping fails, the name which the constructor created stays after the destructor. -/
theorem left_violated (s : St) (i : Nat) (e : Env) (ho : e.openOk = true) (hf : e.truncOk = false ∨ e.mapOk = false) :
    (step (step s (.new i e)) (.destroy i)).name.isSome := by
  obtain ⟨o, t, m⟩ := e
  simp only at ho hf
  subst ho
  cases hn : s.name <;> cases t <;> cases m <;> simp_all [step, acquire, destroy, opened, put]

/-- **C356, codes of `initialize`.** 0 means that the object has the memory of the name, each other code which call failed. -/
theorem codes (s : St) (h : Inv s) (i : Nat) (e : Env) :
    ((acquire s i e).2 = 0 ↔ e = good) ∧ ((acquire s i e).2 = 0 → ∃ a, (acquire s i e).1.obj i = .mapped a ∧ (acquire s i e).1.name = some a) ∧
    ((acquire s i e).2 = -1 ↔ e.openOk = false) ∧ ((acquire s i e).2 = -2 ↔ e.openOk = true ∧ e.truncOk = false) ∧
    ((acquire s i e).2 = -3 ↔ e.openOk = true ∧ e.truncOk = true ∧ e.mapOk = false) := by
  obtain ⟨-, -, -, h4, -⟩ := inv_opened h
  obtain ⟨o, t, m⟩ := e
  cases o <;> cases t <;> cases m <;> simp [acquire, good, put, h4]

/-- **C356 is violated**: the code 0 of `destroy` does not mean that something was mapped; calling it any number of times reports 0 each time. -/
theorem again_violated (s : St) (i n : Nat) (h : s.obj i ≠ .error) : (destroy (run s (List.replicate n (.destroy i))) i).2 = 0 := by
  have : (run s (List.replicate n (.destroy i))).obj i ≠ .error := by
    induction n generalizing s with
    | zero => exact h
    | succ n ih =>
      rw [List.replicate_succ]
      refine ih (step s (.destroy i)) ?_
      cases ho : s.obj i <;> simp_all [step, destroy, put]
  cases ho : (run s (List.replicate n (.destroy i))).obj i <;> simp_all [destroy]

/-! ### Cases -/

example : (run start [.new 0 good, .new 1 good]).obj 0 = .mapped 0 ∧ (run start [.new 0 good, .new 1 good]).obj 1 = .mapped 0 := by decide
example : let s := run start [.new 0 good, .new 1 good, .destroy 1, .new 2 good]; s.obj 0 = .mapped 0 ∧ s.obj 2 = .mapped 1 := by decide
example : Destroyed (run start [.new 0 good]) [.new 1 good, .destroy 1] := ⟨[.new 1 good], 1, [], rfl, by decide⟩
/-- An object which failed is destroyed: the memory stays shared. -/
example : let s := run start [.new 0 good, .new 1 ⟨true, true, false⟩, .destroy 1, .new 2 good]; s.obj 0 = .mapped 0 ∧ s.obj 2 = .mapped 0 := by decide
example : (step (step start (.new 4 ⟨true, false, true⟩)) (.destroy 4)).name = some 0 := by decide
example : (acquire (run start [.new 0 good]) 0 ⟨true, true, false⟩).2 = -3 ∧ (destroy (run start [.new 0 good]) 0).2 = 0 ∧ (destroy start 0).2 = -4 := by decide

end Verif.Core.ShmName
