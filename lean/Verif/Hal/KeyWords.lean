import Mathlib.Tactic.Common
import Mathlib.Logic.Function.Basic
/-!
Key strokes and reads of keys by two threads.

`KeyList::state` and `KeyList::event` are of type `std::vector<bool>` (includes/eeros/hal/KeyList.hpp:54-55), which packs the elements
into words of `W` bits (64 in libstdc++).  An assignment `list.event[i] = true` (src/hal/Keyboard.cpp:28-29, in the thread of the keyboard),
`list.event[i] = false` (includes/eeros/hal/KeyboardDigIn.hpp `get`, in the thread of the safety system) or `list.state[i] = false`
(includes/eeros/control/KeyboardInput.hpp:85, in any thread) loads the word, changes one bit and stores the word, without a lock
(the C++ standard gives such a program no meaning; here it is executed word by word).

Model: the bits of one vector; any number of threads; each assignment is a `load` and a `store` of the word which contains the bit.
-/
namespace Verif.Hal.KeyWords
variable {T : Type} [DecidableEq T]

/-- The bits of the vector and the word which each thread has loaded (only the bits of one word matter). -/
structure St (T : Type) where
  bits : Nat → Bool
  reg : T → Nat → Bool

/-- The two halves of `v[i] = b` in thread `t`. -/
inductive Step (T : Type) where
  | load (t : T) (i : Nat) (b : Bool)
  | store (t : T) (i : Nat) (b : Bool)
deriving DecidableEq

def step (W : Nat) (s : St T) : Step T → St T
  | .load t _ _ => { s with reg := Function.update s.reg t s.bits }
  | .store t i b => { s with bits := fun k => if k / W = i / W then (if k = i then b else s.reg t k) else s.bits k }

def run (W : Nat) (s : St T) (l : List (Step T)) : St T := l.foldl (step W) s

/-- Every thread does its assignments one after the other: `p t` is the assignment which thread `t` has begun. -/
def Seq : (T → Option (Nat × Bool)) → List (Step T) → Prop
  | _, [] => True
  | p, .load t i b :: l => p t = none ∧ Seq (Function.update p t (some (i, b))) l
  | p, .store t i b :: l => p t = some (i, b) ∧ Seq (Function.update p t none) l

/-! ### Specification -/

/-- What bit `k` should be: the value assigned to it last (an assignment takes effect with its store), else the initial one. -/
def last (k : Nat) (b0 : Bool) : List (Step T) → Bool
  | [] => b0
  | .load _ _ _ :: l => last k b0 l
  | .store _ i b :: l => last k (if k = i then b else b0) l

/-- The thread which assigns. -/
def Step.thread : Step T → T
  | .load t _ _ => t
  | .store t _ _ => t

/-- The bit which is assigned. -/
def Step.bit : Step T → Nat
  | .load _ i _ => i
  | .store _ i _ => i

/-- **Partial: no assignment is lost if each word is assigned by one thread only**, in every interleaving of any number of threads.
Missing: keys in the same word, see `lost_violated`. -/
theorem own_word_partial (W : Nat) (owner : Nat → T) : ∀ (l : List (Step T)) (s : St T) (p : T → Option (Nat × Bool)),
    Seq p l → (∀ x ∈ l, owner (x.bit / W) = x.thread) →
    (∀ t i b, p t = some (i, b) → owner (i / W) = t ∧ ∀ k, k / W = i / W → s.reg t k = s.bits k) →
    ∀ k, (run W s l).bits k = last k (s.bits k) l := by
  intro l
  induction l with
  | nil => intros; rfl
  | cons x l ih =>
    intro s p hseq hown hinv k
    cases x with
    | load t i b =>
      obtain ⟨hp, hs⟩ := hseq
      have := ih (step W s (.load t i b)) _ hs (fun y hy => hown y (List.mem_cons_of_mem _ hy)) ?_ k
      · exact this
      · intro u j c hu
        by_cases e : u = t
        · subst e
          rw [Function.update_self] at hu
          cases hu
          refine ⟨hown _ List.mem_cons_self, fun k _ => ?_⟩
          simp [step]
        · rw [Function.update_of_ne e] at hu
          obtain ⟨h1, h2⟩ := hinv u j c hu
          refine ⟨h1, fun k hk => ?_⟩
          simp only [step, Function.update_of_ne e]
          exact h2 k hk
    | store t i b =>
      obtain ⟨hp, hs⟩ := hseq
      obtain ⟨h1, h2⟩ := hinv t i b hp
      have hb : ∀ k, (step W s (.store t i b)).bits k = if k = i then b else s.bits k := by
        intro k
        simp only [step]
        by_cases e : k = i
        · subst e; simp
        · simp only [e, if_false]
          by_cases e2 : k / W = i / W
          · rw [if_pos e2]; exact h2 k e2
          · rw [if_neg e2]
      have := ih (step W s (.store t i b)) _ hs (fun y hy => hown y (List.mem_cons_of_mem _ hy)) ?_ k
      · show (run W (step W s (.store t i b)) l).bits k = last k (if k = i then b else s.bits k) l
        rw [this, hb]
      · intro u j c hu
        by_cases e : u = t
        · subst e; rw [Function.update_self] at hu; cases hu
        · rw [Function.update_of_ne e] at hu
          obtain ⟨h3, h4⟩ := hinv u j c hu
          refine ⟨h3, fun k hk => ?_⟩
          rw [hb]
          have hne : k ≠ i := by
            rintro rfl
            rw [← hk, h1] at h3
            exact e h3.symm
          rw [if_neg hne]
          exact h4 k hk

/-- **Violated: a key stroke is lost when at the same time another key is read or reset**, for every two keys in the same word and
whatever the state: the keyboard sets bit `i`, the other thread clears bit `j`, both finish, and bit `i` is not set. -/
theorem lost_violated (W : Nat) (t u : T) (htu : t ≠ u) (i j : Nat) (hij : i ≠ j) (hw : i / W = j / W) (s : St T) :
    ∃ l : List (Step T), Seq (fun _ => none) l ∧ l.filter (fun x => decide (x.thread = t)) = [.load t i true, .store t i true] ∧
      l.filter (fun x => decide (x.thread = u)) = [.load u j false, .store u j false] ∧
      (run W s l).bits i = s.bits i ∧ (run W s l).bits j = false := by
  refine ⟨[.load u j false, .load t i true, .store t i true, .store u j false], ?_, ?_, ?_, ?_, ?_⟩
  · simp [Seq, Function.update_of_ne htu, Function.update_of_ne htu.symm]
  · simp [Step.thread, htu, htu.symm, List.filter_cons]
  · simp [Step.thread, htu, htu.symm, List.filter_cons]
  · simp [run, step, hw, hij, Function.update_of_ne htu.symm]
  · simp [run, step]

/-- Exactly the keys of one word endanger each other: keys in different words never do. -/
theorem lost_iff (W : Nat) (t u : T) (htu : t ≠ u) (i j : Nat) (hij : i ≠ j) (s : St T) (h0 : s.bits i = false) :
    (∃ l : List (Step T), Seq (fun _ => none) l ∧ l.filter (fun x => decide (x.thread = t)) = [.load t i true, .store t i true] ∧
      l.filter (fun x => decide (x.thread = u)) = [.load u j false, .store u j false] ∧ (∀ x ∈ l, x.thread = t ∨ x.thread = u) ∧
      (run W s l).bits i = false) ↔ i / W = j / W := by
  constructor
  · rintro ⟨l, hs, ht, hu, ho, hr⟩
    by_contra hw
    have hmem : ∀ x ∈ l, x = .load t i true ∨ x = .store t i true ∨ x = .load u j false ∨ x = .store u j false := by
      intro x hx
      rcases ho x hx with h | h
      · have : x ∈ l.filter (fun x => decide (x.thread = t)) := by simp [hx, h]
        rw [ht] at this; simp at this; tauto
      · have : x ∈ l.filter (fun x => decide (x.thread = u)) := by simp [hx, h]
        rw [hu] at this; simp at this; tauto
    have key := own_word_partial W (fun w => if w = i / W then t else u) l s (fun _ => none) hs ?_ (by simp) i
    · rw [hr, h0] at key
      have hst : Step.store t i true ∈ l := by
        have : Step.store t i true ∈ l.filter (fun x => decide (x.thread = t)) := by rw [ht]; simp
        exact (List.mem_filter.1 this).1
      have hset : ∀ (l : List (Step T)) (b : Bool),
          (∀ x ∈ l, x = .load t i true ∨ x = .store t i true ∨ x = .load u j false ∨ x = .store u j false) →
          (b = true ∨ Step.store t i true ∈ l) → last i b l = true := by
        intro l
        induction l with
        | nil => intro b _ h; rcases h with h | h
                 · exact h
                 · cases h
        | cons x l ih =>
          intro b hm h
          have hm' := fun y hy => hm y (List.mem_cons_of_mem _ hy)
          rcases hm x List.mem_cons_self with rfl | rfl | rfl | rfl
          · exact ih b hm' (by rcases h with h | h
                               · exact .inl h
                               · exact .inr (by simpa using h))
          · exact ih _ hm' (.inl (by simp))
          · exact ih b hm' (by rcases h with h | h
                               · exact .inl h
                               · exact .inr (by simpa using h))
          · show last i (if i = j then false else b) l = true
            rw [if_neg hij]
            exact ih b hm' (by rcases h with h | h
                               · exact .inl h
                               · exact .inr (by simpa [hij] using h))
      rw [hset l false hmem (.inr hst)] at key
      cases key
    · intro x hx
      rcases hmem x hx with rfl | rfl | rfl | rfl <;> simp [Step.bit, Step.thread, Ne.symm hw]
  · intro hw
    refine ⟨[.load u j false, .load t i true, .store t i true, .store u j false], ?_, ?_, ?_, ?_, ?_⟩
    · simp [Seq, Function.update_of_ne htu, Function.update_of_ne htu.symm]
    · simp [Step.thread, htu, htu.symm, List.filter_cons]
    · simp [Step.thread, htu, htu.symm, List.filter_cons]
    · simp [Step.thread]
    · simp [run, step, hw, hij, Function.update_of_ne htu.symm, h0]

/-- Key 0 is pressed while key 1 is read: the stroke is lost; with keys 0 and 64 it is not. -/
example : (run 64 (⟨fun _ => false, fun _ _ => false⟩ : St Bool)
    [.load true 1 false, .load false 0 true, .store false 0 true, .store true 1 false]).bits 0 = false := by decide
example : (run 64 (⟨fun _ => false, fun _ _ => false⟩ : St Bool)
    [.load true 64 false, .load false 0 true, .store false 0 true, .store true 64 false]).bits 0 = true := by decide
example : Seq (fun _ => none) ([.load true 1 false, .load false 0 true, .store false 0 true, .store true 1 false] : List (Step Bool)) := by
  simp [Seq, Function.update]
example : (0 : Nat) / 64 = 1 / 64 ∧ (0 : Nat) ≠ 1 := by decide

end Verif.Hal.KeyWords
