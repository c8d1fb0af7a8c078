import Verif.Hal.Torn
import Mathlib.Tactic.SplitIfs
import Mathlib.Data.Fintype.Basic
import Mathlib.Tactic.FinCases
import Mathlib.Data.List.Induction
import Mathlib.Data.Fin.VecNotation
import Mathlib.Data.Fin.Tuple.Basic
/-!
Theorems about vectors which are shared without a lock.
-/
namespace Verif.Hal.Torn
variable {n : Nat} {V : Type}

/-- Specification: the messages which were begun in an execution, after the initial value. -/
def begun : List (Step n V) → List (Fin n → V)
  | [] => []
  | .begin m :: l => m :: begun l
  | _ :: l => begun l

theorem begun_append (a b : List (Step n V)) : begun (a ++ b) = begun a ++ begun b := by
  induction a with
  | nil => rfl
  | cons x a ih => cases x <;> simp [begun, ih]

theorem run_snoc (s : St n V) (l : List (Step n V)) (x : Step n V) : run s (l ++ [x]) = step (run s l) x := by simp [run]

/-- Every element of the copy is the same element of some message (or of the initial value): no element is invented. -/
theorem elements_partial (v : Fin n → V) (l : List (Step n V)) (i : Fin n) :
    ∃ m ∈ v :: begun l, (run (new v) l).out i = m i := by
  suffices (∃ m ∈ v :: begun l, (run (new v) l).out i = m i) ∧ (∃ m ∈ v :: begun l, (run (new v) l).vec i = m i) ∧ (run (new v) l).msg ∈ v :: begun l from this.1
  induction l using List.reverseRecOn with
  | nil => exact ⟨⟨v, List.mem_cons_self, rfl⟩, ⟨v, List.mem_cons_self, rfl⟩, List.mem_cons_self⟩
  | append_singleton l x ih =>
    obtain ⟨⟨a, ha, ea⟩, ⟨b, hb, eb⟩, hm⟩ := ih
    rw [run_snoc, begun_append]
    have up : ∀ m, m ∈ v :: begun l → m ∈ v :: (begun l ++ begun [x]) := by
      intro m h; simp only [List.mem_cons, List.mem_append] at h ⊢; rcases h with h | h <;> simp [h]
    cases x with
    | «begin» m =>
      simp only [step]
      split_ifs
      · exact ⟨⟨a, up a ha, ea⟩, ⟨b, up b hb, eb⟩, by simp [begun]⟩
      · exact ⟨⟨a, up a ha, ea⟩, ⟨b, up b hb, eb⟩, up _ hm⟩
    | store =>
      simp only [step]
      split_ifs with h
      · refine ⟨⟨a, up a ha, ea⟩, ?_, up _ hm⟩
        by_cases hi : i = ⟨_, h⟩
        · exact ⟨_, up _ hm, by simp [hi]⟩
        · exact ⟨b, up b hb, by simp [hi, eb]⟩
      · exact ⟨⟨a, up a ha, ea⟩, ⟨b, up b hb, eb⟩, up _ hm⟩
    | copy =>
      simp only [step]
      split_ifs
      · exact ⟨⟨a, up a ha, ea⟩, ⟨b, up b hb, eb⟩, up _ hm⟩
      · exact ⟨⟨a, up a ha, ea⟩, ⟨b, up b hb, eb⟩, up _ hm⟩
    | load =>
      simp only [step]
      split_ifs with h
      · refine ⟨?_, ⟨b, up b hb, eb⟩, up _ hm⟩
        by_cases hi : i = ⟨_, h⟩
        · exact ⟨b, up _ hb, by show (if _ then _ else _) = _; rw [if_pos hi]; exact eb⟩
        · exact ⟨a, up a ha, by simp [hi, ea]⟩
      · exact ⟨⟨a, up a ha, ea⟩, ⟨b, up b hb, eb⟩, up _ hm⟩

theorem stores (k : Nat) (s : St n V) (hk : s.w + k ≤ n) :
    run s (List.replicate k .store) =
      { s with vec := fun i => if s.w ≤ i.val ∧ i.val < s.w + k then s.msg i else s.vec i, w := s.w + k } := by
  induction k generalizing s with
  | zero => cases s; simp [run]; funext i; split_ifs <;> first | rfl | omega
  | succ k ih =>
    rw [List.replicate_succ]
    show run (step s .store) _ = _
    have hw : s.w < n := by omega
    rw [show step s .store = { s with vec := fun i => if i = ⟨s.w, hw⟩ then s.msg i else s.vec i, w := s.w + 1 } by simp only [step, dif_pos hw]]
    rw [ih _ (by simp only []; omega)]
    simp only [St.mk.injEq, true_and, and_true]
    refine ⟨?_, by omega⟩
    funext i
    by_cases h1 : i.val = s.w
    · have : i = ⟨s.w, hw⟩ := Fin.ext h1
      subst this; simp
    · have : i ≠ ⟨s.w, hw⟩ := fun e => h1 (congrArg Fin.val e)
      simp only [this, if_false]
      split_ifs <;> first | rfl | omega

theorem loads (k : Nat) (s : St n V) (hk : s.r + k ≤ n) :
    run s (List.replicate k .load) =
      { s with out := fun i => if s.r ≤ i.val ∧ i.val < s.r + k then s.vec i else s.out i, r := s.r + k } := by
  induction k generalizing s with
  | zero => cases s; simp [run]; funext i; split_ifs <;> first | rfl | omega
  | succ k ih =>
    rw [List.replicate_succ]
    show run (step s .load) _ = _
    have hw : s.r < n := by omega
    rw [show step s .load = { s with out := fun i => if i = ⟨s.r, hw⟩ then s.vec i else s.out i, r := s.r + 1 } by simp only [step, dif_pos hw]]
    rw [ih _ (by simp only []; omega)]
    simp only [St.mk.injEq, true_and, and_true]
    refine ⟨?_, by omega⟩
    funext i
    by_cases h1 : i.val = s.r
    · have : i = ⟨s.r, hw⟩ := Fin.ext h1
      subst this; simp
    · have : i ≠ ⟨s.r, hw⟩ := fun e => h1 (congrArg Fin.val e)
      simp only [this, if_false]
      split_ifs <;> first | rfl | omega

theorem run_append (s : St n V) (a b : List (Step n V)) : run s (a ++ b) = run (run s a) b := by simp [run]

theorem between (s : St n V) : s.w ≤ n → s.r ≤ n → ∀ l, (run s l).w ≤ n ∧ (run s l).r ≤ n := by
  intro hw hr l
  induction l generalizing s with
  | nil => exact ⟨hw, hr⟩
  | cons x l ih =>
    refine ih (step s x) ?_ ?_ <;> cases x <;> simp only [step] <;> split_ifs <;> first | assumption | (simp only []; omega)

/-- When the thread does not store during a copy, the copy is the shared vector; when the thread has stored a whole message, this is the message. -/
theorem undisturbed_partial (v : Fin n → V) (l : List (Step n V)) (hr : (run (new v) l).r = n) :
    (run (new v) (l ++ .copy :: List.replicate n .load)).out = (run (new v) l).vec := by
  rw [run_append]
  show (run (step (run (new v) l) .copy) _).out = _
  rw [show step (run (new v) l) .copy = { run (new v) l with r := 0 } by simp only [step, hr, if_true]]
  rw [loads n _ (by simp)]
  funext i
  simp

theorem stored_whole (v : Fin n → V) (l : List (Step n V)) (hw : (run (new v) l).w = n) (m : Fin n → V) :
    (run (new v) (l ++ .begin m :: List.replicate n .store)).vec = m := by
  rw [run_append]
  show (run (step (run (new v) l) (.begin m)) _).vec = _
  rw [show step (run (new v) l) (.begin m) = { run (new v) l with msg := m, w := 0 } by simp only [step, hw, if_true]]
  rw [stores n _ (by simp)]
  funext i
  simp

/-- A message is stored and copied. -/
example : (run (new ![0, 0, 0]) [.begin ![1, 2, 3], .store, .store, .store, .copy, .load, .load, .load]).out 2 = 3 := by decide

/-- Violation: for every number `k` of elements the block can copy the first `k` elements before and the others after a message was stored: with two
messages which differ in the first and in the last element the copy is neither of them. -/
theorem torn_violated (v m : Fin n → V) (k : Nat) (hk : k ≤ n) :
    let s := run (new v) (.copy :: List.replicate k .load ++ .begin m :: List.replicate n .store ++ List.replicate (n - k) .load)
    s.r = n ∧ s.out = fun i => if i.val < k then v i else m i := by
  intro s
  have hs : s = run (run (run (new v) (.copy :: List.replicate k .load)) (.begin m :: List.replicate n .store)) (List.replicate (n - k) .load) := by
    rw [← run_append, ← run_append, ← List.append_assoc]
  rw [hs]
  have e1 : run (new v) (.copy :: List.replicate k .load) = { new v with r := k } := by
    show run (step (new v) .copy) _ = _
    rw [show step (new v) .copy = { new v with r := 0 } by simp [step, new]]
    rw [loads k _ (by simpa using hk)]
    simp only [new, St.mk.injEq, true_and]
    exact ⟨by funext i; split_ifs <;> rfl, by omega⟩
  rw [e1]
  have e2 : run { new v with r := k } (.begin m :: List.replicate n .store) = { new v with r := k, vec := m, msg := m } := by
    show run (step _ (.begin m)) _ = _
    rw [show step { new v with r := k } (.begin m) = { new v with r := k, msg := m, w := 0 } by simp [step, new]]
    rw [stores n _ (by simp)]
    simp only [new, St.mk.injEq, true_and, and_true]
    exact ⟨by funext i; simp, by omega⟩
  rw [e2, loads (n - k) _ (by simp only []; omega)]
  refine ⟨by simp only []; omega, ?_⟩
  funext i
  have := i.isLt
  by_cases h : i.val < k
  · simp only [new, h, if_true]
    rw [if_neg (by omega)]
  · simp only [new, h, if_false]
    rw [if_pos (by omega)]

/-- So the direction of a vector can be one which no message had: half of the message (1, 0) and half of (0, 1) gives (1, 1). -/
example : (run (new ![1, 0]) [.copy, .load, .begin ![0, 1], .store, .store, .load]).out = ![1, 1] := by
  funext i; fin_cases i <;> rfl

theorem torn_neither (v m : Fin (n + 2) → V) (h0 : v 0 ≠ m 0) (h1 : v (Fin.last _) ≠ m (Fin.last _)) :
    ∃ l : List (Step (n + 2) V), (run (new v) l).r = n + 2 ∧ (run (new v) l).out ≠ v ∧ (run (new v) l).out ≠ m := by
  obtain ⟨hr, ho⟩ := torn_violated v m 1 (by omega)
  refine ⟨_, hr, ?_, ?_⟩
  · rw [ho]
    intro e
    have := congrFun e (Fin.last _)
    simp only [Fin.val_last] at this
    rw [if_neg (by omega)] at this
    exact h1 this.symm
  · rw [ho]
    intro e
    have := congrFun e 0
    simp at this
    exact h0 this

example : (![1, 0, 0] : Fin 3 → Nat) 0 ≠ (![0, 0, 1] : Fin 3 → Nat) 0 ∧ (![1, 0, 0] : Fin 3 → Nat) (Fin.last _) ≠ (![0, 0, 1] : Fin 3 → Nat) (Fin.last _) := by decide

end Verif.Hal.Torn
