import Verif.Control.Differentiator
import Mathlib.Tactic.Common
import Mathlib.Tactic.Linarith
import Mathlib.Tactic.Ring
import Mathlib.Tactic.FieldSimp
import Mathlib.Tactic.ByContra
import Mathlib.Data.List.Induction
/-!
A signal which is read in another time domain than that of the block which writes it, without a transition block in between.  The time
domains run in different threads (src/core/Executor.cpp:258) and the signal has no lock.  The writer stores first the value and then the
time stamp (e.g. Constant.hpp:51-52, Gain.hpp:135-141, Sum.hpp:59-60); the reader loads them one after the other:

* value first: the differentiator, which copies the signal (D.hpp:38, members in the order Signal.hpp:153-154), Sum.hpp:54-60,
  RateLimiter.hpp:81-82;
* time stamp first: the integrator (I.hpp:57, 64).

Loads and stores of a value and of a time stamp are single steps (a double, not a vector).  Instead of the values the model keeps the
number of the run of the writer they come from; 0: the initial ones.
-/
namespace Verif.Control.CrossDomain

structure St where
  /-- the run of which the stored value is -/
  v : Nat
  /-- the run of which the stored time stamp is -/
  s : Nat
  /-- what the reader has loaded so far in this run -/
  half : Option Nat
  /-- value and time stamp of the completed runs of the reader, newest first -/
  got : List (Nat × Nat)

inductive Step where
  /-- the next store of the writer: value, time stamp, value, … -/
  | store
  /-- the next load of the reader -/
  | load
deriving DecidableEq

/-- `vf`: the reader loads the value first. -/
def step (vf : Bool) (st : St) : Step → St
  | .store => if st.v = st.s then { st with v := st.v + 1 } else { st with s := st.s + 1 }
  | .load => match st.half with
    | none => { st with half := some (if vf then st.v else st.s) }
    | some i => { st with half := none, got := (if vf then (i, st.s) else (st.v, i)) :: st.got }

def new : St := ⟨0, 0, none, []⟩

def run (vf : Bool) (st : St) (l : List Step) : St := l.foldl (step vf) st

theorem run_append (vf : Bool) (st : St) (l l' : List Step) : run vf st (l ++ l') = run vf (run vf st l) l' := by simp [run]

/-! ### What is read -/

structure Inv (vf : Bool) (st : St) : Prop where
  le : st.s ≤ st.v
  near : st.v ≤ st.s + 1
  half : ∀ i, st.half = some i → i ≤ if vf then st.v else st.s
  got : ∀ p ∈ st.got, (if vf then p.1 ≤ p.2 + 1 else p.2 ≤ p.1) ∧ p.1 ≤ st.v ∧ p.2 ≤ st.s ∧
    (∀ i, st.half = some i → if vf then p.1 ≤ i else p.2 ≤ i)
  sorted : st.got.Pairwise fun p q => q.1 ≤ p.1 ∧ q.2 ≤ p.2

theorem inv_new (vf : Bool) : Inv vf new := ⟨le_refl _, by simp [new], by simp [new], by simp [new], by simp [new]⟩

theorem inv_step (vf : Bool) (st : St) (h : Inv vf st) (a : Step) : Inv vf (step vf st a) := by
  obtain ⟨v, s, half, got⟩ := st
  obtain ⟨h1, h2, h3, h4, h5⟩ := h
  simp only at h1 h2 h3 h4 h5
  cases a with
  | store =>
    simp only [step]
    split
    · refine ⟨by simp only; omega, by simp only; omega, ?_, ?_, h5⟩
      · intro i hi
        have := h3 i hi
        cases vf <;> simp only [Bool.false_eq_true, if_false, if_true] at this ⊢ <;> omega
      · intro p hp
        obtain ⟨a, b, c, d⟩ := h4 p hp
        exact ⟨a, by simp only; omega, c, d⟩
    · rename_i hne
      refine ⟨by simp only; omega, by simp only; omega, ?_, ?_, h5⟩
      · intro i hi
        have := h3 i hi
        cases vf <;> simp only [Bool.false_eq_true, if_false, if_true] at this ⊢ <;> omega
      · intro p hp
        obtain ⟨a, b, c, d⟩ := h4 p hp
        exact ⟨a, b, by simp only; omega, d⟩
  | load =>
    cases half with
    | none =>
      simp only [step]
      refine ⟨h1, h2, ?_, ?_, h5⟩
      · intro i hi
        simp only [Option.some.injEq] at hi
        exact hi.ge
      · intro p hp
        obtain ⟨a, b, c, d⟩ := h4 p hp
        refine ⟨a, b, c, ?_⟩
        intro i hi
        simp only [Option.some.injEq] at hi
        subst hi
        cases vf <;> simpa using by assumption
    | some i =>
      simp only [step]
      have hi := h3 i rfl
      refine ⟨h1, h2, by simp, ?_, ?_⟩
      · intro p hp
        rcases List.mem_cons.mp hp with rfl | hp
        · cases vf <;> simp only [Bool.false_eq_true, if_false, if_true] at hi ⊢ <;> refine ⟨by omega, by omega, by omega, by simp⟩
        · obtain ⟨a, b, c, d⟩ := h4 p hp
          exact ⟨a, b, c, by simp⟩
      · refine List.pairwise_cons.mpr ⟨?_, h5⟩
        intro p hp
        obtain ⟨a, b, c, d⟩ := h4 p hp
        have d := d i rfl
        cases vf <;> simp only [Bool.false_eq_true, if_false, if_true] at d ⊢ <;> omega

theorem inv_run (vf : Bool) (l : List Step) : Inv vf (run vf new l) := by
  induction l using List.reverseRecOn with
  | nil => exact inv_new vf
  | append_singleton l a ih => rw [run_append]; exact inv_step vf _ ih a

/-- **Values and time stamps never go back**: whatever the interleaving, of two runs of the reader the later one reads a value and a time
stamp at least as new. -/
theorem never_back (vf : Bool) (l : List Step) : (run vf new l).got.Pairwise fun p q => q.1 ≤ p.1 ∧ q.2 ≤ p.2 := (inv_run vf l).sorted

/-- The writer makes `n` complete runs. -/
def writes (n : Nat) : List Step := List.replicate (2 * n) .store

theorem run_writes (vf : Bool) (n k : Nat) (half : Option Nat) (got : List (Nat × Nat)) :
    run vf ⟨k, k, half, got⟩ (writes n) = ⟨k + n, k + n, half, got⟩ := by
  induction n generalizing k with
  | zero => simp [writes, run]
  | succ n ih =>
    have e : writes (n + 1) = [.store, .store] ++ writes n := by
      unfold writes
      rw [show 2 * (n + 1) = 2 + 2 * n by ring, List.replicate_add]; rfl
    have e1 : run vf ⟨k, k, half, got⟩ [.store, .store] = ⟨k + 1, k + 1, half, got⟩ := by simp [run, step]
    rw [e, run_append, e1, ih]
    congr 1 <;> omega

theorem run_writes_odd (vf : Bool) (n k : Nat) (half : Option Nat) (got : List (Nat × Nat)) :
    run vf ⟨k + 1, k, half, got⟩ (.store :: writes n) = ⟨k + 1 + n, k + 1 + n, half, got⟩ := by
  have e : run vf ⟨k + 1, k, half, got⟩ [.store] = ⟨k + 1, k + 1, half, got⟩ := by simp [run, step]
  rw [show Step.store :: writes n = [.store] ++ writes n from rfl, run_append, e, run_writes]

/-- **What can be read together, value first**: exactly the pairs in which the value is at most one run newer than the time stamp; it may
be older by any number of runs. -/
theorem value_first_violated (i j : Nat) : (∃ l, (run true new l).got = [(i, j)]) ↔ i ≤ j + 1 := by
  constructor
  · rintro ⟨l, h⟩
    have := ((inv_run true l).got (i, j) (by rw [h]; simp)).1
    simpa using this
  · intro h
    rcases Nat.lt_or_ge j i with hj | hj
    · obtain rfl : i = j + 1 := by omega
      refine ⟨writes j ++ [.store, .load, .load], ?_⟩
      rw [run_append, show new = ⟨0, 0, none, []⟩ from rfl, run_writes, Nat.zero_add]
      simp [run, step]
    · refine ⟨writes i ++ ([.load] ++ (writes (j - i) ++ [.load])), ?_⟩
      rw [run_append, show new = ⟨0, 0, none, []⟩ from rfl, run_writes, Nat.zero_add, run_append,
        show run true ⟨i, i, none, []⟩ [.load] = ⟨i, i, some i, []⟩ by simp [run, step], run_append, run_writes]
      simp only [run, step, List.foldl, if_true]
      rw [show i + (j - i) = j by omega]

/-- **What can be read together, time stamp first**: exactly the pairs in which the value is at least as new as the time stamp. -/
theorem stamp_first_violated (i j : Nat) : (∃ l, (run false new l).got = [(i, j)]) ↔ j ≤ i := by
  constructor
  · rintro ⟨l, h⟩
    have := ((inv_run false l).got (i, j) (by rw [h]; simp)).1
    simpa using this
  · intro h
    refine ⟨writes j ++ ([.load] ++ (writes (i - j) ++ [.load])), ?_⟩
    rw [run_append, show new = ⟨0, 0, none, []⟩ from rfl, run_writes, Nat.zero_add, run_append,
      show run false ⟨j, j, none, []⟩ [.load] = ⟨j, j, some j, []⟩ by simp [run, step], run_append, run_writes]
    simp only [run, step, List.foldl, Bool.false_eq_true, if_false]
    rw [show j + (i - j) = i by omega]

/-- **Value and time stamp belong together** if the writer is between two runs when the reader begins, and makes no store until it ends. -/
theorem together_partial (vf : Bool) (l : List Step) (hb : (run vf new l).half = none) (hw : (run vf new l).v = (run vf new l).s) :
    (run vf new (l ++ [.load, .load])).got = ((run vf new l).v, (run vf new l).v) :: (run vf new l).got := by
  rw [run_append]
  generalize run vf new l = st at *
  obtain ⟨v, s, half, got⟩ := st
  simp only at hb hw
  subst hb hw
  cases vf <;> simp [run, step]

/-! ### The differentiator in another time domain -/
variable {K : Type} [Field K] [LinearOrder K] [IsStrictOrderedRing K]

/-- The differentiator fed with what the reader got; `x` and `t`: values and time stamps of the runs of the writer. -/
def derive (x : Nat → K) (t : Nat → Nat) (l : List Step) : Differentiator.St K :=
  Differentiator.runs Differentiator.new (((run true new l).got.reverse).map fun p => ⟨x p.1, t p.2⟩)

/-- **The differentiator may divide by the wrong time**: after a run in which it read value and time stamp of run `k`, it may read any
value `i` that is not older, with any newer time stamp `j` that is at most one run older than the value; its output is then the difference
of these values over the difference of those times. -/
theorem slope_violated (x : Nat → K) (t : Nat → Nat) (k i j : Nat) (hk : k < j) (hi : k ≤ i) (hij : i ≤ j + 1) (ht : t k < t j) :
    ∃ l, (derive x t l).valOut = (x i - x k) / ((t j : K) / 1000000000 - t k / 1000000000) := by
  have fin : ∀ l, (run true new l).got = [(i, j), (k, k)] → (derive x t l).valOut = (x i - x k) / ((t j : K) / 1000000000 - t k / 1000000000) := by
    intro l h
    have hne : (t j : K) / 1000000000 ≠ t k / 1000000000 := by
      intro e
      have hlt : (t k : K) < t j := by exact_mod_cast ht
      have : (t j : K) = t k := by
        have h9 : (1000000000 : K) ≠ 0 := by norm_num
        field_simp at e
        exact e
      linarith
    simp [derive, h, Differentiator.runs, Differentiator.run, Differentiator.new, hne]
  have pre : run true new (writes k ++ [.load, .load]) = ⟨k, k, none, [(k, k)]⟩ := by
    rw [run_append, show new = ⟨0, 0, none, []⟩ from rfl, run_writes, Nat.zero_add]; simp [run, step]
  rcases Nat.lt_or_ge j i with hj | hj
  · obtain rfl : i = j + 1 := by omega
    refine ⟨_, fin ((writes k ++ [.load, .load]) ++ (writes (j - k) ++ [.store, .load, .load])) ?_⟩
    rw [run_append, pre, run_append, run_writes, show k + (j - k) = j by omega]
    simp [run, step]
  · refine ⟨_, fin ((writes k ++ [.load, .load]) ++ (writes (i - k) ++ ([.load] ++ (writes (j - i) ++ [.load])))) ?_⟩
    rw [run_append, pre, run_append, run_writes, show k + (i - k) = i by omega, run_append,
      show run true ⟨i, i, none, [(k, k)]⟩ [.load] = ⟨i, i, some i, [(k, k)]⟩ by simp [run, step], run_append, run_writes]
    simp only [run, step, List.foldl, if_true]
    rw [show i + (j - i) = j by omega]

/-- **A ramp of slope `c` per run and period `P` can be read with twice its slope, and with none.** -/
theorem ramp_violated (c : K) (P k : Nat) (hP : 0 < P) :
    (∃ l, (derive (fun i => c * i) (fun j => P * j) l).valOut = 2 * (c / (P / 1000000000))) ∧
    (∃ l, (derive (fun i => c * i) (fun j => P * j) l).valOut = 0) := by
  have hP' : (P : K) ≠ 0 := by exact_mod_cast hP.ne'
  constructor
  · obtain ⟨l, h⟩ := slope_violated (fun i => c * i) (fun j => P * j) k (k + 2) (k + 1) (by omega) (by omega) (by omega)
      (Nat.mul_lt_mul_of_pos_left (by omega) hP)
    refine ⟨l, h.trans ?_⟩
    push_cast
    have h9 : (1000000000 : K) ≠ 0 := by norm_num
    have e : (P : K) * (k + 1) / 1000000000 - P * k / 1000000000 = P / 1000000000 := by ring
    rw [e]
    ring
  · obtain ⟨l, h⟩ := slope_violated (fun i => c * i) (fun j => P * j) k k (k + 1) (by omega) (by omega) (by omega)
      (Nat.mul_lt_mul_of_pos_left (by omega) hP)
    exact ⟨l, by rw [h, sub_self, zero_div]⟩

/-- Two runs of the writer, one of the reader in the middle of the second. -/
example : (run true new [.store, .store, .store, .load, .load]).got = [(2, 1)] := by decide +kernel
example : (run false new [.store, .store, .load, .store, .store, .load]).got = [(2, 1)] := by decide +kernel
example : ∃ l, (run true new l).got = [(5, 7)] := (value_first_violated 5 7).mpr (by norm_num)
example : ¬ ∃ l, (run true new l).got = [(7, 5)] := fun h => by have := (value_first_violated 7 5).mp h; omega
example : (run true new (writes 3 ++ [.load, .load])).got = [(3, 3)] := by decide +kernel

/-- A ramp of 1 per millisecond, read as 2000 per second. -/
example : (derive (K := ℚ) (fun i => i) (fun j => 1000000 * j)
    [.store, .store, .load, .load, .store, .store, .store, .load, .load]).valOut = 2000 := by decide +kernel

end Verif.Control.CrossDomain
