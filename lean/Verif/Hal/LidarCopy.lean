import Verif.Hal.TornProps
import Verif.Hal.RPLidar
import Mathlib.Tactic.Common
import Mathlib.Tactic.NormNum
/-!
Copies of a laser scan while the next one is stored.

`RPLidar::run` stores a scan in two passes, first zeros in all elements (`ranges.zero()`, src/hal/RPLidar.cpp:101 with
includes/eeros/math/Matrix.hpp:66-70), then the ranges (104-118), without a lock; `getRanges` (src/hal/RPLidar.cpp:70-72), which
`RPLidarInput::run` calls from the time domain, copies element by element.  Both are executions of the vector shared without a lock of
`Verif.Hal.Torn`, in which each scan is stored as two messages.  `n` is LASER_COUNT_MAX.
-/
namespace Verif.Hal.LidarCopy
open Torn
variable {n : Nat} {V : Type}

/-- The steps of the device thread for one scan, RPLidar.cpp:101 and 104-118. -/
def round (z : V) (m : Fin n → V) : List (Step n V) :=
  .begin (fun _ => z) :: List.replicate n .store ++ .begin m :: List.replicate n .store

def isThread : Step n V → Bool
  | .begin _ => true
  | .store => true
  | .copy => false
  | .load => false

/-- The device thread delivers the given scans one after the other, the last one possibly only in part. -/
def Delivers (z : V) (scans : List (Fin n → V)) (l : List (Step n V)) : Prop :=
  l.filter isThread <+: (scans.map (round z)).flatten

theorem begun_filter (l : List (Step n V)) : begun (l.filter isThread) = begun l := by
  induction l with
  | nil => rfl
  | cons x l ih => cases x <;> simp [isThread, begun, ih, List.filter_cons]

theorem begun_stores (k : Nat) : begun (List.replicate k (Step.store : Step n V)) = [] := by
  induction k with
  | zero => rfl
  | succ k ih => simpa [List.replicate_succ, begun] using ih

theorem begun_round (z : V) (m : Fin n → V) : begun (round z m) = [fun _ => z, m] := by
  simp [round, begun, begun_append, begun_stores]

theorem begun_rounds (z : V) (scans : List (Fin n → V)) :
    begun ((scans.map (round z)).flatten) = scans.flatMap fun m => [fun _ => z, m] := by
  induction scans with
  | nil => rfl
  | cons m l ih => simp [begun_append, begun_round, ih]

/-- **Partial: every element of a copy is the initial one, the same element of one of the scans, or zero.**  Missing: that it is from a
scan, see `phantom_violated`. -/
theorem elements_partial (z : V) (v : Fin n → V) (scans : List (Fin n → V)) (l : List (Step n V)) (h : Delivers z scans l) (i : Fin n) :
    (run (new v) l).out i = v i ∨ (run (new v) l).out i = z ∨ ∃ m ∈ scans, (run (new v) l).out i = m i := by
  obtain ⟨m, hm, e⟩ := Torn.elements_partial v l i
  rcases List.mem_cons.1 hm with rfl | hm
  · exact .inl e
  · right
    rw [← begun_filter] at hm
    obtain ⟨t, ht⟩ := h
    have : m ∈ begun ((scans.map (round z)).flatten) := by rw [← ht, begun_append]; exact List.mem_append_left _ hm
    rw [begun_rounds, List.mem_flatMap] at this
    obtain ⟨a, ha, h2⟩ := this
    rcases List.mem_cons.1 h2 with rfl | h2
    · exact .inl e
    · rw [List.mem_singleton] at h2
      subst h2
      exact .inr ⟨m, ha, e⟩

/-- One complete copy by the block. -/
def oneCopy : List (Step n V) := .copy :: List.replicate n .load

/-- **Violated: for every scan and every index there is a run in which the copy has a zero at this index**, between elements of the
scan before and of the new one, although neither of the two contains a zero.  The block reports an obstacle at distance zero. -/
theorem phantom_violated (z : V) (s : St n V) (hw : s.w = n) (hr : s.r = n) (m : Fin n → V) (i : Fin n) :
    ∃ l, l.filter isThread = round z m ∧ (l.filter fun x => !isThread x) = oneCopy ∧
      (run s l).r = n ∧ (run s l).w = n ∧ (run s l).vec = m ∧
      ∀ j, (run s l).out j = if j < i then s.vec j else if j = i then z else m j := by
  have fl : ∀ k, (List.replicate k (Step.load : Step n V)).filter isThread = [] := by
    intro k; induction k with
    | zero => rfl
    | succ k ih => simpa [List.replicate_succ, isThread] using ih
  have fl' : ∀ k, (List.replicate k (Step.load : Step n V)).filter (fun x => !isThread x) = List.replicate k .load := by
    intro k; induction k with
    | zero => rfl
    | succ k ih => simpa [List.replicate_succ, isThread] using ih
  have fs : ∀ k, (List.replicate k (Step.store : Step n V)).filter isThread = List.replicate k .store := by
    intro k; induction k with
    | zero => rfl
    | succ k ih => simpa [List.replicate_succ, isThread] using ih
  have fs' : ∀ k, (List.replicate k (Step.store : Step n V)).filter (fun x => !isThread x) = [] := by
    intro k; induction k with
    | zero => rfl
    | succ k ih => simpa [List.replicate_succ, isThread] using ih
  refine ⟨[.copy] ++ List.replicate i.val .load ++ [.begin fun _ => z] ++ List.replicate n .store ++ List.replicate 1 .load ++ [.begin m] ++
    List.replicate n .store ++ List.replicate (n - i.val - 1) .load, ?_, ?_, ?_⟩
  · simp only [List.filter_append, fl, fs]
    simp [List.filter_cons, isThread, round]
  · simp only [List.filter_append, fl', fs']
    simp only [isThread, oneCopy, List.filter_cons, List.filter_nil, Bool.not_true, Bool.not_false, if_true, Bool.false_eq_true, if_false,
      List.append_nil, List.cons_append, List.append_assoc, ← List.replicate_add]
    simp only [List.nil_append, ← List.replicate_add]
    congr 2
    have := i.isLt
    omega
  · have hi := i.isLt
    have hb : ∀ (t : St n V) (x : Fin n → V), t.w = n → run t [Step.begin x] = { t with msg := x, w := 0 } :=
      fun t x ht => by simp [run, step, ht]
    simp only [run_append]
    rw [show run s [Step.copy] = { s with r := 0 } by simp [run, step, hr]]
    rw [loads i.val _ (by simp only []; omega)]
    simp only []
    have e1 := hb { s with out := fun j => if 0 ≤ j.val ∧ j.val < 0 + i.val then s.vec j else s.out j, r := 0 + i.val } (fun _ => z) hw
    simp only [] at e1
    rw [e1]
    have e2 := stores n (⟨s.vec, fun _ => z, 0, fun j => if 0 ≤ j.val ∧ j.val < 0 + i.val then s.vec j else s.out j, 0 + i.val⟩ : St n V) (by simp)
    rw [e2]
    simp only []
    have e3 := loads 1 (⟨fun j => if 0 ≤ j.val ∧ j.val < 0 + n then z else s.vec j, fun _ => z, 0 + n,
      fun j => if 0 ≤ j.val ∧ j.val < 0 + i.val then s.vec j else s.out j, 0 + i.val⟩ : St n V) (by simp only []; omega)
    rw [e3, hb _ m (by simp)]
    simp only []
    rw [stores n _ (by simp), loads (n - i.val - 1) _ (by simp only []; omega)]
    refine ⟨by simp only []; omega, by simp, by funext j; simp, fun j => ?_⟩
    have hj := j.isLt
    simp only [Fin.lt_def, Fin.ext_iff]
    by_cases h1 : j.val < i.val
    · rw [if_neg (by omega), if_neg (by omega), if_pos (by omega), if_pos h1]
    · by_cases h2 : j.val = i.val
      · rw [if_neg (by omega), if_pos (by omega), if_pos (by omega), if_neg h1, if_pos h2]
      · rw [if_pos (by omega), if_pos (by omega), if_neg h1, if_neg h2]

/-- Also a copy of zeros only is possible, for every scan. -/
theorem all_zero_violated (z : V) (s : St n V) (hw : s.w = n) (hr : s.r = n) (m : Fin n → V) :
    ∃ l, l.filter isThread <+: round z m ∧ (l.filter fun x => !isThread x) = oneCopy ∧ (run s l).r = n ∧ ∀ j, (run s l).out j = z := by
  have fl : ∀ k, (List.replicate k (Step.load : Step n V)).filter isThread = [] := by
    intro k; induction k with
    | zero => rfl
    | succ k ih => simpa [List.replicate_succ, isThread] using ih
  have fl' : ∀ k, (List.replicate k (Step.load : Step n V)).filter (fun x => !isThread x) = List.replicate k .load := by
    intro k; induction k with
    | zero => rfl
    | succ k ih => simpa [List.replicate_succ, isThread] using ih
  have fs : ∀ k, (List.replicate k (Step.store : Step n V)).filter isThread = List.replicate k .store := by
    intro k; induction k with
    | zero => rfl
    | succ k ih => simpa [List.replicate_succ, isThread] using ih
  have fs' : ∀ k, (List.replicate k (Step.store : Step n V)).filter (fun x => !isThread x) = [] := by
    intro k; induction k with
    | zero => rfl
    | succ k ih => simpa [List.replicate_succ, isThread] using ih
  refine ⟨[.begin fun _ => z] ++ List.replicate n .store ++ [.copy] ++ List.replicate n .load, ?_, ?_, ?_⟩
  · simp only [List.filter_append, fl, fs]
    simp only [isThread, List.filter_cons, List.filter_nil, if_true, Bool.false_eq_true, if_false, List.append_nil]
    exact ⟨.begin m :: List.replicate n .store, by simp [round]⟩
  · simp only [List.filter_append, fl', fs']
    simp [isThread, oneCopy]
  · simp only [run_append]
    rw [show run s [Step.begin fun _ => z] = { s with msg := fun _ => z, w := 0 } by simp [run, step, hw]]
    rw [stores n _ (by simp)]
    rw [show ∀ t : St n V, t.r = n → run t [Step.copy] = { t with r := 0 } from fun t ht => by simp [run, step, ht]]
    swap
    · exact hr
    rw [loads n _ (by simp)]
    exact ⟨by simp, fun j => by simp⟩

section
variable {K : Type} [Field K] [LinearOrder K] [IsStrictOrderedRing K]

/-- No scan contains the range zero (`none` is infinity): the zeros of `phantom_violated` were never measured. -/
theorem no_zero (nodes : List RPLidar.Node) (o : RPLidar.Out K) (h : RPLidar.process nodes = some o) (i : Nat) : o.ranges i ≠ some 0 := by
  have ho : o.ranges i = (nodes[i]?).bind RPLidar.range := by
    unfold RPLidar.process at h
    simp only [Option.bind_eq_bind, Option.bind_eq_some_iff] at h
    obtain ⟨_, _, _, _, h⟩ := h
    cases h; rfl
  rw [ho]
  cases nodes[i]? with
  | none => simp
  | some x =>
    show RPLidar.range x ≠ some 0
    unfold RPLidar.range
    simp only
    split
    · simp
    · rename_i hc
      intro e
      rw [Option.some.inj e] at hc
      norm_num at hc
end

/-- Three beams: before (1, 2, 3), then (4, 5, 6); the copy is (1, 0, 6). -/
example : ∃ l, l.filter isThread = round 0 (![4, 5, 6] : Fin 3 → Nat) ∧ (run (new ![1, 2, 3]) l).r = 3 ∧
    (run (new ![1, 2, 3]) l).out = ![1, 0, 6] := by
  obtain ⟨l, h1, _, h2, _, _, h3⟩ := phantom_violated 0 (new (![1, 2, 3] : Fin 3 → Nat)) rfl rfl ![4, 5, 6] 1
  refine ⟨l, h1, h2, ?_⟩
  funext j
  rw [h3]
  fin_cases j <;> rfl

/-- And a copy which is not disturbed. -/
example : (run (new (![1, 2, 3] : Fin 3 → Nat)) (round 0 ![4, 5, 6] ++ oneCopy)).out = ![4, 5, 6] := by decide +kernel

example : Delivers 0 [![4, 5, 6]] (round 0 (![4, 5, 6] : Fin 3 → Nat) ++ oneCopy) := by
  refine ⟨[], ?_⟩
  simp [round, oneCopy, isThread, List.replicate, List.filter_cons]

example : ((RPLidar.process [⟨0, 8000, 40⟩, ⟨100, 0, 0⟩] : Option (RPLidar.Out ℚ)).map fun o => (o.ranges 0, o.ranges 1)) = some (some 2, none) := by
  decide +kernel

/-- Case of `elements_partial`. -/
example := elements_partial 0 (![1, 2, 3] : Fin 3 → Nat) [![4, 5, 6]] (round 0 (![4, 5, 6] : Fin 3 → Nat) ++ oneCopy) (by
  refine ⟨[], ?_⟩
  simp [round, oneCopy, isThread, List.replicate, List.filter_cons]) 1

end Verif.Hal.LidarCopy
