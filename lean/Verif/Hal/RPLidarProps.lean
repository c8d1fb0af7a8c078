import Verif.Hal.RPLidar
import Mathlib.Algebra.Order.Ring.Abs
import Mathlib.Data.Rat.Cast.Order
import Mathlib.Algebra.Order.Ring.Rat
import Mathlib.Tactic.Linarith
import Mathlib.Tactic.NormNum
import Mathlib.Tactic.Ring
import Mathlib.Tactic.Positivity
namespace Verif.Hal.RPLidar
set_option linter.unusedSectionVars false
variable {K : Type} [Field K] [LinearOrder K] [IsStrictOrderedRing K]

/-! ### C90: a scan is delivered as measured -/

theorem scanUp_isSome (nodes : List Node) (fuel i : Nat) (hf : nodes.length < i + fuel) :
    (scanUp nodes fuel i).isSome ↔ ∃ n ∈ nodes.drop i, n.dist ≠ 0 := by
  induction fuel generalizing i with
  | zero => simp [scanUp, List.drop_eq_nil_of_le (show nodes.length ≤ i by omega)]
  | succ f ih =>
    unfold scanUp
    rcases h : nodes[i]? with _ | n
    · have := List.getElem?_eq_none_iff.1 h
      simp [List.drop_eq_nil_of_le this]
    · obtain ⟨hi, rfl⟩ := List.getElem?_eq_some_iff.1 h
      rw [List.drop_eq_getElem_cons hi]
      by_cases h0 : nodes[i].dist = 0
      · simp only [h0, if_true, List.mem_cons]
        rw [ih (i + 1) (by omega)]
        constructor
        · rintro ⟨n, h1, h2⟩; exact ⟨n, .inr h1, h2⟩
        · rintro ⟨n, rfl | h1, h2⟩
          · exact absurd h0 h2
          · exact ⟨n, h1, h2⟩
      · simp only [h0, if_false, Option.isSome_some, List.mem_cons, true_iff]
        exact ⟨_, .inl rfl, h0⟩

theorem scanDown_isSome (nodes : List Node) (i : Nat) (hi : i ≤ nodes.length) :
    (scanDown nodes i).isSome ↔ ∃ n ∈ nodes.take i, n.dist ≠ 0 := by
  induction i with
  | zero => simp [scanDown]
  | succ i ih =>
    unfold scanDown
    rw [List.getElem?_eq_getElem (by omega), List.take_succ_eq_append_getElem (by omega)]
    by_cases h0 : nodes[i].dist = 0
    · simp only [h0, if_true, List.mem_append, List.mem_singleton]
      rw [ih (by omega)]
      constructor
      · rintro ⟨n, h1, h2⟩; exact ⟨n, .inl h1, h2⟩
      · rintro ⟨n, h1 | rfl, h2⟩
        · exact ⟨n, h1, h2⟩
        · exact absurd h0 h2
    · simp only [h0, if_false, Option.isSome_some, List.mem_append, List.mem_singleton, true_iff]
      exact ⟨_, .inr rfl, h0⟩

/-- **C90.** A scan is processed without reading outside the scan if and only if some distance is not zero. -/
theorem defined_iff (nodes : List Node) : (process (K := K) nodes).isSome ↔ ∃ n ∈ nodes, n.dist ≠ 0 := by
  have h1 := scanUp_isSome nodes (nodes.length + 1) 0 (by omega)
  have h2 := scanDown_isSome nodes nodes.length le_rfl
  rw [List.drop_zero] at h1
  rw [List.take_length] at h2
  rw [← h1]
  unfold process
  rcases e1 : scanUp nodes (nodes.length + 1) 0 with _ | a
  · simp
  · rcases e2 : scanDown nodes nodes.length with _ | b
    · rw [e1] at h1; rw [e2] at h2
      exact absurd (h2.2 (h1.1 rfl)) (by simp)
    · simp

/-- **C90, violated.** A scan in which nothing was measured (all distances are zero, for example if the room is larger than the range of
the scanner, or an empty scan) reads outside of the array. -/
theorem nothing_in_range_violated (s : Out K) (nodes : List Node) (h : ∀ n ∈ nodes, n.dist = 0) (l : List Answer) :
    run s (.ok nodes :: l) = none := by
  have : process (K := K) nodes = none := by
    rw [← Option.not_isSome_iff_eq_none, defined_iff]
    rintro ⟨n, h1, h2⟩
    exact h2 (h n h1)
  simp [run, step, this]

example : ∀ n ∈ ([⟨0, 0, 0⟩, ⟨200, 0, 0⟩] : List Node), n.dist = 0 := by decide

/-- **C90 (partial).** Range `i` is the distance of node `i` in metres (a quarter of a millimetre per unit), infinite below one
centimetre and behind the scan; the intensity is the quality without its two flags; a unit of the angle is 90/16384
degrees, converted to radian with pi = 3.1415926535.  Missing: `nothing_in_range_violated`. -/
theorem values_partial (s o : Out K) (nodes : List Node) (h : step s (.ok nodes) = some o) (i : Nat) :
    (∀ n, nodes[i]? = some n → (40 ≤ n.dist → o.ranges i = some ((n.dist : K) / 4000)) ∧ (n.dist < 40 → o.ranges i = none) ∧
      o.intensities i = some ((n.quality / 4 : Nat) : K) ∧
      o.angles i = some ((n.angle : K) * (90 / 16384) * (31415926535 / 10000000000 / 180))) ∧
    (nodes.length ≤ i → o.ranges i = none ∧ o.intensities i = none ∧ o.angles i = none) := by
  have ho : o = { ranges := fun i => (nodes[i]?).bind range
                  intensities := fun i => (nodes[i]?).map fun n => ((n.quality >>> 2 : Nat) : K)
                  angles := fun i => (nodes[i]?).map fun n => (n.angle : K) * 90 / 16384 * (31415926535 / 10000000000) / 180 } := by
    have hp : process nodes = some o := h
    unfold process at hp
    rcases e1 : scanUp nodes (nodes.length + 1) 0 with _ | a
    · simp [e1] at hp
    · rcases e2 : scanDown nodes nodes.length with _ | b
      · simp [e1, e2] at hp
      · simpa [e1, e2] using hp.symm
  subst ho
  constructor
  · intro n hn
    have hv : (n.dist : K) / 4 / 1000 = (n.dist : K) / 4000 := by ring
    have hpos : (0 : K) ≤ (n.dist : K) / 4000 := by positivity
    refine ⟨fun hd => ?_, fun hd => ?_, ?_, ?_⟩
    · have : (40 : K) ≤ n.dist := by exact_mod_cast hd
      simp only [hn, Option.bind_some, range, hv, abs_of_nonneg hpos]
      rw [if_neg]
      rw [not_lt, div_le_div_iff₀ (by norm_num) (by norm_num)]
      linarith
    · have : (n.dist : K) < 40 := by exact_mod_cast hd
      simp only [hn, Option.bind_some, range, hv, abs_of_nonneg hpos]
      rw [if_pos]
      rw [div_lt_div_iff₀ (by norm_num) (by norm_num)]
      linarith
    · simp [hn, Nat.shiftRight_eq_div_pow]
    · simp only [hn, Option.map_some, Option.some.injEq]; ring
  · intro hi
    simp [List.getElem?_eq_none hi]

/-- **C90.** Failed scans leave the outputs as they are: after any sequence of scans the outputs are those of the last good one. -/
theorem last_scan (s o : Out K) (l : List Answer) (nodes : List Node) (k : Nat)
    (h : run s (l ++ .ok nodes :: List.replicate k .error) = some o) : process nodes = some o := by
  have herr : ∀ (k : Nat) (s : Out K), run s (List.replicate k .error) = some s := by
    intro k
    induction k with
    | zero => intro s; rfl
    | succ k ih => intro s; simp [List.replicate_succ, run, step, ih]
  induction l generalizing s with
  | nil =>
    simp only [List.nil_append, run, step] at h
    rcases e : process (K := K) nodes with _ | p
    · simp [e] at h
    · simpa [e, herr] using h
  | cons a l ih =>
    simp only [List.cons_append, run] at h
    rcases e : step s a with _ | p
    · simp [e] at h
    · rw [e] at h; exact ih p h

/-- A scan of three nodes. -/
example : ∃ o : Out ℚ, process [⟨0, 0, 0⟩, ⟨16384, 4000, 188⟩, ⟨20000, 39, 4⟩] = some o ∧ o.ranges 1 = some 1 ∧ o.ranges 2 = none ∧
    o.intensities 1 = some 47 ∧ o.ranges 3 = none := by
  refine ⟨_, rfl, ?_, ?_, ?_, ?_⟩ <;> decide +kernel

end Verif.Hal.RPLidar
