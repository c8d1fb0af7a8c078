/-
C60, C78: the z transfer function block.
-/
import Verif.Control.ZTransfer
import Verif.Math.FractionProps
import Mathlib.Tactic.Linarith
import Mathlib.Tactic.LinearCombination
import Mathlib.Tactic.NormNum

set_option linter.unusedSectionVars false

namespace Verif.Control.ZTransfer
open Verif.Math.Fraction
variable {K : Type} [Field K] {n m : Nat}

/-! ### Specification -/

/-- A polynomial in `z⁻¹` applied to a sequence: `∑ p_i y_{k-i}`. -/
def filt (p : Poly n K) (y : Int → K) (k : Int) : K := ∑ i : Fin (n + 1), p.c i * y (k - (i : Nat))

/-- The sequence `x 0, x 1, ...` preceded by `..., a 2, a 1`. -/
def after (a : Fin (n + 1) → K) (x : Nat → K) (k : Int) : K :=
  match k with
  | .ofNat k => x k
  | .negSucc j => if h : j + 1 < n + 1 then a ⟨j + 1, h⟩ else 0

/-- The sequence preceded by zeros. -/
def fromZero (x : Nat → K) (k : Int) : K := match k with | .ofNat k => x k | .negSucc _ => 0

/-! ### One run -/

theorem shift_spec (a b : K) (k : Nat) (hk : k ≤ n + 1) (s : St n K) :
    shift (some a) (some b) k s = some
      { lastIn := fun i => if (i : Nat) < k then (if _h : (i : Nat) = 0 then a else s.lastIn ⟨i - 1, by omega⟩) else s.lastIn i
        lastOut := fun i => if (i : Nat) < k then (if _h : (i : Nat) = 0 then b else s.lastOut ⟨i - 1, by omega⟩) else s.lastOut i } := by
  induction k generalizing s with
  | zero => simp [shift]
  | succ k ih =>
    have r : ∀ (o : K) (c : Fin (n + 1) → K),
        rd (some o) c ((k : Int) - 1) = some (if h : k = 0 then o else c ⟨k - 1, by omega⟩) := by
      intro o c
      unfold rd
      by_cases h : k = 0
      · subst h; simp
      · rw [dif_pos (by omega), dif_neg h]
        congr 3
        omega
    rw [shift, r]
    simp only [Option.bind_eq_bind, Option.bind_some]
    rw [r]
    simp only [Option.bind_some]
    rw [ih (by omega)]
    congr 2
    all_goals
      funext i
      by_cases h1 : (i : Nat) < k
      · rw [if_pos h1, if_pos (by omega)]
        by_cases h2 : (i : Nat) = 0
        · simp [h2]
        · simp only [h2, dite_false, wr]
          rw [if_neg (by omega)]
      · rw [if_neg h1]
        by_cases h2 : (i : Nat) = k
        · rw [if_pos (by omega)]
          simp only [wr, h2, if_true]
        · rw [if_neg (by omega)]
          simp only [wr, h2, if_false]

/-- The arrays after a run. -/
def next (a : Fin (n + 1) → K) (x o : K) : Fin (n + 1) → K :=
  fun i => if h : (i : Nat) = 0 then o else if (i : Nat) = 1 then x else a ⟨i - 1, by omega⟩

theorem run_spec (a b : K) (f : Frac n K) (s : St n K) (x : K) :
    run (some a) (some b) f s x =
      some ({ lastIn := next s.lastIn x a, lastOut := next s.lastOut (value f s x) b }, value f s x) := by
  have hv : value f { s with lastIn := wr s.lastIn 0 x } x = value f s x := by
    simp [value, wr]
  unfold run
  simp only [Option.bind_eq_bind]
  rw [shift_spec a b (n + 1) le_rfl, hv]
  simp only [Option.bind_some, Option.pure_def]
  congr 3
  all_goals
    funext i
    rw [if_pos i.2, next]
    by_cases h : (i : Nat) = 0
    · simp [h]
    · simp only [h, dite_false, wr]
      by_cases h1 : (i : Nat) = 1
      · rw [if_pos (by omega), if_pos h1]
      · rw [if_neg (by omega), if_neg h1]

theorem foldl_sum (l : List (Fin n)) (g : Fin n → K) (c : K) : l.foldl (fun acc i => acc + g i) c = c + (l.map g).sum := by
  induction l generalizing c with
  | nil => simp
  | cons a l ih => rw [List.foldl_cons, ih, List.map_cons, List.sum_cons, add_assoc]

theorem value_eq (f : Frac n K) (ha : f.den.c 0 ≠ 0) (s : St n K) (x : K) :
    f.den.c 0 * value f s x + ∑ i : Fin n, f.den.c i.succ * s.lastOut i.succ =
      f.num.c 0 * x + ∑ i : Fin n, f.num.c i.succ * s.lastIn i.succ := by
  unfold value
  rw [foldl_sum, sum_finRange, mul_div_cancel₀ _ ha, Finset.sum_sub_distrib]
  have h1 : ∑ i : Fin n, s.lastIn i.succ * f.num.c i.succ = ∑ i : Fin n, f.num.c i.succ * s.lastIn i.succ :=
    Finset.sum_congr rfl fun i _ => mul_comm ..
  have h2 : ∑ i : Fin n, s.lastOut i.succ * f.den.c i.succ = ∑ i : Fin n, f.den.c i.succ * s.lastOut i.succ :=
    Finset.sum_congr rfl fun i _ => mul_comm ..
  rw [h1, h2]; ring

/-! ### The difference equation -/

/-- Before run `k` the arrays hold the past, except at index 0. -/
def Past (s s0 : St n K) (x y : Nat → K) (k : Nat) : Prop :=
  ∀ i : Fin (n + 1), (i : Nat) ≠ 0 → s.lastIn i = after s0.lastIn x ((k : Int) - (i : Nat)) ∧
    s.lastOut i = after s0.lastOut y ((k : Int) - (i : Nat))

theorem after_nat (a : Fin (n + 1) → K) (x : Nat → K) (k : Nat) : after a x (k : Int) = x k := rfl

theorem after_neg (a : Fin (n + 1) → K) (x : Nat → K) (i : Fin (n + 1)) (h : (i : Nat) ≠ 0) : after a x (-((i : Nat) : Int)) = a i := by
  obtain ⟨i, hi⟩ := i
  cases i with
  | zero => simp at h
  | succ j =>
    show after a x (Int.negSucc j) = _
    rw [after, dif_pos hi]

theorem past_zero (s0 : St n K) (x y : Nat → K) : Past s0 s0 x y 0 := by
  intro i hi
  simp only [Nat.cast_zero, zero_sub, after_neg _ _ i hi, and_self]

theorem next_past (a0 a : Fin (n + 1) → K) (x : Nat → K) (k : Nat) (o : K)
    (h : ∀ i : Fin (n + 1), (i : Nat) ≠ 0 → a i = after a0 x ((k : Int) - (i : Nat))) (i : Fin (n + 1)) (hi : (i : Nat) ≠ 0) :
    next a (x k) o i = after a0 x (((k + 1 : Nat) : Int) - (i : Nat)) := by
  rw [next, dif_neg hi]
  by_cases h1 : (i : Nat) = 1
  · rw [if_pos h1, h1, show (((k + 1 : Nat) : Int) - ((1 : Nat) : Int)) = (k : Int) by push_cast; ring]
    rfl
  · rw [if_neg h1, h ⟨i - 1, by omega⟩ (by simp only; omega)]
    congr 1
    simp only
    omega

theorem past_filt (p : Poly n K) (a0 a : Fin (n + 1) → K) (x : Nat → K) (k : Nat)
    (h : ∀ i : Fin (n + 1), (i : Nat) ≠ 0 → a i = after a0 x ((k : Int) - (i : Nat))) :
    filt p (after a0 x) k = p.c 0 * x k + ∑ i : Fin n, p.c i.succ * a i.succ := by
  unfold filt
  rw [Fin.sum_univ_succ]
  have h1 : after a0 x ((k : Int) - ((0 : Fin (n + 1)) : Nat)) = x k := by simp [after_nat]
  rw [h1]
  congr 1
  refine Finset.sum_congr rfl fun i _ => ?_
  rw [h i.succ (by simp)]

theorem states_past (oob : Nat → K × K) (f : Frac n K) (s0 : St n K) (x : Nat → K) :
    ∃ y : Nat → K, (∀ k, output (fun k => (some (oob k).1, some (oob k).2)) f s0 x k = some (y k)) ∧
      ∀ k, ∃ s, states (fun k => (some (oob k).1, some (oob k).2)) f s0 x k = some s ∧ Past s s0 x y k ∧ y k = value f s (x k) := by
  have hex : ∀ k, ∃ s, states (fun k => (some (oob k).1, some (oob k).2)) f s0 x k = some s := by
    intro k
    induction k with
    | zero => exact ⟨_, rfl⟩
    | succ k ih =>
      obtain ⟨s, hs⟩ := ih
      exact ⟨_, by rw [states, hs, Option.bind_some, run_spec]; rfl⟩
  choose st hst using hex
  refine ⟨fun k => value f (st k) (x k), fun k => ?_, fun k => ⟨st k, hst k, ?_, rfl⟩⟩
  · rw [output, hst k, Option.bind_some, run_spec]; rfl
  · induction k with
    | zero =>
      have : st 0 = s0 := by have := hst 0; simpa [states] using this.symm
      rw [this]
      exact past_zero _ _ _
    | succ k ih =>
      have h2 := hst (k + 1)
      rw [states, hst k, Option.bind_some, run_spec] at h2
      simp only [Option.map_some, Option.some.injEq] at h2
      rw [← h2]
      intro i hi
      exact ⟨next_past _ _ _ _ _ (fun j hj => (ih j hj).1) i hi,
        next_past _ _ (fun k => value f (st k) (x k)) k _ (fun j hj => (ih j hj).2) i hi⟩

/-- **C60 (partial)** Provided that reading one element before the arrays is harmless, whatever is read there: every output exists and the outputs satisfy the
difference equation `∑ a_i y_{k-i} = ∑ b_i x_{k-i}` for every `k`, where the values before the start are what happened to be in memory.
Missing: the language gives no meaning to the reads (`run_undefined`), and the memory is not zero (`any_first_output`). -/
theorem difference_equation_partial (oob : Nat → K × K) (f : Frac n K) (ha : f.den.c 0 ≠ 0) (s0 : St n K) (x : Nat → K) :
    ∃ y : Nat → K, (∀ k, output (fun k => (some (oob k).1, some (oob k).2)) f s0 x k = some (y k)) ∧
      ∀ k : Nat, filt f.den (after s0.lastOut y) k = filt f.num (after s0.lastIn x) k := by
  obtain ⟨y, h1, h2⟩ := states_past oob f s0 x
  refine ⟨y, h1, fun k => ?_⟩
  obtain ⟨s, _, hp, hy⟩ := h2 k
  rw [past_filt f.den _ _ _ k (fun i hi => (hp i hi).2), past_filt f.num _ _ _ k (fun i hi => (hp i hi).1), hy]
  exact value_eq f ha s (x k)

/-- **C60 violated**: every run of every transfer function reads outside of its arrays, so its behaviour is undefined. -/
theorem run_undefined (f : Frac n K) (s : St n K) (x : K) : run none none f s x = none := by
  have h : ∀ k (s : St n K), 1 ≤ k → k ≤ n + 1 → shift none none k s = none := by
    intro k
    induction k with
    | zero => intro s h; omega
    | succ k ih =>
      intro s _ hk
      rw [shift]
      by_cases h0 : k = 0
      · subst h0; simp [rd]
      · simp only [Option.bind_eq_bind]
        cases rd none s.lastIn ((k : Int) - 1) with
        | none => rfl
        | some v =>
          simp only [Option.bind_some]
          cases rd none s.lastOut ((k : Int) - 1) with
          | none => rfl
          | some w => exact ih _ (by omega) (by omega)
  unfold run
  simp only [Option.bind_eq_bind]
  rw [h (n + 1) _ (by omega) le_rfl]
  rfl

/-- **C60 violated** (memory): if the second denominator coefficient is not zero, then for every input and every value there is a content of the uninitialised
arrays with which the first output is this value. -/
theorem any_first_output (oob : Nat → K × K) (f : Frac (n + 1) K) (ha : f.den.c 0 ≠ 0) (h1 : f.den.c 1 ≠ 0) (x : Nat → K) (v : K) :
    ∃ s0, output (fun k => (some (oob k).1, some (oob k).2)) f s0 x 0 = some v := by
  refine ⟨⟨fun _ => 0, fun i => if i = 1 then (f.num.c 0 * x 0 - f.den.c 0 * v) / f.den.c 1 else 0⟩, ?_⟩
  rw [output, states, Option.bind_some, run_spec]
  simp only [Option.map_some, Option.some.injEq]
  have := value_eq f ha ⟨fun _ => 0, fun i => if i = 1 then (f.num.c 0 * x 0 - f.den.c 0 * v) / f.den.c 1 else 0⟩ (x 0)
  have hs : ∀ i : Fin (n + 1), (i.succ = (1 : Fin (n + 1 + 1))) ↔ i = 0 := by
    intro i
    rw [← Fin.succ_zero_eq_one, Fin.succ_inj]
  simp only [hs, mul_ite, mul_zero, Finset.sum_ite_eq', Finset.mem_univ, if_true, Finset.sum_const_zero, add_zero] at this
  rw [Fin.succ_zero_eq_one, mul_div_cancel₀ _ h1] at this
  have h : f.den.c 0 * value f ⟨fun _ => 0, fun i => if i = 1 then (f.num.c 0 * x 0 - f.den.c 0 * v) / f.den.c 1 else 0⟩ (x 0)
      = f.den.c 0 * v := by linear_combination this
  exact mul_left_cancel₀ ha h

/-! ### Algebra of transfer functions -/

theorem filt_addAt (p : Poly n K) (j : Fin (n + 1)) (v : K) (y : Int → K) (k : Int) :
    filt (p.addAt j v) y k = filt p y k + v * y (k - (j : Nat)) := by
  unfold filt Poly.addAt
  have : ∀ i : Fin (n+1), (if i = j then p.c i + v else p.c i) * y (k - (i : Nat)) =
      p.c i * y (k - (i : Nat)) + (if i = j then v * y (k - (j : Nat)) else 0) := by
    intro i
    by_cases h : i = j
    · subst h; simp; ring
    · simp [h]
  simp only [this, Finset.sum_add_distrib, Finset.sum_ite_eq', Finset.mem_univ, if_true]

theorem filt_foldl (l : List (Fin m)) (j : Fin m → Fin (n + 1)) (v : Fin m → K) (y : Int → K) (k : Int) :
    ∀ p : Poly n K, filt (l.foldl (fun r i => r.addAt (j i) (v i)) p) y k =
      filt p y k + (l.map fun i => v i * y (k - (j i : Nat))).sum := by
  induction l with
  | nil => intro p; simp
  | cons a l ih =>
    intro p
    rw [List.foldl_cons, ih, filt_addAt, List.map_cons, List.sum_cons, add_assoc]

theorem filt_zero (y : Int → K) (k : Int) : filt (Poly.zero : Poly n K) y k = 0 := by simp [filt, Poly.zero]

/-- A product acts as one factor after the other. -/
theorem filt_mul (p : Poly n K) (q : Poly m K) (y : Int → K) (k : Int) : filt (p.mul q) y k = filt p (filt q y) k := by
  unfold Poly.mul
  have : ∀ (l : List (Fin (n+1))) (r : Poly (n+m) K),
      filt (l.foldl (fun r (i : Fin (n+1)) => (List.finRange (m + 1)).foldl
        (fun r (j : Fin (m+1)) => r.addAt ⟨i + j, by omega⟩ (p.c i * q.c j)) r) r) y k =
      filt r y k + (l.map fun i => p.c i * filt q y (k - (i : Nat))).sum := by
    intro l
    induction l with
    | nil => intro r; simp
    | cons a l ih =>
      intro r
      rw [List.foldl_cons, ih, filt_foldl, List.map_cons, List.sum_cons, ← add_assoc]
      congr 2
      rw [sum_finRange, filt, Finset.mul_sum]
      refine Finset.sum_congr rfl fun j _ => ?_
      rw [← mul_assoc]
      congr 2
      push_cast
      ring
  rw [this, filt_zero, zero_add, sum_finRange]
  rfl

theorem filt_comm (p : Poly n K) (q : Poly m K) (y : Int → K) : filt p (filt q y) = filt q (filt p y) := by
  funext k
  unfold filt
  simp only [Finset.mul_sum]
  rw [Finset.sum_comm]
  refine Finset.sum_congr rfl fun i _ => Finset.sum_congr rfl fun j _ => ?_
  rw [show k - ((j : Nat) : Int) - ((i : Nat) : Int) = k - ((i : Nat) : Int) - ((j : Nat) : Int) by ring]
  ring

theorem filt_smul (p : Poly n K) (c : K) (y : Int → K) (k : Int) : filt (p.smul c) y k = filt p y k * c := by
  unfold Poly.smul
  rw [filt_foldl _ (fun i => i) (fun i => p.c i * c), filt_zero, zero_add, sum_finRange, filt, Finset.sum_mul]
  exact Finset.sum_congr rfl fun i _ => by ring

theorem filt_seq_add (p : Poly n K) (y z : Int → K) (k : Int) : filt p (fun k => y k + z k) k = filt p y k + filt p z k := by
  unfold filt
  rw [← Finset.sum_add_distrib]
  exact Finset.sum_congr rfl fun i _ => by ring

theorem filt_seq_mul (p : Poly n K) (y : Int → K) (c : K) (k : Int) : filt p (fun k => y k * c) k = filt p y k * c := by
  unfold filt
  rw [Finset.sum_mul]
  exact Finset.sum_congr rfl fun i _ => by ring

theorem add_same (p q : Poly n K) (i : Fin (n + 1)) (h : (i : Nat) < max n n + 1) : (p.add q).c ⟨i, h⟩ = p.c i + q.c i := by
  simp [Poly.add]

theorem filt_congr_add (r p q : Poly n K) (h : ∀ i, r.c i = p.c i + q.c i) (y : Int → K) (k : Int) :
    filt r y k = filt p y k + filt q y k := by
  unfold filt
  rw [← Finset.sum_add_distrib]
  exact Finset.sum_congr rfl fun i _ => by rw [h]; ring

theorem filt_neg (p : Poly n K) (x : Nat → K) (k : Int) (hk : k < 0) : filt p (fromZero x) k = 0 := by
  unfold filt
  refine Finset.sum_eq_zero fun i _ => ?_
  have : k - ((i : Nat) : Int) < 0 := by omega
  obtain ⟨j, hj⟩ := Int.eq_negSucc_of_lt_zero this
  rw [hj]
  simp [fromZero]

/-- Specification: a block with the transfer function `f`, started with zeros in its memory, turns the input sequence `x` into `y`, whatever is found
in front of its arrays. -/
def Maps (f : Frac n K) (x y : Nat → K) : Prop :=
  ∀ oob : Nat → K × K, ∀ k, output (fun k => (some (oob k).1, some (oob k).2)) f ⟨fun _ => 0, fun _ => 0⟩ x k = some (y k)

theorem after_zero (x : Nat → K) : after (fun _ : Fin (n + 1) => (0 : K)) x = fromZero x := by
  funext k
  cases k with
  | ofNat k => rfl
  | negSucc j => simp [after, fromZero]

/-- A difference equation has one solution. -/
theorem unique (a : Poly n K) (ha : a.c 0 ≠ 0) (y z : Nat → K)
    (h : ∀ k : Nat, filt a (fromZero y) k = filt a (fromZero z) k) (k : Nat) : y k = z k := by
  induction k using Nat.strong_induction_on with
  | _ k ih =>
    have := h k
    unfold filt at this
    rw [Fin.sum_univ_succ, Fin.sum_univ_succ] at this
    have hs : ∑ i : Fin n, a.c i.succ * fromZero y ((k : Int) - (i.succ : Nat)) =
        ∑ i : Fin n, a.c i.succ * fromZero z ((k : Int) - (i.succ : Nat)) := by
      refine Finset.sum_congr rfl fun i _ => ?_
      congr 1
      generalize hd : (k : Int) - ((i.succ : Fin (n + 1)) : Nat) = d
      have hi : ((i.succ : Fin (n + 1)) : Nat) = i + 1 := by simp
      cases d with
      | ofNat d => exact ih d (by rw [hi] at hd; simp only [Int.ofNat_eq_natCast] at hd; omega)
      | negSucc d => rfl
    rw [hs] at this
    have h0 : (k : Int) - ((0 : Fin (n + 1)) : Nat) = (k : Int) := by simp
    rw [h0] at this
    exact mul_left_cancel₀ ha (add_right_cancel this)

/-- `Maps` is the difference equation with zeros before the start. -/
theorem maps_iff (f : Frac n K) (ha : f.den.c 0 ≠ 0) (x y : Nat → K) :
    Maps f x y ↔ filt f.den (fromZero y) = filt f.num (fromZero x) := by
  constructor
  · intro h
    obtain ⟨y', h1, h2⟩ := difference_equation_partial (fun _ => (0, 0)) f ha ⟨fun _ => 0, fun _ => 0⟩ x
    have : y' = y := by
      funext k
      have := h1 k
      rw [h (fun _ => (0, 0)) k] at this
      exact (Option.some.inj this).symm
    rw [this] at h2
    simp only [after_zero] at h2
    funext k
    cases k with
    | ofNat k => exact h2 k
    | negSucc k => rw [filt_neg _ _ _ (Int.negSucc_lt_zero k), filt_neg _ _ _ (Int.negSucc_lt_zero k)]
  · intro h oob k
    obtain ⟨y', h1, h2⟩ := difference_equation_partial oob f ha ⟨fun _ => 0, fun _ => 0⟩ x
    simp only [after_zero] at h2
    rw [h1 k, unique f.den ha y' y (fun k => by rw [h2 k, h]) k]

theorem mul_c_zero (p : Poly n K) (q : Poly m K) : (p.mul q).c 0 = p.c 0 * q.c 0 := by
  have h := eval_mul p q 0
  have e : ∀ {j : Nat} (r : Poly j K), r.eval 0 = r.c 0 := by
    intro j r
    unfold Poly.eval
    rw [Fin.sum_univ_succ]
    simp
  rwa [e, e, e] at h

/-- **C78** (parallel) The sum of two transfer functions is the sum of the two blocks. -/
theorem parallel (f : Frac n K) (g : Frac m K) (hf : f.den.c 0 ≠ 0) (hg : g.den.c 0 ≠ 0) (x u w : Nat → K)
    (hu : Maps f x u) (hw : Maps g x w) : Maps (f.add g) x (fun k => u k + w k) := by
  have hd : (f.add g).den.c 0 ≠ 0 := by
    show (f.den.mul g.den).c 0 ≠ 0
    rw [mul_c_zero]
    exact mul_ne_zero hf hg
  rw [maps_iff _ hf] at hu
  rw [maps_iff _ hg] at hw
  rw [maps_iff _ hd]
  have hz : fromZero (fun k => u k + w k) = fun k => fromZero u k + fromZero w k := by
    funext k; cases k <;> simp [fromZero]
  funext k
  rw [hz, filt_congr_add (f.add g).num (f.num.mul g.den) (f.den.mul g.num) (fun i => add_same _ _ _ _)]
  show filt (f.den.mul g.den) _ k = _
  rw [filt_seq_add, filt_mul, filt_comm, hu, filt_mul, hw, filt_mul, filt_mul, filt_comm f.num]

/-- **C78** (series) The product of two transfer functions is one block after the other. -/
theorem series (f : Frac n K) (g : Frac m K) (hf : f.den.c 0 ≠ 0) (hg : g.den.c 0 ≠ 0) (x u w : Nat → K)
    (hu : Maps f x u) (hw : Maps g u w) : Maps (f.mul g) x w := by
  have hd : (f.mul g).den.c 0 ≠ 0 := by
    show (f.den.mul g.den).c 0 ≠ 0
    rw [mul_c_zero]
    exact mul_ne_zero hf hg
  rw [maps_iff _ hf] at hu
  rw [maps_iff _ hg] at hw
  rw [maps_iff _ hd]
  funext k
  show filt (f.den.mul g.den) _ k = filt (f.num.mul g.num) _ k
  rw [filt_mul, filt_mul, hw, filt_comm, hu, filt_comm]

/-- **C78** (gain) Multiplying by a number multiplies the output. -/
theorem gain (f : Frac n K) (hf : f.den.c 0 ≠ 0) (c : K) (x u : Nat → K) (hu : Maps f x u) : Maps (f.smul c) x (fun k => u k * c) := by
  rw [maps_iff _ hf] at hu
  rw [maps_iff _ (show (f.smul c).den.c 0 ≠ 0 from hf)]
  have hz : fromZero (fun k => u k * c) = fun k => fromZero u k * c := by
    funext k; cases k <;> simp [fromZero]
  funext k
  rw [hz]
  show filt f.den _ k = filt (f.num.smul c) _ k
  rw [filt_smul, filt_seq_mul, hu]

/-- **C78** (feed-through) Adding a number adds a multiple of the input. -/
theorem feed_through (f : Frac n K) (hf : f.den.c 0 ≠ 0) (c : K) (x u : Nat → K) (hu : Maps f x u) :
    Maps (f.addC c) x (fun k => u k + x k * c) := by
  have hd : (f.addC c).den.c 0 ≠ 0 := hf
  rw [maps_iff _ hf] at hu
  rw [maps_iff _ hd]
  have hz : fromZero (fun k => u k + x k * c) = fun k => fromZero u k + fromZero x k * c := by
    funext k; cases k <;> simp [fromZero]
  funext k
  rw [hz, filt_congr_add (f.addC c).num f.num (f.den.smul c) (fun i => add_same _ _ _ _)]
  show filt f.den _ k = _
  rw [filt_seq_add, hu, filt_seq_mul, filt_smul]

/-- First order difference equations, written out. -/
theorem maps_first (b a : List K) (ha : a.getD 0 0 ≠ 0) (x y : Nat → K)
    (h0 : a.getD 0 0 * y 0 = b.getD 0 0 * x 0)
    (h : ∀ k, a.getD 0 0 * y (k + 1) + a.getD 1 0 * y k = b.getD 0 0 * x (k + 1) + b.getD 1 0 * x k) :
    Maps (Frac.ofVecs b a : Frac 1 K) x y := by
  have e : ∀ (v : List K) (i : Fin 2), (Poly.ofVec v : Poly 1 K).c i = v.getD i 0 := by
    intro v i
    unfold Poly.ofVec
    simp only
    split
    · rfl
    · rw [List.getD_eq_getElem?_getD, List.getElem?_eq_none (by omega)]; rfl
  have hd : (Frac.ofVecs b a : Frac 1 K).den.c 0 ≠ 0 := by
    show (Poly.ofVec a : Poly 1 K).c 0 ≠ 0
    rw [e]; exact ha
  rw [maps_iff _ hd]
  have hf : ∀ (v : List K) (z : Nat → K) (k : Int), filt (Poly.ofVec v : Poly 1 K) (fromZero z) k =
      v.getD 0 0 * fromZero z k + v.getD 1 0 * fromZero z (k - 1) := by
    intro v z k
    unfold filt
    rw [Fin.sum_univ_two, e, e]
    simp
  funext k
  show filt (Poly.ofVec a : Poly 1 K) _ k = filt (Poly.ofVec b : Poly 1 K) _ k
  rw [hf, hf]
  match k with
  | .ofNat 0 =>
    show a.getD 0 0 * y 0 + _ * 0 = b.getD 0 0 * x 0 + _ * 0
    rw [h0]; ring
  | .ofNat (k + 1) =>
    have : (Int.ofNat (k + 1)) - 1 = Int.ofNat k := by simp
    rw [this]
    exact h k
  | .negSucc j =>
    have : Int.negSucc j - 1 = Int.negSucc (j + 1) := by omega
    rw [this]
    simp [fromZero]

/-- **C78** (PID) Started with zeros, the block `PID(Ts, Kp, Tn, Tv, Tv1)` outputs `Kp (x + u + w)` with the sum `u` of the inputs, `Tn (u_k - u_{k-1}) = Ts x_k`, and
the filtered difference `w`, `(Ts + Tv1) w_k - Tv1 w_{k-1} = Tv (x_k - x_{k-1})`. -/
theorem pid_law (Ts Kp Tn Tv Tv1 : K) (hn : Tn ≠ 0) (h1 : Ts + Tv1 ≠ 0) (x u w : Nat → K)
    (hu0 : Tn * u 0 = Ts * x 0) (hu : ∀ k, Tn * (u (k + 1) - u k) = Ts * x (k + 1))
    (hw0 : (Ts + Tv1) * w 0 = Tv * x 0) (hw : ∀ k, (Ts + Tv1) * w (k + 1) - Tv1 * w k = Tv * (x (k + 1) - x k)) :
    Maps (PID Ts Kp Tn Tv Tv1) x (fun k => Kp * (x k + u k + w k)) := by
  have hI : Maps (I Ts Tn) x u :=
    maps_first [Ts] [Tn, -Tn] hn x u hu0 (fun k => by simp; linear_combination hu k)
  have hD : Maps (DT1 Ts Tv Tv1) x w :=
    maps_first [Tv, -Tv] [Ts + Tv1, -Tv1] h1 x w hw0 (fun k => by simp; linear_combination hw k)
  have dI : (I Ts Tn).den.c 0 ≠ 0 := by simpa [I, Frac.ofVecs, Poly.ofVec] using hn
  have dD : (DT1 Ts Tv Tv1).den.c 0 ≠ 0 := by simpa [DT1, Frac.ofVecs, Poly.ofVec] using h1
  have hS := parallel _ _ dI dD x u w hI hD
  have dS : ((I Ts Tn).add (DT1 Ts Tv Tv1)).den.c 0 ≠ 0 := by
    show ((I Ts Tn).den.mul (DT1 Ts Tv Tv1).den).c 0 ≠ 0
    rw [mul_c_zero]
    exact mul_ne_zero dI dD
  have hF := feed_through _ dS 1 x _ hS
  have hG := gain _ (show (((I Ts Tn).add (DT1 Ts Tv Tv1)).addC 1).den.c 0 ≠ 0 from dS) Kp x _ hF
  have he : (fun k => Kp * (x k + u k + w k)) = fun k => (u k + w k + x k * 1) * Kp := by
    funext k; ring
  rw [he]
  exact hG


/-- A controller with the input 1: the integral part grows by 1/2 in every step, the differential part decays. -/
example : Maps (PID (1 : ℚ) 3 2 5 1) (fun _ => 1) (fun k => 3 * (1 + ((k : ℚ) + 1) / 2 + 5 / 2 ^ (k + 1))) := by
  refine pid_law 1 3 2 5 1 (by norm_num) (by norm_num) _ _ _ (by norm_num) (fun k => by push_cast; ring) (by norm_num) (fun k => ?_)
  rw [pow_succ (2 : ℚ) (k + 1), pow_succ (2 : ℚ) k]
  field_simp
  norm_num

/-- **C78** (PT1) Started with zeros, the block `PT1(Ts, K, T1)` is the backward Euler scheme of `T1 y' + y = K x`. -/
theorem pt1_law (Ts k T1 : K) (h : Ts + T1 ≠ 0) (x y : Nat → K) (h0 : T1 * y 0 + Ts * y 0 = k * Ts * x 0)
    (hy : ∀ i, T1 * (y (i + 1) - y i) + Ts * y (i + 1) = k * Ts * x (i + 1)) : Maps (PT1 Ts k T1) x y :=
  maps_first [k * Ts] [Ts + T1, -T1] h x y (by simp; linear_combination h0)
    (fun i => by simp; linear_combination hy i)


/-- The step response of a low pass. -/
example : Maps (PT1 (1 : ℚ) 3 1) (fun _ => 1) (fun k => 3 - 3 / 2 ^ (k + 1)) := by
  refine pt1_law 1 3 1 (by norm_num) _ _ (by norm_num) (fun k => ?_)
  rw [pow_succ (2 : ℚ) (k + 1), pow_succ (2 : ℚ) k]
  field_simp
  ring

/-- **C78** (D) Started with zeros, the block `D(Ts, Tv)` outputs `Tv` times the difference quotient. -/
theorem d_law (Ts Tv : K) (h : Ts ≠ 0) (x : Nat → K) :
    Maps (D Ts Tv) x (fun k => match k with | 0 => Tv * (x 0 / Ts) | k + 1 => Tv * ((x (k + 1) - x k) / Ts)) :=
  maps_first [Tv, -Tv] [Ts] h x _ (by simp; field_simp)
    (fun i => by simp; field_simp; ring)

/-- Non-vacuity: an integrator with `Ts = 1`, `Tn = 2` and input 1, 1, 1, ... outputs 1/2, 1, 3/2, ... -/
example : Maps (I (1 : ℚ) 2) (fun _ => 1) (fun k => (k + 1) / 2) :=
  maps_first [1] [2, -2] (by norm_num) _ _ (by norm_num) (fun k => by push_cast; simp; ring)

/-- Two integrators in series: the constant 1 becomes a sum of a ramp. -/
example : Maps ((I (1 : ℚ) 2).mul (I (1 : ℚ) 1)) (fun _ => 1) (fun k => (k + 1) * (k + 2) / 4) := by
  refine series _ _ (by norm_num [I, Frac.ofVecs, Poly.ofVec]) (by norm_num [I, Frac.ofVecs, Poly.ofVec]) _ (fun k => ((k : ℚ) + 1) / 2) _ ?_ ?_
  · exact maps_first [1] [2, -2] (by norm_num) _ _ (by norm_num) (fun k => by push_cast; simp; ring)
  · exact maps_first [1] [1, -1] (by norm_num) _ _ (by norm_num) (fun k => by push_cast; simp; ring)

/-- Two integrators in parallel. -/
example : Maps ((I (1 : ℚ) 2).add (I (1 : ℚ) 1)) (fun _ => 1) (fun k => (k + 1) / 2 + (k + 1)) := by
  refine parallel _ _ (by norm_num [I, Frac.ofVecs, Poly.ofVec]) (by norm_num [I, Frac.ofVecs, Poly.ofVec]) _ _ _ ?_ ?_
  · exact maps_first [1] [2, -2] (by norm_num) _ _ (by norm_num) (fun k => by push_cast; simp; ring)
  · exact maps_first [1] [1, -1] (by norm_num) _ _ (by norm_num) (fun k => by push_cast; simp)

/-- Non-vacuity of `any_first_output`: the same integrator without initialisation may start with 1000. -/
example : ∃ s0, output (fun _ => (some 0, some 0)) (I (1 : ℚ) 2) s0 (fun _ => 0) 0 = some 1000 :=
  any_first_output (fun _ => (0, 0)) (I (1 : ℚ) 2) (by simp [I, Frac.ofVecs, Poly.ofVec]) (by simp [I, Frac.ofVecs, Poly.ofVec]) _ _

/-- Case of `gain`: three times the integrator. -/
example : Maps ((I (1 : ℚ) 2).smul 3) (fun _ => 1) (fun k => ((k : ℚ) + 1) / 2 * 3) :=
  gain _ (by norm_num [I, Frac.ofVecs, Poly.ofVec]) 3 _ _ (maps_first [1] [2, -2] (by norm_num) _ _ (by norm_num) (fun k => by push_cast; simp; ring))
/-- Case of `difference_equation_partial`: an integrator with 8 in its memory. -/
example : ∃ y : Nat → ℚ, (∀ k, output (fun _ => (some 0, some 0)) (I (1 : ℚ) 2) ⟨fun _ => 0, fun _ => 8⟩ (fun k => k) k = some (y k)) ∧
    ∀ k : Nat, filt (I (1 : ℚ) 2).den (after (n := 1) (fun _ => 8) y) k = filt (I (1 : ℚ) 2).num (after (n := 1) (fun _ => 0) fun k => (k : ℚ)) k :=
  difference_equation_partial (fun _ => (0, 0)) (I (1 : ℚ) 2) (by norm_num [I, Frac.ofVecs, Poly.ofVec]) ⟨fun _ => 0, fun _ => 8⟩ _

end Verif.Control.ZTransfer
