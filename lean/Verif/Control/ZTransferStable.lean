import Verif.Control.ZTransferProps
import Verif.Common.Error
import Mathlib.Algebra.Order.BigOperators.Group.Finset
import Mathlib.Algebra.Order.BigOperators.Ring.Finset
import Mathlib.Tactic.FieldSimp
/-!
Stability of the z transfer function block (`ZTransferFunction.hpp:61-76`): outputs stay bounded, what was in the uninitialised memory dies out or does not, and
rounding errors do not add up.
-/
set_option linter.unusedSectionVars false

namespace Verif.Control.ZTransfer
open Verif.Math.Fraction Verif.Common.Round

section Exact
variable {K : Type} [Field K] [LinearOrder K] [IsStrictOrderedRing K] {n : Nat}

/-! ### Specification -/

/-- The block with the fraction `f` and the memory `s0` turns the inputs `x` into the outputs `y`; the reads in front of the arrays give `oob`. -/
def Runs (oob : Nat → K × K) (f : Frac n K) (s0 : St n K) (x y : Nat → K) : Prop :=
  ∀ k, output (fun k => (some (oob k).1, some (oob k).2)) f s0 x k = some (y k)

/-- Sum of the absolute values of the denominator's coefficients behind the first one. -/
def tail (f : Frac n K) : K := ∑ i : Fin n, |f.den.c i.succ|

/-- Sum of the absolute values of the numerator's coefficients. -/
def weight (f : Frac n K) : K := ∑ i : Fin (n + 1), |f.num.c i|

/-! ### Lemmas -/

theorem Runs.equation {oob : Nat → K × K} {f : Frac n K} (ha : f.den.c 0 ≠ 0) {s0 : St n K} {x y : Nat → K} (h : Runs oob f s0 x y) (k : Nat) :
    filt f.den (after s0.lastOut y) k = filt f.num (after s0.lastIn x) k := by
  obtain ⟨y', h1, h2⟩ := difference_equation_partial oob f ha s0 x
  have : y' = y := by
    funext k
    have := h1 k
    rw [h k] at this
    exact (Option.some.inj this).symm
  rw [← this]
  exact h2 k

theorem Runs.exists (oob : Nat → K × K) (f : Frac n K) (ha : f.den.c 0 ≠ 0) (s0 : St n K) (x : Nat → K) : ∃ y, Runs oob f s0 x y := by
  obtain ⟨y, h, _⟩ := difference_equation_partial oob f ha s0 x
  exact ⟨y, h⟩

theorem after_le {a : Fin (n + 1) → K} {x : Nat → K} {X : K} (h0 : 0 ≤ X) (ha : ∀ i : Fin n, |a i.succ| ≤ X) (k : Int) (hx : ∀ j : Nat, (j : Int) ≤ k → |x j| ≤ X) :
    |after a x k| ≤ X := by
  cases k with
  | ofNat k => exact hx k (le_refl _)
  | negSucc j =>
    rw [after]
    split
    · rename_i h
      have := ha ⟨j, by omega⟩
      exact this
    · simpa using h0

theorem filt_split (p : Poly n K) (y : Int → K) (k : Int) : filt p y k = p.c 0 * y k + ∑ i : Fin n, p.c i.succ * y (k - (i.succ : Nat)) := by
  unfold filt
  rw [Fin.sum_univ_succ]
  simp

theorem sum_le_tail (c z : Fin n → K) {Y : K} (h : ∀ i, |z i| ≤ Y) : |∑ i, c i * z i| ≤ (∑ i, |c i|) * Y := by
  refine le_trans (Finset.abs_sum_le_sum_abs _ _) ?_
  rw [Finset.sum_mul]
  refine Finset.sum_le_sum fun i _ => ?_
  rw [abs_mul]
  exact mul_le_mul_of_nonneg_left (h i) (abs_nonneg _)

/-! ### Bounded outputs -/

/-- A solution of the difference equation stays bounded. -/
theorem solution_bounded {f : Frac n K} {X Y : K} (ha : f.den.c 0 ≠ 0) {a b : Fin (n + 1) → K} {x y : Nat → K}
    (he : ∀ k : Nat, filt f.den (after b y) k = filt f.num (after a x) k)
    (hY : weight f * X + tail f * Y ≤ |f.den.c 0| * Y) (hX0 : 0 ≤ X) (hY0 : 0 ≤ Y) (hx : ∀ k, |x k| ≤ X) (hi : ∀ i : Fin n, |a i.succ| ≤ X)
    (ho : ∀ i : Fin n, |b i.succ| ≤ Y) (k : Nat) : |y k| ≤ Y := by
  induction k using Nat.strong_induction_on with
  | _ k ih =>
    have h := he k
    rw [filt_split f.den] at h
    have h1 : |∑ i : Fin n, f.den.c i.succ * after b y ((k : Int) - (i.succ : Nat))| ≤ tail f * Y := by
      apply sum_le_tail
      intro i
      refine after_le hY0 ho _ (fun j hj => ih j ?_)
      simp only [Fin.val_succ] at hj
      omega
    have h2 : |filt f.num (after a x) k| ≤ weight f * X :=
      sum_le_tail _ _ fun i => after_le hX0 hi _ fun j _ => hx j
    have h3 : |f.den.c 0| * |y k| ≤ |f.den.c 0| * Y := by
      rw [← abs_mul]
      have e : f.den.c 0 * y k = filt f.num (after a x) k - ∑ i : Fin n, f.den.c i.succ * after b y ((k : Int) - (i.succ : Nat)) := by
        rw [after_nat] at h
        linear_combination h
      rw [e]
      refine le_trans (abs_sub _ _) ?_
      linarith
    exact le_of_mul_le_mul_left h3 (abs_pos.2 ha)

/-- **Bounded inputs give bounded outputs**, whatever the memory contained: for every bound which the memory respects and which is large enough for the inputs. -/
theorem outputs_bounded {oob : Nat → K × K} {f : Frac n K} {s0 : St n K} {x y : Nat → K} {X Y : K} (ha : f.den.c 0 ≠ 0) (h : Runs oob f s0 x y)
    (hY : weight f * X + tail f * Y ≤ |f.den.c 0| * Y) (hX0 : 0 ≤ X) (hY0 : 0 ≤ Y) (hx : ∀ k, |x k| ≤ X) (hi : ∀ i : Fin n, |s0.lastIn i.succ| ≤ X)
    (ho : ∀ i : Fin n, |s0.lastOut i.succ| ≤ Y) (k : Nat) : |y k| ≤ Y :=
  solution_bounded ha (h.equation ha) hY hX0 hY0 hx hi ho k

/-! ### What was in the memory -/

theorem after_sub (a a' : Fin (n + 1) → K) (x x' : Nat → K) (k : Int) :
    after (fun i => a i - a' i) (fun k => x k - x' k) k = after a x k - after a' x' k := by
  cases k with
  | ofNat k => rfl
  | negSucc j =>
    simp only [after]
    split <;> simp

theorem filt_sub (p : Poly n K) (y z : Int → K) (k : Int) : filt p (fun k => y k - z k) k = filt p y k - filt p z k := by
  unfold filt
  rw [← Finset.sum_sub_distrib]
  exact Finset.sum_congr rfl fun i _ => by ring

/-- **What was in the memory dies out**, if the first coefficient of the denominator is larger than the others together: the outputs with two different contents of the
memory and the same inputs approach each other geometrically, by the factor `r` every `n` runs. -/
theorem forgets {oob oob' : Nat → K × K} {f : Frac n K} {s0 s0' : St n K} {x y y' : Nat → K} {r G M : K} (hn : 0 < n) (ha : f.den.c 0 ≠ 0) (hr0 : 0 ≤ r) (hr1 : r ≤ 1)
    (hr : tail f ≤ r * |f.den.c 0|) (h : Runs oob f s0 x y) (h' : Runs oob' f s0' x y') (hG : ∀ i : Fin n, |s0.lastIn i.succ - s0'.lastIn i.succ| ≤ G)
    (hM : ∀ i : Fin n, |s0.lastOut i.succ - s0'.lastOut i.succ| ≤ M) (hGM : weight f * G + tail f * M ≤ |f.den.c 0| * M) (k : Nat) :
    |y k - y' k| ≤ M * r ^ (k / n) := by
  have hG0 : 0 ≤ G := le_trans (abs_nonneg _) (hG ⟨0, hn⟩)
  have hM0 : 0 ≤ M := le_trans (abs_nonneg _) (hM ⟨0, hn⟩)
  have he : ∀ k : Nat, filt f.den (after (fun i => s0.lastOut i - s0'.lastOut i) (fun k => y k - y' k)) k =
      filt f.num (after (fun i => s0.lastIn i - s0'.lastIn i) (fun k => x k - x k)) k := by
    intro k
    have e1 : after (fun i => s0.lastOut i - s0'.lastOut i) (fun k => y k - y' k) = fun k => after s0.lastOut y k - after s0'.lastOut y' k := by
      funext k
      exact after_sub ..
    have e2 : after (fun i => s0.lastIn i - s0'.lastIn i) (fun k => x k - x k) = fun k => after s0.lastIn x k - after s0'.lastIn x k := by
      funext k
      exact after_sub ..
    rw [e1, e2, filt_sub, filt_sub, h.equation ha, h'.equation ha]
  have hb : ∀ k, |y k - y' k| ≤ M := solution_bounded ha he hGM hG0 hM0 (fun k => by simpa using hG0) hG hM
  induction k using Nat.strong_induction_on with
  | _ k ih =>
    rcases lt_or_ge k n with hk | hk
    · rw [Nat.div_eq_of_lt hk, pow_zero, mul_one]
      exact hb k
    · have h1 := he k
      rw [filt_split f.den] at h1
      have h2 : filt f.num (after (fun i => s0.lastIn i - s0'.lastIn i) (fun k => x k - x k)) k = 0 := by
        refine Finset.sum_eq_zero fun i _ => ?_
        have : (k : Int) - ((i : Nat) : Int) = ((k - (i : Nat) : Nat) : Int) := by
          have := i.isLt
          omega
        rw [this, after_nat, sub_self, mul_zero]
      have hd : k / n = (k - n) / n + 1 := by
        rw [← Nat.add_div_right _ hn, Nat.sub_add_cancel hk]
      have h3 : |∑ i : Fin n, f.den.c i.succ * after (fun i => s0.lastOut i - s0'.lastOut i) (fun k => y k - y' k) ((k : Int) - (i.succ : Nat))| ≤
          tail f * (M * r ^ (k / n - 1)) := by
        apply sum_le_tail
        intro i
        have hi := i.isLt
        have e : (k : Int) - ((i.succ : Fin (n + 1)) : Nat) = ((k - (i + 1) : Nat) : Int) := by
          rw [Fin.val_succ]
          omega
        rw [e, after_nat]
        refine le_trans (ih (k - (i + 1)) (by omega)) (mul_le_mul_of_nonneg_left ?_ hM0)
        apply pow_le_pow_of_le_one hr0 hr1
        rw [hd, Nat.add_sub_cancel]
        exact Nat.div_le_div_right (by omega)
      rw [after_nat, h2] at h1
      have h4 : |f.den.c 0| * |y k - y' k| ≤ tail f * (M * r ^ (k / n - 1)) := by
        rw [← abs_mul]
        have e : f.den.c 0 * (y k - y' k) =
            -∑ i : Fin n, f.den.c i.succ * after (fun i => s0.lastOut i - s0'.lastOut i) (fun k => y k - y' k) ((k : Int) - (i.succ : Nat)) := by
          linear_combination h1
        rw [e, abs_neg]
        exact h3
      have h5 : |f.den.c 0| * |y k - y' k| ≤ |f.den.c 0| * (M * r ^ (k / n)) := by
        refine le_trans h4 (le_trans (mul_le_mul_of_nonneg_right hr (mul_nonneg hM0 (pow_nonneg hr0 _))) (le_of_eq ?_))
        rw [hd, Nat.add_sub_cancel, pow_succ]
        ring
      exact le_of_mul_le_mul_left h5 (abs_pos.2 ha)

/-- **What was in the memory of an integrating transfer function stays for ever**: if the coefficients of the denominator add up to zero, a constant in the memory of the
outputs is added to all outputs, for all inputs. -/
theorem keeps_violated {oob oob' : Nat → K × K} {f : Frac n K} (ha : f.den.c 0 ≠ 0) (hs : ∑ i, f.den.c i = 0) {x y y' : Nat → K} (c : K)
    (h : Runs oob f ⟨fun _ => 0, fun _ => c⟩ x y) (h' : Runs oob' f ⟨fun _ => 0, fun _ => 0⟩ x y') (k : Nat) : y k = y' k + c := by
  induction k using Nat.strong_induction_on with
  | _ k ih =>
    have h1 := h.equation ha k
    rw [← h'.equation ha k] at h1
    rw [filt_split, filt_split, after_nat, after_nat] at h1
    have h2 : ∑ i : Fin n, f.den.c i.succ * after (fun _ : Fin (n + 1) => c) y ((k : Int) - (i.succ : Nat)) =
        ∑ i : Fin n, f.den.c i.succ * after (fun _ : Fin (n + 1) => (0 : K)) y' ((k : Int) - (i.succ : Nat)) + (∑ i : Fin n, f.den.c i.succ) * c := by
      rw [Finset.sum_mul, ← Finset.sum_add_distrib]
      refine Finset.sum_congr rfl fun i _ => ?_
      rw [← mul_add]
      congr 1
      rcases le_or_gt ((i : Nat) + 1) k with hk | hk
      · have e : (k : Int) - ((i.succ : Fin (n + 1)) : Nat) = ((k - (i + 1) : Nat) : Int) := by
          rw [Fin.val_succ]
          omega
        rw [e, after_nat, after_nat]
        exact ih _ (by omega)
      · obtain ⟨j, hj⟩ : ∃ j : Nat, (k : Int) - ((i.succ : Fin (n + 1)) : Nat) = Int.negSucc j := by
          apply Int.eq_negSucc_of_lt_zero
          rw [Fin.val_succ]
          omega
        have hj' : j + 1 < n + 1 := by
          have := i.isLt
          rw [Fin.val_succ] at hj
          omega
        rw [hj]
        simp only [after, dif_pos hj', zero_add]
    have h3 : ∑ i : Fin n, f.den.c i.succ = - f.den.c 0 := by
      rw [Fin.sum_univ_succ] at hs
      linear_combination hs
    rw [h2, h3] at h1
    exact mul_left_cancel₀ ha (by linear_combination h1)

/-! ### The transfer functions of the factories -/

theorem PT1_den (Ts k T1 : K) : (PT1 Ts k T1).den.c 0 = Ts + T1 ∧ tail (PT1 Ts k T1) = |T1| ∧ weight (PT1 Ts k T1) = |k * Ts| := by
  refine ⟨rfl, ?_, ?_⟩
  · simp [tail, PT1, Frac.ofVecs, Poly.ofVec]
  · simp [weight, PT1, Frac.ofVecs, Poly.ofVec, Fin.sum_univ_succ]

/-- **PT1**: the outputs are bounded by the gain times the bound of the inputs, or by what was in the memory if that is larger; and what was in the memory dies out
by the factor `T1 / (Ts + T1)` in every run. -/
theorem PT1_stable {Ts g T1 : K} (hTs : 0 < Ts) (hT1 : 0 ≤ T1) {oob oob' : Nat → K × K} {s0 s0' : St 1 K} {x y y' : Nat → K} (h : Runs oob (PT1 Ts g T1) s0 x y)
    (h' : Runs oob' (PT1 Ts g T1) s0' x y') :
    (∀ X Y, (∀ k, |x k| ≤ X) → |s0.lastIn 1| ≤ X → |s0.lastOut 1| ≤ Y → |g| * X ≤ Y → ∀ k, |y k| ≤ Y) ∧
    ∀ k, |y k - y' k| ≤ max |s0.lastOut 1 - s0'.lastOut 1| (|g| * |s0.lastIn 1 - s0'.lastIn 1|) * (T1 / (Ts + T1)) ^ k := by
  obtain ⟨h0, h1, h2⟩ := PT1_den Ts g T1
  have hp : 0 < Ts + T1 := by linarith
  have hd : (PT1 Ts g T1).den.c 0 ≠ 0 := by rw [h0]; exact hp.ne'
  constructor
  · intro X Y hx hi ho hg k
    refine outputs_bounded hd h ?_ (le_trans (abs_nonneg _) hi) (le_trans (abs_nonneg _) ho) hx (fun i => ?_) (fun i => ?_) k
    · rw [h0, h1, h2, abs_mul, abs_of_pos hTs, abs_of_nonneg hT1, abs_of_pos hp]
      have := mul_le_mul_of_nonneg_right hg hTs.le
      linarith
    · rwa [Subsingleton.elim i 0]
    · rwa [Subsingleton.elim i 0]
  · intro k
    have := forgets (r := T1 / (Ts + T1)) (G := |s0.lastIn 1 - s0'.lastIn 1|)
      (M := max |s0.lastOut 1 - s0'.lastOut 1| (|g| * |s0.lastIn 1 - s0'.lastIn 1|)) (by omega) hd (div_nonneg hT1 hp.le)
      ((div_le_one hp).2 (by linarith)) (by rw [h0, h1, abs_of_pos hp, abs_of_nonneg hT1, div_mul_cancel₀ _ hp.ne']) h h'
      (fun i => by rw [Subsingleton.elim i 0]; exact le_refl _) (fun i => by rw [Subsingleton.elim i 0]; exact le_max_left _ _)
      (by
        rw [h0, h1, h2, abs_mul, abs_of_pos hTs, abs_of_nonneg hT1, abs_of_pos hp]
        have := mul_le_mul_of_nonneg_right (le_max_right |s0.lastOut 1 - s0'.lastOut 1| (|g| * |s0.lastIn 1 - s0'.lastIn 1|)) hTs.le
        linarith) k
    rwa [Nat.div_one] at this

theorem sum_eq_eval (p : Poly n K) : ∑ i, p.c i = p.eval 1 := by simp [Poly.eval]

theorem I_den (Ts Tn : K) : (I Ts Tn).den.c 0 = Tn ∧ ∑ i, (I Ts Tn).den.c i = 0 := by
  refine ⟨rfl, ?_⟩
  simp [I, Frac.ofVecs, Poly.ofVec, Fin.sum_univ_succ]

theorem PID_den (Ts Kp Tn Tv Tv1 : K) : (PID Ts Kp Tn Tv Tv1).den.c 0 = Tn * (Ts + Tv1) ∧ ∑ i, (PID Ts Kp Tn Tv Tv1).den.c i = 0 := by
  have e : (PID Ts Kp Tn Tv Tv1).den = (I Ts Tn).den.mul (DT1 Ts Tv Tv1).den := rfl
  constructor
  · rw [e, mul_c_zero]
    rfl
  · rw [e, sum_eq_eval, eval_mul, ← sum_eq_eval, (I_den Ts Tn).2, zero_mul]

/-- **The integrator and the PID controller of the factories never forget**: a constant in the uninitialised memory of the outputs is added to all outputs for ever. -/
theorem I_PID_keep_violated {Ts Kp Tn Tv Tv1 : K} (hTn : Tn ≠ 0) (hT : Ts + Tv1 ≠ 0) {oob oob' : Nat → K × K} {x y y' z z' : Nat → K} (c : K)
    (h : Runs oob (I Ts Tn) ⟨fun _ => 0, fun _ => c⟩ x y) (h' : Runs oob' (I Ts Tn) ⟨fun _ => 0, fun _ => 0⟩ x y')
    (hz : Runs oob (PID Ts Kp Tn Tv Tv1) ⟨fun _ => 0, fun _ => c⟩ x z) (hz' : Runs oob' (PID Ts Kp Tn Tv Tv1) ⟨fun _ => 0, fun _ => 0⟩ x z') (k : Nat) :
    y k = y' k + c ∧ z k = z' k + c :=
  ⟨keeps_violated hTn (I_den Ts Tn).2 c h h' k,
    keeps_violated (by rw [(PID_den Ts Kp Tn Tv Tv1).1]; exact mul_ne_zero hTn hT) (PID_den Ts Kp Tn Tv Tv1).2 c hz hz' k⟩

end Exact

/-! ### Rounding -/

section Rounded
variable {n : Nat}

/-- The output value (62-67) with the rounding of every operation. -/
def valueFl (f : Frac n ℚ) (s : St n ℚ) (x : ℚ) : ℚ :=
  rnd ((List.finRange n).foldl (fun acc i => rnd (acc + rnd (rnd (s.lastIn i.succ * f.num.c i.succ) - rnd (s.lastOut i.succ * f.den.c i.succ))))
    (rnd (x * f.num.c 0)) / f.den.c 0)

/-- `run` (61-76) with rounding: as `run`, with another value. -/
def runFl (oobIn oobOut : Option ℚ) (f : Frac n ℚ) (s : St n ℚ) (x : ℚ) : Option (St n ℚ × ℚ) := do
  let s := { s with lastIn := wr s.lastIn 0 x }
  let y := valueFl f s x
  let s ← shift oobIn oobOut (n + 1) { s with lastOut := wr s.lastOut 0 y }
  pure (s, y)

/-- The state before run `k`. -/
def statesFl (oob : Nat → Option ℚ × Option ℚ) (f : Frac n ℚ) (s : St n ℚ) (x : Nat → ℚ) : Nat → Option (St n ℚ)
  | 0 => some s
  | k + 1 => (statesFl oob f s x k).bind fun s' => (runFl (oob k).1 (oob k).2 f s' (x k)).map Prod.fst

/-- Output of run `k`. -/
def outputFl (oob : Nat → Option ℚ × Option ℚ) (f : Frac n ℚ) (s : St n ℚ) (x : Nat → ℚ) (k : Nat) : Option ℚ :=
  (statesFl oob f s x k).bind fun s' => (runFl (oob k).1 (oob k).2 f s' (x k)).map Prod.snd

/-- As `Runs`, with rounding. -/
def RunsFl (oob : Nat → ℚ × ℚ) (f : Frac n ℚ) (s0 : St n ℚ) (x y : Nat → ℚ) : Prop :=
  ∀ k, outputFl (fun k => (some (oob k).1, some (oob k).2)) f s0 x k = some (y k)

theorem runFl_spec (a b : ℚ) (f : Frac n ℚ) (s : St n ℚ) (x : ℚ) :
    runFl (some a) (some b) f s x =
      some ({ lastIn := next s.lastIn x a, lastOut := next s.lastOut (valueFl f s x) b }, valueFl f s x) := by
  have hv : valueFl f { s with lastIn := wr s.lastIn 0 x } x = valueFl f s x := by
    simp [valueFl, wr]
  unfold runFl
  simp only [Option.bind_eq_bind, hv]
  rw [shift_spec a b (n + 1) le_rfl]
  simp only [Option.bind_some, Option.pure_def, Option.some.injEq, Prod.mk.injEq, and_true]
  congr 1
  all_goals
    funext i
    have hi : (i : Nat) < n + 1 := i.isLt
    simp only [hi, if_true, next, wr]
    by_cases h0 : (i : Nat) = 0
    · simp [h0]
    · by_cases h1 : (i : Nat) = 1
      · simp [h0, h1]
      · simp only [h0, h1, dite_false, if_false]
        rw [if_neg (by omega)]

theorem statesFl_past (oob : Nat → ℚ × ℚ) (f : Frac n ℚ) (s0 : St n ℚ) (x : Nat → ℚ) :
    ∃ y : Nat → ℚ, RunsFl oob f s0 x y ∧ ∀ k, ∃ s, Past s s0 x y k ∧ y k = valueFl f s (x k) := by
  have hex : ∀ k, ∃ s, statesFl (fun k => (some (oob k).1, some (oob k).2)) f s0 x k = some s := by
    intro k
    induction k with
    | zero => exact ⟨_, rfl⟩
    | succ k ih =>
      obtain ⟨s, hs⟩ := ih
      exact ⟨_, by rw [statesFl, hs, Option.bind_some, runFl_spec]; rfl⟩
  choose st hst using hex
  refine ⟨fun k => valueFl f (st k) (x k), fun k => ?_, fun k => ⟨st k, ?_, rfl⟩⟩
  · rw [outputFl, hst k, Option.bind_some, runFl_spec]; rfl
  · induction k with
    | zero =>
      have : st 0 = s0 := by have := hst 0; simpa [statesFl] using this.symm
      rw [this]
      exact past_zero _ _ _
    | succ k ih =>
      have h2 := hst (k + 1)
      rw [statesFl, hst k, Option.bind_some, runFl_spec] at h2
      simp only [Option.map_some, Option.some.injEq] at h2
      rw [← h2]
      intro i hi
      exact ⟨next_past _ _ _ _ _ (fun j hj => (ih j hj).1) i hi,
        next_past _ _ (fun k => valueFl f (st k) (x k)) k _ (fun j hj => (ih j hj).2) i hi⟩

/-- Every output exists. -/
theorem RunsFl.exists (oob : Nat → ℚ × ℚ) (f : Frac n ℚ) (s0 : St n ℚ) (x : Nat → ℚ) : ∃ y, RunsFl oob f s0 x y := by
  obtain ⟨y, h, _⟩ := statesFl_past oob f s0 x
  exact ⟨y, h⟩

theorem RunsFl.past {oob : Nat → ℚ × ℚ} {f : Frac n ℚ} {s0 : St n ℚ} {x y : Nat → ℚ} (h : RunsFl oob f s0 x y) (k : Nat) :
    ∃ s, Past s s0 x y k ∧ y k = valueFl f s (x k) := by
  obtain ⟨y', h1, h2⟩ := statesFl_past oob f s0 x
  have : y' = y := by
    funext k
    have := h1 k
    rw [h k] at this
    exact (Option.some.inj this).symm
  rw [← this]
  exact h2 k

/-- One run is accurate. -/
theorem value_error (f : Frac n ℚ) (s : St n ℚ) (x : ℚ) :
    Approx (n + 3) (valueFl f s x) (value f s x)
      ((|x * f.num.c 0| + ∑ i : Fin n, (|s.lastIn i.succ * f.num.c i.succ| + |s.lastOut i.succ * f.den.c i.succ|)) / |f.den.c 0|) := by
  have key : ∀ (l : List (Fin n)) (j : Nat) (a b m : ℚ), 2 ≤ j → Approx j a b m →
      Approx (j + l.length)
        (l.foldl (fun acc i => rnd (acc + rnd (rnd (s.lastIn i.succ * f.num.c i.succ) - rnd (s.lastOut i.succ * f.den.c i.succ)))) a)
        (l.foldl (fun acc i => acc + (s.lastIn i.succ * f.num.c i.succ - s.lastOut i.succ * f.den.c i.succ)) b)
        (m + (l.map fun i => |s.lastIn i.succ * f.num.c i.succ| + |s.lastOut i.succ * f.den.c i.succ|).sum) := by
    intro l
    induction l with
    | nil => intro j a b m _ h; simpa using h
    | cons i l ih =>
      intro j a b m hj h
      have h1 := (Approx.exact (s.lastIn i.succ * f.num.c i.succ)).round
      have h2 := (Approx.exact (s.lastOut i.succ * f.den.c i.succ)).round
      have h3 := ((h1.sub h2).round.weaken (show 0 + 1 + 1 ≤ j by omega))
      have h4 := (h.add h3).round
      have h5 := ih (j + 1) _ _ _ (by omega) h4
      rw [List.foldl_cons, List.foldl_cons, List.map_cons, List.sum_cons, List.length_cons]
      rw [← add_assoc m, show j + (l.length + 1) = j + 1 + l.length by omega]
      exact h5
  have h1 := key (List.finRange n) 2 _ _ _ le_rfl ((Approx.exact (x * f.num.c 0)).round.weaken (show 0 + 1 ≤ 2 by omega))
  rw [List.length_finRange, sum_finRange] at h1
  have h2 := (h1.scale (1 / f.den.c 0)).round
  unfold valueFl value
  rw [abs_div, abs_one, one_div_mul_eq_div, one_div_mul_eq_div, one_div_mul_eq_div, show 2 + n + 1 = n + 3 by omega] at h2
  exact h2

/-- The bound of the magnitudes in `value_error`. -/
theorem magnitude_le {f : Frac n ℚ} {s : St n ℚ} {x X Y : ℚ} (hx : |x| ≤ X) (hi : ∀ i : Fin n, |s.lastIn i.succ| ≤ X) (ho : ∀ i : Fin n, |s.lastOut i.succ| ≤ Y) :
    |x * f.num.c 0| + ∑ i : Fin n, (|s.lastIn i.succ * f.num.c i.succ| + |s.lastOut i.succ * f.den.c i.succ|) ≤ weight f * X + tail f * Y := by
  unfold weight tail
  rw [Fin.sum_univ_succ, Finset.sum_add_distrib, add_mul, Finset.sum_mul, Finset.sum_mul]
  have h1 : |x * f.num.c 0| ≤ |f.num.c 0| * X := by
    rw [abs_mul, mul_comm]
    exact mul_le_mul_of_nonneg_left hx (abs_nonneg _)
  have h2 : ∑ i : Fin n, |s.lastIn i.succ * f.num.c i.succ| ≤ ∑ i : Fin n, |f.num.c i.succ| * X := by
    refine Finset.sum_le_sum fun i _ => ?_
    rw [abs_mul, mul_comm]
    exact mul_le_mul_of_nonneg_left (hi i) (abs_nonneg _)
  have h3 : ∑ i : Fin n, |s.lastOut i.succ * f.den.c i.succ| ≤ ∑ i : Fin n, |f.den.c i.succ| * Y := by
    refine Finset.sum_le_sum fun i _ => ?_
    rw [abs_mul, mul_comm]
    exact mul_le_mul_of_nonneg_left (ho i) (abs_nonneg _)
  linarith

/-- **Rounding errors do not add up.**  With a bound of the outputs which also covers the rounding of one run, all outputs respect it, and their distance
from the outputs without rounding is bounded for ever. -/
theorem rounding_stable {oob oob' : Nat → ℚ × ℚ} {f : Frac n ℚ} {s0 : St n ℚ} {x y z : Nat → ℚ} {X Y E : ℚ} (ha : f.den.c 0 ≠ 0) (h : RunsFl oob f s0 x y)
    (hz : Runs oob' f s0 x z) (hY : (1 + gam (n + 3)) * (weight f * X + tail f * Y) ≤ |f.den.c 0| * Y)
    (hE : gam (n + 3) * (weight f * X + tail f * Y) + tail f * E ≤ |f.den.c 0| * E) (hX0 : 0 ≤ X) (hY0 : 0 ≤ Y) (hE0 : 0 ≤ E) (hx : ∀ k, |x k| ≤ X)
    (hi : ∀ i : Fin n, |s0.lastIn i.succ| ≤ X) (ho : ∀ i : Fin n, |s0.lastOut i.succ| ≤ Y) (k : Nat) : |y k| ≤ Y ∧ |y k - z k| ≤ E := by
  have hp := abs_pos.2 ha
  induction k using Nat.strong_induction_on with
  | _ k ih =>
    obtain ⟨s, hs, hy⟩ := h.past k
    have hsi : ∀ i : Fin n, |s.lastIn i.succ| ≤ X := fun i => by
      rw [(hs i.succ (by simp)).1]
      exact after_le hX0 hi _ fun j _ => hx j
    have hso : ∀ i : Fin n, |s.lastOut i.succ| ≤ Y := fun i => by
      rw [(hs i.succ (by simp)).2]
      refine after_le hY0 ho _ fun j hj => (ih j ?_).1
      simp only [Fin.val_succ] at hj
      omega
    have hv := (value_error f s (x k)).larger (div_le_div_of_nonneg_right (magnitude_le (f := f) (hx k) hsi hso) hp.le)
    rw [← hy] at hv
    constructor
    · refine le_trans hv.abs_le' ?_
      rw [← mul_div_assoc, div_le_iff₀ hp, mul_comm Y]
      exact hY
    · -- the exact value of this run and the output without rounding
      have h1 := value_eq f ha s (x k)
      have h2 := hz.equation ha k
      rw [filt_split, after_nat, past_filt f.num _ _ _ k (fun i hi => (hs i hi).1), ← h1] at h2
      have h3 : f.den.c 0 * (value f s (x k) - z k) = ∑ i : Fin n, f.den.c i.succ * (after s0.lastOut z ((k : Int) - (i.succ : Nat)) - s.lastOut i.succ) := by
        have : ∑ i : Fin n, f.den.c i.succ * (after s0.lastOut z ((k : Int) - (i.succ : Nat)) - s.lastOut i.succ) =
            ∑ i : Fin n, f.den.c i.succ * after s0.lastOut z ((k : Int) - (i.succ : Nat)) - ∑ i : Fin n, f.den.c i.succ * s.lastOut i.succ := by
          rw [← Finset.sum_sub_distrib]
          exact Finset.sum_congr rfl fun i _ => by ring
        rw [this]
        linear_combination -h2
      have h4 : |f.den.c 0| * |value f s (x k) - z k| ≤ tail f * E := by
        rw [← abs_mul, h3]
        apply sum_le_tail
        intro i
        rw [(hs i.succ (by simp)).2, ← after_sub]
        refine after_le hE0 (fun j => by simpa using hE0) _ fun j hj => ?_
        rw [abs_sub_comm]
        refine (ih j ?_).2
        simp only [Fin.val_succ] at hj
        omega
      have h5 := hv.err
      have h6 : |f.den.c 0| * |y k - value f s (x k)| ≤ gam (n + 3) * (weight f * X + tail f * Y) := by
        have := mul_le_mul_of_nonneg_left h5 hp.le
        refine le_trans this (le_of_eq ?_)
        field_simp
      have h7 : |y k - z k| ≤ |y k - value f s (x k)| + |value f s (x k) - z k| := abs_sub_le _ _ _
      have h8 := mul_le_mul_of_nonneg_left h7 hp.le
      refine le_of_mul_le_mul_left ?_ hp
      linarith

end Rounded

/-! ### Cases -/

/-- PT1 with a sampling time of 1 ms, a time constant of 100 ms and gain 1, inputs up to 1 and up to 2 in the memory: with rounding the outputs stay within 2, at most
2^-43 from those without rounding, for ever. -/
example {oob oob' : Nat → ℚ × ℚ} {s0 : St 1 ℚ} {x y z : Nat → ℚ} (h : RunsFl oob (PT1 (1 / 1000) 1 (1 / 10)) s0 x y)
    (hz : Runs oob' (PT1 (1 / 1000) 1 (1 / 10)) s0 x z) (hx : ∀ k, |x k| ≤ 1) (hi : |s0.lastIn 1| ≤ 1) (ho : |s0.lastOut 1| ≤ 2) (k : Nat) :
    |y k| ≤ 2 ∧ |y k - z k| ≤ 1 / 2 ^ 43 := by
  obtain ⟨h0, h1, h2⟩ := PT1_den (1 / 1000 : ℚ) 1 (1 / 10)
  refine rounding_stable (X := 1) (by rw [h0]; norm_num) h hz ?_ ?_ (by norm_num) (by norm_num) (by norm_num) hx (fun i => ?_) (fun i => ?_) k
  · rw [h0, h1, h2]
    norm_num [gam, unit, abs_of_pos]
  · rw [h0, h1, h2]
    norm_num [gam, unit, abs_of_pos]
  · rwa [Subsingleton.elim i 0]
  · rwa [Subsingleton.elim i 0]

/-- There are such runs, and the values: 8 in the memory, no input. -/
example : (output (fun _ => (some 0, some 0)) (PT1 (1 : ℚ) 1 1) ⟨fun _ => 0, fun _ => 8⟩ (fun _ => 0)) 3 = some (1 / 2) ∧
    output (fun _ => (some 0, some 0)) (I (1 : ℚ) 1) ⟨fun _ => 0, fun _ => 8⟩ (fun _ => 0) 3 = some 8 ∧
    output (fun _ => (some 0, some 0)) (PID (1 : ℚ) 1 1 1 1) ⟨fun _ => 0, fun _ => 8⟩ (fun _ => 0) 3 = some 8 ∧
    outputFl (fun _ => (some 0, some 0)) (PT1 (1 : ℚ) 1 2) ⟨fun _ => 0, fun _ => 1⟩ (fun _ => 0) 0 = some (6004799503160661 / 2 ^ 53) := by decide +kernel

example : ∃ y y', Runs (fun _ => (0, 0)) (PT1 (1 : ℚ) 1 1) ⟨fun _ => 0, fun _ => 8⟩ (fun _ => 1) y ∧ Runs (fun _ => (0, 0)) (PT1 (1 : ℚ) 1 1) ⟨fun _ => 0, fun _ => 0⟩ (fun _ => 1) y' ∧
    ∀ k, |y k - y' k| ≤ 8 * (1 / 2) ^ k := by
  have hd : (PT1 (1 : ℚ) 1 1).den.c 0 ≠ 0 := by rw [(PT1_den _ _ _).1]; norm_num
  obtain ⟨y, h⟩ := Runs.exists (fun _ => (0, 0)) (PT1 (1 : ℚ) 1 1) hd ⟨fun _ => 0, fun _ => 8⟩ (fun _ => 1)
  obtain ⟨y', h'⟩ := Runs.exists (fun _ => (0, 0)) (PT1 (1 : ℚ) 1 1) hd ⟨fun _ => 0, fun _ => 0⟩ (fun _ => 1)
  refine ⟨y, y', h, h', fun k => ?_⟩
  have := (PT1_stable (by norm_num) (by norm_num) h h').2 k
  norm_num at this ⊢
  exact this

/-- Case of `outputs_bounded` and `forgets`: PT1 with 8 or 0 in the memory and a constant input 1. -/
example {oob oob' : Nat → ℚ × ℚ} {y y' : Nat → ℚ} (h : Runs oob (PT1 (1 : ℚ) 1 1) ⟨fun _ => 0, fun _ => 8⟩ (fun _ => 1) y)
    (h' : Runs oob' (PT1 (1 : ℚ) 1 1) ⟨fun _ => 0, fun _ => 0⟩ (fun _ => 1) y') (k : Nat) : |y k| ≤ 8 ∧ |y k - y' k| ≤ 8 * (1 / 2) ^ k := by
  obtain ⟨h0, h1, h2⟩ := PT1_den (1 : ℚ) 1 1
  constructor
  · refine outputs_bounded (X := 1) (by rw [h0]; norm_num) h ?_ (by norm_num) (by norm_num) (by norm_num) (by norm_num) (by norm_num) k
    rw [h0, h1, h2]; norm_num [abs_of_pos]
  · have := forgets (r := 1 / 2) (G := 0) (M := 8) (by norm_num) (by rw [h0]; norm_num) (by norm_num) (by norm_num) (by rw [h0, h1]; norm_num [abs_of_pos]) h h'
      (by norm_num) (by norm_num) (by rw [h0, h1]; norm_num [abs_of_pos]) k
    simpa using this
/-- Case of `keeps_violated` and `I_PID_keep_violated`: 8 in the memory of an integrator stays in all outputs. -/
example {oob oob' : Nat → ℚ × ℚ} {x y y' : Nat → ℚ} (h : Runs oob (I (1 : ℚ) 2) ⟨fun _ => 0, fun _ => 8⟩ x y)
    (h' : Runs oob' (I (1 : ℚ) 2) ⟨fun _ => 0, fun _ => 0⟩ x y') (k : Nat) : y k = y' k + 8 :=
  keeps_violated (by norm_num [I, Frac.ofVecs, Poly.ofVec]) (by simp [I, Frac.ofVecs, Poly.ofVec, Fin.sum_univ_two]) 8 h h' k

end Verif.Control.ZTransfer
