import Verif.Common.XArith
import Verif.Control.Saturation
import Verif.Control.SignalChecker
import Verif.Control.RateLimiter
import Verif.Control.Filters
import Verif.Control.Integrator
import Verif.Control.Differentiator
import Verif.Control.WrapAround
import Mathlib.Algebra.Order.Floor.Ring
import Mathlib.Algebra.Order.Ring.Rat
import Mathlib.Data.Rat.Floor
import Mathlib.Tactic.Linarith
/-!
C195, C196, C197: blocks with inputs which are not finite numbers (NaN, infinities).  The arithmetic is that of `Verif.XVal`; the parameters of the blocks are
finite.  On finite values the blocks are those of the other modules (`…_finite`).
-/
namespace Verif.Control.Special
open XVal
variable {K : Type} [Field K] [LinearOrder K]

/-- `RateLimiter::calculateResult` (RateLimiter.hpp:142-150); `dt` is finite (time stamps are integers). -/
def rateLimit (falling rising dt : K) (prev x : XVal K) : XVal K :=
  let rate := div (sub x prev) (.fin dt)
  if lt (.fin rising) rate then add (mul (.fin dt) (.fin rising)) prev
  else if lt rate (.fin falling) then add (mul (.fin dt) (.fin falling)) prev
  else x

/-- `RateLimiter::run` (79-93) for inputs with the time since the previous run; the output is the new `outPrev`. -/
def rateLimits (falling rising : K) (prev : XVal K) (ins : List (XVal K × K)) : XVal K :=
  ins.foldl (fun p i => rateLimit falling rising i.2 p i.1) prev

/-- `LowPassFilter::run` (LowPassFilter.hpp:58-72) behind the first run. -/
def lowPass (alpha : K) (prev x : XVal K) : XVal K := add (mul x (.fin alpha)) (mul prev (.fin (1 - alpha)))

/-- The previous output after runs with these inputs; the first run (62-65) takes its input for the previous output. -/
def lowPasses (alpha : K) (prev : XVal K) (xs : List (XVal K)) : XVal K := xs.foldl (lowPass alpha) prev

/-- `MovingAverageFilter::run` (MovingAverageFilter.hpp:64-78), enabled: `prev` are the last N-1 inputs, oldest first, and `cs` the N-1 coefficients for them,
`c` the one for the input. -/
def movingAverage (cs : List K) (c : K) (prev : List (XVal K)) (x : XVal K) : XVal K :=
  (List.zipWith (fun a v => mul (.fin a) v) cs prev).foldl add (mul (.fin c) x)

/-- The inputs kept after a run (67-71). -/
def keep (prev : List (XVal K)) (x : XVal K) : List (XVal K) := (prev ++ [x]).tail

/-- `I::run` (I.hpp:65-71), enabled: the new output. -/
def integrate (lower upper : K) (dt : K) (prev x : XVal K) : XVal K :=
  let val := add prev (mul x (.fin dt))
  if lt val (.fin upper) && lt (.fin lower) val then val else prev

/-- `D::run` (D.hpp:47-53) behind the first run with a new time stamp. -/
def differentiate (dt : K) (prev x : XVal K) : XVal K := div (sub x prev) (.fin dt)

/-- `floor` -/
def xfloor [FloorRing K] : XVal K → XVal K
  | .fin a => .fin (⌊a⌋ : K)
  | x => x

/-- `WrapAround::calculateResult` (WrapAround.hpp:92-103). -/
def wrap [FloorRing K] (min max : K) (x : XVal K) : XVal K :=
  let delta : XVal K := .fin |max - min|
  let num := sub x (.fin min)
  let tquot := xfloor (div num delta)
  let out := sub num (mul tquot delta)
  if lt out (.fin 0) then add out delta
  else if lt (.fin 0) out then add out (.fin min)
  else x

/-- `ZTransferFunction::run` (ZTransferFunction.hpp:63-69): `ins` and `outs` are the last inputs and outputs, newest first, `as` and `bs` the coefficients of
denominator and numerator for them, `a0` and `b0` those of the present output and input. -/
def ztf (a0 b0 : K) (as bs : List K) (ins outs : List (XVal K)) (x : XVal K) : XVal K :=
  div ((List.zip (List.zip ins bs) (List.zip outs as)).foldl
    (fun acc p => add acc (sub (mul p.1.1 (.fin p.1.2)) (mul p.2.1 (.fin p.2.2)))) (mul x (.fin b0))) (.fin a0)

/-- Inputs and outputs kept for the next run (74-77; what is read behind the lower end of the arrays is overwritten by the next run, see C60). -/
def push (l : List (XVal K)) (x : XVal K) : List (XVal K) := (x :: l).dropLast

/-- The state after runs with these inputs. -/
def ztfs (a0 b0 : K) (as bs : List K) : List (XVal K) × List (XVal K) → List (XVal K) → List (XVal K) × List (XVal K)
  | s, [] => s
  | s, x :: xs => ztfs a0 b0 as bs (push s.1 x, push s.2 (ztf a0 b0 as bs s.1 s.2 x)) xs

/-- A row of a matrix times a vector, `Matrix::operator*` (Matrix.hpp:565-576). -/
def dot {n : Nat} (r : Fin n → XVal K) (x : Fin n → XVal K) : XVal K := (List.finRange n).foldl (fun acc k => add acc (mul (r k) (x k))) (.fin 0)

/-- `KalmanFilter::prediction` (KalmanFilter.hpp:218): `x = Ad * x + Bd * u`. -/
def predict {n m : Nat} (A : Fin n → Fin n → XVal K) (B : Fin n → Fin m → XVal K) (u : Fin m → XVal K) (x : Fin n → XVal K) : Fin n → XVal K :=
  fun i => add (dot (A i) x) (dot (B i) u)

/-- `KalmanFilter::correction` (246-248): `dy = y - C * x - D * u; x = x + K * dy;`, for any gain `G`. -/
def correct {n m p : Nat} (G : Fin n → Fin p → XVal K) (C : Fin p → Fin n → XVal K) (D : Fin p → Fin m → XVal K) (y : Fin p → XVal K) (u : Fin m → XVal K)
    (x : Fin n → XVal K) : Fin n → XVal K :=
  fun i => add (x i) (dot (G i) (fun j => sub (sub (y j) (dot (C j) x)) (dot (D j) u)))

/-! ### Specification -/

/-- The value is a number. -/
def IsNumber (x : XVal K) : Prop := ∃ q, x = .fin q

/-! ### The blocks on finite values -/

theorem rateLimit_finite [IsStrictOrderedRing K] (s : RateLimiter.St K) (p x dt : K) (hp : s.prev = some p) :
    rateLimit s.falling s.rising dt (.fin p) (.fin x) = .fin (RateLimiter.limit s x dt) := by
  unfold rateLimit RateLimiter.limit RateLimiter.rateGt RateLimiter.rateLt
  rw [hp]
  simp only [sub_fin, mul_fin, add_fin]
  by_cases hd : dt = 0
  · subst hd
    rcases lt_trichotomy (x - p) 0 with h | h | h
    · simp [div, infOf, h, not_lt.2 h.le, XVal.lt]
    · simp [div, infOf, h, XVal.lt]
    · simp [div, infOf, h, XVal.lt]
  · rw [div_fin hd]
    simp only [lt_fin, hd, if_false, decide_eq_true_eq]
    split
    · rfl
    · split <;> rfl

theorem lowPass_finite (s : Filters.LowPass.St K) (p x : K) (h1 : s.first = false) (h2 : s.enabled = true) (hp : s.prev = some p) :
    (Filters.LowPass.run s x).2.map XVal.fin = some (lowPass s.alpha (.fin p) (.fin x)) := by
  simp [Filters.LowPass.run, lowPass, h1, h2, hp]

theorem integrate_finite (s : Integrator.St K) (p x dt : K) :
    (Integrator.next s (some p) (some x) dt).map XVal.fin = some (integrate s.lower s.upper dt (.fin p) (.fin x)) := by
  unfold Integrator.next integrate
  by_cases h : p + x * dt < s.upper ∧ s.lower < p + x * dt
  · simp [h]
  · have h' : p + x * dt < s.upper → p + x * dt ≤ s.lower := fun h1 => not_lt.1 (fun h2 => h ⟨h1, h2⟩)
    simp [h, h']

theorem differentiate_finite (p x dt : K) (h : dt ≠ 0) : differentiate dt (.fin p) (.fin x) = .fin ((x - p) / dt) := by simp [differentiate, div_fin h]

example : differentiate (2 : ℚ) (.fin 3) (.fin 7) = .fin 2 := by rw [differentiate_finite _ _ _ (by norm_num)]; norm_num

theorem wrap_finite [FloorRing K] (s : WrapAround.St K) (x : K) (h : |s.max - s.min| ≠ 0) : wrap s.min s.max (.fin x) = .fin (WrapAround.wrap s x) := by
  unfold wrap WrapAround.wrap
  simp only [sub_fin, div_fin h, xfloor, mul_fin, add_fin, lt_fin, decide_eq_true_eq]
  split
  · rfl
  · split <;> rfl

/-! ### C195 -/

/-- Whatever the input, the output of the integrator stays a number. -/
theorem integrator_finite (lower upper dt : K) (p : K) (x : XVal K) : IsNumber (integrate lower upper dt (.fin p) x) := by
  unfold integrate
  cases hv : add (.fin p) (mul x (.fin dt)) with
  | fin q =>
    simp only
    split
    · exact ⟨q, rfl⟩
    · exact ⟨p, rfl⟩
  | pinf => exact ⟨p, by simp [XVal.lt]⟩
  | ninf => exact ⟨p, by simp [XVal.lt]⟩
  | nan => exact ⟨p, by simp⟩

/-- ... over any number of runs, and an invalid input does not change it. -/
theorem integrator_runs (lower upper : K) (p : K) (ins : List (XVal K × K)) : IsNumber (ins.foldl (fun q i => integrate lower upper i.2 q i.1) (.fin p)) := by
  induction ins generalizing p with
  | nil => exact ⟨p, rfl⟩
  | cons i l ih =>
    obtain ⟨q, hq⟩ := integrator_finite lower upper i.2 p i.1
    rw [List.foldl_cons, hq]
    exact ih q

theorem integrator_holds (lower upper dt : K) (p : K) (x : XVal K) (hx : ¬ IsNumber x) : integrate lower upper dt (.fin p) x = .fin p := by
  unfold integrate
  cases x with
  | fin q => exact absurd ⟨q, rfl⟩ hx
  | nan => simp
  | pinf =>
    simp only [mul, infOf]
    split
    · simp [add, XVal.lt]
    · split
      · simp [add, XVal.lt]
      · simp
  | ninf =>
    simp only [mul, infOf]
    split
    · simp [add, XVal.lt]
    · split
      · simp [add, XVal.lt]
      · simp

example : integrate (0 : ℚ) 10 1 (.fin 4) .ninf = .fin 4 := integrator_holds _ _ _ _ _ (by simp [IsNumber])

/-- The rate limiter outputs a number again as soon as its input is one, after NaN or a number. -/
theorem rateLimiter_recovers (falling rising dt : K) (prev : XVal K) (x : K) (hp : prev = .nan ∨ IsNumber prev) : IsNumber (rateLimit falling rising dt prev (.fin x)) := by
  rcases hp with rfl | ⟨p, rfl⟩
  · exact ⟨x, by simp [rateLimit]⟩
  · unfold rateLimit
    simp only [mul_fin, add_fin]
    split
    · exact ⟨_, rfl⟩
    · split
      · exact ⟨_, rfl⟩
      · exact ⟨_, rfl⟩

example : IsNumber (rateLimit (-1 : ℚ) 1 2 .nan (.fin 70)) := rateLimiter_recovers _ _ _ _ _ (Or.inl rfl)

/-- Infinite inputs are limited like all others: the output stays a number.  Time goes on or stands still. -/
theorem rateLimiter_infinite [IsStrictOrderedRing K] (falling rising dt : K) (p : K) (hd : 0 ≤ dt) :
    rateLimit falling rising dt (.fin p) .pinf = .fin (dt * rising + p) ∧ rateLimit falling rising dt (.fin p) .ninf = .fin (dt * falling + p) := by
  rcases hd.eq_or_lt with h | h
  · subst h
    constructor <;> simp [rateLimit, sub, neg, add, div, XVal.lt]
  · constructor
    · simp [rateLimit, sub, neg, add, div, h.ne', infOf, h, XVal.lt]
    · simp [rateLimit, sub, neg, add, div, h.ne', infOf, h, XVal.lt, not_lt.2 h.le]

example : rateLimit (-3 : ℚ) 1 2 (.fin 5) .ninf = .fin (-1) := by
  rw [(rateLimiter_infinite (-3 : ℚ) 1 2 5 (by norm_num)).2]; norm_num

/-- The differentiator outputs a number as soon as the last two inputs are numbers. -/
theorem differentiator_recovers (dt p x : K) (h : dt ≠ 0) : IsNumber (differentiate dt (.fin p) (.fin x)) := ⟨_, differentiate_finite p x dt h⟩

omit [LinearOrder K] in
theorem foldl_add_finite (l : List (XVal K)) (a : XVal K) (ha : IsNumber a) (hl : ∀ v ∈ l, IsNumber v) : IsNumber (l.foldl add a) := by
  induction l generalizing a with
  | nil => exact ha
  | cons v l ih =>
    obtain ⟨q, rfl⟩ := ha
    obtain ⟨r, hr⟩ := hl v (by simp)
    exact ih _ ⟨q + r, by rw [hr]; rfl⟩ (fun w hw => hl w (by simp [hw]))

theorem movingAverage_finite (cs : List K) (c : K) (prev : List (XVal K)) (x : XVal K) (hp : ∀ v ∈ prev, IsNumber v) (hx : IsNumber x) :
    IsNumber (movingAverage cs c prev x) := by
  obtain ⟨q, rfl⟩ := hx
  refine foldl_add_finite _ _ ⟨c * q, rfl⟩ (fun v hv => ?_)
  obtain ⟨i, hi, rfl⟩ := List.mem_iff_getElem.1 hv
  rw [List.getElem_zipWith]
  obtain ⟨r, hr⟩ := hp (prev[i]'(by rw [List.length_zipWith] at hi; omega)) (List.getElem_mem _)
  exact ⟨_, by rw [hr]; rfl⟩

omit [Field K] [LinearOrder K] in
/-- The inputs kept by the moving average are the last N - 1 ones. -/
theorem keeps (prev xs : List (XVal K)) (h : prev.length ≤ xs.length) : xs.foldl keep prev = xs.drop (xs.length - prev.length) := by
  have key : ∀ (xs prev : List (XVal K)), xs.foldl keep prev = (prev ++ xs).drop xs.length := by
    intro xs
    induction xs with
    | nil => intro prev; simp
    | cons x xs ih =>
      intro prev
      rw [List.foldl_cons, ih, keep]
      cases prev with
      | nil => simp
      | cons p l => simp
  rw [key, List.drop_append]
  have : List.drop xs.length prev = [] := List.drop_eq_nil_of_le h
  rw [this, List.nil_append]

/-- The moving average outputs a number as soon as its last N inputs are numbers, whatever came before. -/
theorem movingAverage_recovers (cs : List K) (c : K) (prev xs : List (XVal K)) (x : XVal K) (hn : prev.length ≤ xs.length) (hx : IsNumber x)
    (hxs : ∀ v ∈ xs.drop (xs.length - prev.length), IsNumber v) : IsNumber (movingAverage cs c (xs.foldl keep prev) x) := by
  rw [keeps prev xs hn]
  exact movingAverage_finite _ _ _ _ hxs hx

example : (integrate (0 : ℚ) 10 1 (.fin 4) .nan, integrate (0 : ℚ) 10 1 (.fin 4) .pinf, integrate (0 : ℚ) 10 1 (.fin 4) (.fin 2))
    = (.fin 4, .fin 4, .fin 6) := by decide +kernel
example : (rateLimit (-1 : ℚ) 1 2 .nan (.fin 70), rateLimit (-1 : ℚ) 1 2 (.fin 5) .pinf, rateLimit (-1 : ℚ) 1 2 (.fin 5) .nan) = (.fin 70, .fin 7, .nan) := by decide +kernel
example : IsNumber (differentiate (2 : ℚ) (.fin 3) (.fin 7)) := differentiator_recovers 2 3 7 (by norm_num)
/-- N = 3: an infinite and an invalid input, then three numbers. -/
example : IsNumber (movingAverage [1, 1] (1 : ℚ) ([.pinf, .nan, .fin 4, .fin 5].foldl keep [.fin 0, .fin 0]) (.fin 6)) :=
  movingAverage_recovers _ _ _ _ _ (by simp) ⟨6, rfl⟩ (by simp [IsNumber])
example : movingAverage [1, 1] (1 : ℚ) ([.pinf, .nan, .fin 4, .fin 5].foldl keep [.fin 0, .fin 0]) (.fin 6) = .fin 15 := by decide +kernel

/-! ### C196 -/

/-- A low pass whose previous output is NaN outputs NaN for ever, for every alpha and all inputs. -/
theorem lowPass_stuck_violated (alpha : K) (xs : List (XVal K)) : lowPasses alpha .nan xs = .nan := by
  induction xs with
  | nil => rfl
  | cons x xs ih => simpa [lowPasses, lowPass] using ih

/-- One NaN at the input is enough, at any time. -/
theorem lowPass_one_nan_violated (alpha : K) (prev : XVal K) (xs ys : List (XVal K)) : lowPasses alpha prev (xs ++ .nan :: ys) = .nan := by
  have h : lowPasses alpha prev (xs ++ .nan :: ys) = lowPasses alpha .nan ys := by simp [lowPasses, lowPass]
  rw [h, lowPass_stuck_violated]

/-- One infinite value at the input, too: no later output is a number. -/
theorem lowPass_infinite_violated [IsStrictOrderedRing K] (alpha : K) (h0 : 0 < alpha) (h1 : alpha < 1) (xs : List (XVal K)) (prev : XVal K) (hp : ¬ IsNumber prev) :
    ¬ IsNumber (lowPasses alpha prev xs) := by
  induction xs generalizing prev with
  | nil => exact hp
  | cons x xs ih =>
    refine ih _ ?_
    rintro ⟨q, hq⟩
    have h2 : 0 < 1 - alpha := sub_pos.2 h1
    have e : ∀ a : K, 0 < a → infOf a = .pinf ∧ infOf (-a) = .ninf := fun a ha => ⟨by simp [infOf, ha], by simp [infOf, ha, not_lt.2 ha.le]⟩
    obtain ⟨e1, e2⟩ := e _ h0
    obtain ⟨e3, e4⟩ := e _ h2
    unfold lowPass at hq
    cases prev with
    | fin p => exact hp ⟨p, rfl⟩
    | nan => simp at hq
    | pinf => cases x <;> simp only [mul, e1, e2, e3, e4, add] at hq <;> cases hq
    | ninf => cases x <;> simp only [mul, e1, e2, e3, e4, add] at hq <;> cases hq

/-- A rate limiter whose previous output is infinite (an infinite first input, or one which passed while the limiter was disabled) never limits again: the
output stays infinite for all inputs which are numbers. -/
theorem rateLimiter_stuck_violated [IsStrictOrderedRing K] (falling rising : K) (ins : List (K × K)) (hd : ∀ i ∈ ins, 0 < i.2) :
    rateLimits falling rising .pinf (ins.map (fun i => (.fin i.1, i.2))) = .pinf ∧ rateLimits falling rising .ninf (ins.map (fun i => (.fin i.1, i.2))) = .ninf := by
  induction ins with
  | nil => exact ⟨rfl, rfl⟩
  | cons i l ih =>
    have h : 0 < i.2 := hd i (by simp)
    have h1 : rateLimit falling rising i.2 .pinf (.fin i.1) = .pinf := by
      simp [rateLimit, sub, neg, add, div, h.ne', infOf, h, not_lt.2 h.le, XVal.lt]
    have h2 : rateLimit falling rising i.2 .ninf (.fin i.1) = .ninf := by
      simp [rateLimit, sub, neg, add, div, h.ne', infOf, h, XVal.lt]
    have ih := ih (fun j hj => hd j (by simp [hj]))
    simp only [rateLimits, List.map_cons, List.foldl_cons, h1, h2] at ih ⊢
    exact ih

/-- The first input passes whatever it is: `outPrev` starts with NaN (RateLimiter.hpp:62). -/
theorem rateLimiter_first (falling rising dt : K) (x : XVal K) : rateLimit falling rising dt .nan x = x := by simp [rateLimit]

/-- After an invalid input the limiter follows any step at once: NaN becomes the previous output, and then every input passes. -/
theorem rateLimiter_jump_violated (falling rising dt dt' : K) (prev x : XVal K) : rateLimit falling rising dt' (rateLimit falling rising dt prev .nan) x = x := by
  simp [rateLimit]

theorem ztf_nan (a0 b0 : K) (as bs : List K) (ins outs : List (XVal K)) (x : XVal K) (ha : as ≠ []) (hb : bs ≠ []) (hi : ins ≠ []) :
    ztf a0 b0 as bs ins (.nan :: outs) x = .nan := by
  have h : ∀ (l : List ((XVal K × K) × XVal K × K)), l.foldl (fun acc p => add acc (sub (mul p.1.1 (.fin p.1.2)) (mul p.2.1 (.fin p.2.2)))) (.nan : XVal K) = .nan := by
    intro l
    induction l with
    | nil => rfl
    | cons p l ih => simpa using ih
  obtain ⟨a, as, rfl⟩ := List.exists_cons_of_ne_nil ha
  obtain ⟨b, bs, rfl⟩ := List.exists_cons_of_ne_nil hb
  obtain ⟨i, ins, rfl⟩ := List.exists_cons_of_ne_nil hi
  simp [ztf, h]

/-- A transfer function of order one or more whose last output was NaN outputs NaN for ever: even if the coefficient of that output is 0, as in the
differentiator made by `ZTransferFunction::D`. -/
theorem ztf_stuck_violated (a0 b0 : K) (as bs : List K) (ha : as ≠ []) (hb : bs ≠ []) (xs ins outs : List (XVal K)) (hi : ins ≠ []) (ho : outs ≠ [])
    (h : outs.head? = some .nan) : (ztfs a0 b0 as bs (ins, outs) xs).2.head? = some .nan := by
  induction xs generalizing ins outs with
  | nil => exact h
  | cons x xs ih =>
    obtain ⟨o, outs, rfl⟩ := List.exists_cons_of_ne_nil ho
    obtain ⟨i, ins, rfl⟩ := List.exists_cons_of_ne_nil hi
    simp only [List.head?_cons, Option.some.injEq] at h
    subst h
    rw [ztfs, ztf_nan _ _ _ _ _ _ _ ha hb hi]
    exact ih _ _ (by simp [push]) (by simp [push]) (by simp [push])

example : (ztfs (1 : ℚ) 1 [0] [-1] ([.fin 3], [.nan]) [.fin 4, .fin 5, .fin 6]).2.head? = some .nan := ztf_stuck_violated _ _ _ _ (by simp) (by simp) _ _ _ (by simp) (by simp) rfl

theorem dot_nan {n : Nat} (r x : Fin n → XVal K) (k : Fin n) (h : x k = .nan) : dot r x = .nan := by
  have key : ∀ (l : List (Fin n)) (a : XVal K), (a = .nan ∨ k ∈ l) → l.foldl (fun acc k => add acc (mul (r k) (x k))) a = .nan := by
    intro l
    induction l with
    | nil => intro a ha; simpa using ha
    | cons j l ih =>
      intro a ha
      refine ih _ ?_
      rcases ha with rfl | ha
      · left; simp
      · rcases List.mem_cons.1 ha with rfl | ha
        · left; simp [h]
        · exact Or.inr ha
  exact key _ _ (Or.inr (List.mem_finRange k))

/-- One component of the state of the Kalman filter is NaN: after a prediction all components are, whatever the matrices. -/
theorem kalman_spreads_violated {n m : Nat} (A : Fin n → Fin n → XVal K) (B : Fin n → Fin m → XVal K) (u : Fin m → XVal K) (x : Fin n → XVal K) (k : Fin n)
    (h : x k = .nan) (i : Fin n) : predict A B u x i = .nan := by
  simp [predict, dot_nan (A i) x k h]

/-- Predictions and corrections with any gains, matrices, measurements and inputs leave a state of NaN as it is. -/
inductive KOp (K : Type) (n m p : Nat) where
  | predict (A : Fin n → Fin n → XVal K) (B : Fin n → Fin m → XVal K) (u : Fin m → XVal K)
  | correct (G : Fin n → Fin p → XVal K) (C : Fin p → Fin n → XVal K) (D : Fin p → Fin m → XVal K) (y : Fin p → XVal K) (u : Fin m → XVal K)

def kstep {n m p : Nat} (x : Fin n → XVal K) : KOp K n m p → Fin n → XVal K
  | .predict A B u => predict A B u x
  | .correct G C D y u => correct G C D y u x

theorem kalman_stuck_violated {n m p : Nat} (ops : List (KOp K n m p)) (x : Fin n → XVal K) (k : Fin n) (h : x k = .nan) : (ops.foldl kstep x) k = .nan := by
  induction ops generalizing x with
  | nil => exact h
  | cons o l ih =>
    refine ih _ ?_
    cases o with
    | predict A B u => exact kalman_spreads_violated A B u x k h k
    | correct G C D y u => simp [kstep, correct, h]

/-- One measurement of NaN is enough: it makes the whole state NaN, gains of 0 included. -/
theorem kalman_measurement_violated {n m p : Nat} (G : Fin n → Fin p → XVal K) (C : Fin p → Fin n → XVal K) (D : Fin p → Fin m → XVal K) (y : Fin p → XVal K)
    (u : Fin m → XVal K) (x : Fin n → XVal K) (j : Fin p) (h : y j = .nan) (i : Fin n) : correct G C D y u x i = .nan := by
  have h' : dot (G i) (fun j => sub (sub (y j) (dot (C j) x)) (dot (D j) u)) = .nan := dot_nan _ _ j (by simp [h])
  simp [correct, h']

example : lowPasses (1 / 2 : ℚ) (.fin 3) [.fin 4, .nan, .fin 5, .fin 6] = .nan := lowPass_one_nan_violated _ _ [.fin 4] [.fin 5, .fin 6]
example : lowPasses (1 / 2 : ℚ) (.fin 3) [.fin 5, .fin 6] = .fin 5 := by decide +kernel
example : ¬ IsNumber (lowPasses (1 / 2 : ℚ) .pinf [.fin 5, .ninf]) := lowPass_infinite_violated _ (by norm_num) (by norm_num) _ _ (by simp [IsNumber])
example : rateLimits (-1 : ℚ) 1 .pinf [(.fin 5, 1), (.fin 6, 2)] = .pinf := (rateLimiter_stuck_violated (-1 : ℚ) 1 [(5, 1), (6, 2)] (by simp)).1
example : rateLimit (-1 : ℚ) 1 1 (rateLimit (-1) 1 1 (.fin 3) .nan) (.fin 1000) = .fin 1000 := rateLimiter_jump_violated _ _ _ _ _ _
/-- `ZTransferFunction::D(1, 1)`: the output is the difference of the inputs. -/
example : (ztf (1 : ℚ) 1 [0] [-1] [.fin 3] [.fin 1] (.fin 7), (ztfs (1 : ℚ) 1 [0] [-1] ([.fin 3], [.fin 1]) [.nan, .fin 4, .fin 5, .fin 6]).2) = (.fin 4, [.nan]) := by
  decide +kernel

/-! ### C197 -/

/-- The saturation clamps infinite inputs to the limits. -/
theorem saturation_infinite (l u : K) : Saturation.clamp (.fin l) (.fin u) (.pinf : XVal K) = .fin u ∧ Saturation.clamp (.fin l) (.fin u) (.ninf : XVal K) = .fin l := by
  constructor <;> rfl

/-- The integrator holds its limits whatever the inputs: a number between the limits stays one. -/
theorem integrator_limited (lower upper : K) (p : K) (hp : lower < p ∧ p < upper) (ins : List (XVal K × K)) :
    ∃ q, ins.foldl (fun q i => integrate lower upper i.2 q i.1) (.fin p) = .fin q ∧ lower < q ∧ q < upper := by
  induction ins generalizing p with
  | nil => exact ⟨p, rfl, hp⟩
  | cons i l ih =>
    rw [List.foldl_cons]
    have : ∃ q, integrate lower upper i.2 (.fin p) i.1 = .fin q ∧ lower < q ∧ q < upper := by
      unfold integrate
      cases hv : add (.fin p) (mul i.1 (.fin i.2)) with
      | fin q =>
        simp only [lt_fin, Bool.and_eq_true, decide_eq_true_eq]
        split
        · next h => exact ⟨q, rfl, h.2, h.1⟩
        · exact ⟨p, rfl, hp⟩
      | pinf => exact ⟨p, by simp [XVal.lt], hp⟩
      | ninf => exact ⟨p, by simp [XVal.lt], hp⟩
      | nan => exact ⟨p, by simp, hp⟩
    obtain ⟨q, hq, h⟩ := this
    rw [hq]
    exact ih q h

/-- The signal checker takes every value which is not a number for a violation of its range. -/
theorem checker_fires (s : SignalChecker.St K) (v : XVal K) (h : ¬ IsNumber v) : SignalChecker.exceeded s v = true := by
  cases v with
  | fin q => exact absurd ⟨q, rfl⟩ h
  | pinf => rfl
  | ninf => rfl
  | nan => rfl

/-- NaN passes the saturation, whatever the limits. -/
theorem saturation_nan_violated (l u : K) : Saturation.clamp (.fin l) (.fin u) (.nan : XVal K) = .nan := rfl

/-- Infinite values and NaN pass the wrap around, whatever the range. -/
theorem wrap_violated [IsStrictOrderedRing K] [FloorRing K] (min max : K) (h : min < max) (x : XVal K) (hx : ¬ IsNumber x) : wrap min max x = x := by
  have hd : 0 < |max - min| := abs_pos.2 (sub_ne_zero.2 h.ne')
  cases x with
  | fin q => exact absurd ⟨q, rfl⟩ hx
  | nan => simp [wrap]
  | pinf => simp [wrap, sub, neg, add, div, hd, hd.ne', infOf, xfloor, mul, XVal.lt]
  | ninf => simp [wrap, sub, neg, add, div, hd, hd.ne', infOf, xfloor, mul, XVal.lt, not_lt.2 hd.le]

/-- A checker which watches for values inside a range (`offRange`) never fires on NaN, although no value is known to be outside. -/
theorem checker_off_range_violated (s : SignalChecker.St K) (h : s.offRange = true) (reached : Bool) : (SignalChecker.run s .nan reached).2 = false := by
  simp [SignalChecker.run, h, SignalChecker.within]

example : ∃ q, [((.nan : XVal ℚ), (1 : ℚ)), (.pinf, 1), (.fin 3, 1), (.fin 30, 1)].foldl (fun q i => integrate 0 10 i.2 q i.1) (.fin 4) = .fin q ∧ 0 < q ∧ q < 10 :=
  integrator_limited 0 10 4 (by norm_num) _
example : [((.nan : XVal ℚ), (1 : ℚ)), (.pinf, 1), (.fin 3, 1), (.fin 30, 1)].foldl (fun q i => integrate 0 10 i.2 q i.1) (.fin 4) = .fin 7 := by decide +kernel
example : wrap (0 : ℚ) 5 .pinf = .pinf ∧ wrap (0 : ℚ) 5 (.fin 13) = .fin 3 := by decide +kernel
example : SignalChecker.exceeded (SignalChecker.new (0 : ℚ) 5 false) .nan = true := checker_fires _ _ (by simp [IsNumber])

example : rateLimit (-3 : ℚ) 1 2 (.fin 5) (.fin 9) = .fin 7 := by
  have := rateLimit_finite (K := ℚ) { prev := some 5, prevTs := 0, falling := -3, rising := 1, enabled := true } 5 9 2 rfl
  exact this.trans (by decide +kernel)

end Verif.Control.Special
