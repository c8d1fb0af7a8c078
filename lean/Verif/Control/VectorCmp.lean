import Verif.Common.XArith
import Mathlib.Algebra.Order.Ring.Rat
import Mathlib.Algebra.Field.Rat
import Mathlib.Data.List.FinRange
import Mathlib.Data.Fin.VecNotation
import Mathlib.Data.Fintype.Basic
import Mathlib.Data.Fintype.Pi
import Mathlib.Tactic.Linarith
import Mathlib.Tactic.Push
import Mathlib.Tactic.Ring
/-!
C204, C205, C206, C207: the comparison operators of matrices (includes/eeros/math/Matrix.hpp:462-551) and the blocks which apply them to a whole vector:
the integrator (I.hpp), the signal checker without norm (SignalChecker.hpp), the switch (Switch.hpp) and the gain with a matrix as gain (Gain.hpp).  A matrix is
the family of its `n` elements; the operators visit them in any order with the same result, as nothing but the returned value depends on the order.
-/
namespace Verif.Control.VectorCmp
open XVal

section Model
variable {K : Type} [Field K] [LinearOrder K] {n : Nat}

abbrev Vec (K : Type) (n : Nat) := Fin n → XVal K
/-- A matrix all whose elements are numbers. -/
def num (a : Fin n → K) : Vec K n := fun i => .fin (a i)

/-- `operator==`, 462-470: false as soon as one pair of elements is `!=`. -/
def veq (x y : Vec K n) : Bool := (List.finRange n).all fun i => !(!(eq (x i) (y i)))
/-- `operator!=`, 477-486. -/
def vne (x y : Vec K n) : Bool := (List.finRange n).any fun i => !(eq (x i) (y i))
/-- `operator<`, 493-502: false as soon as one element is `>=`. -/
def vlt (x y : Vec K n) : Bool := (List.finRange n).all fun i => !(le (y i) (x i))
/-- `operator<=`, 509-518: false as soon as one element is `>`. -/
def vle (x y : Vec K n) : Bool := (List.finRange n).all fun i => !(lt (y i) (x i))
/-- `operator>`, 525-534: false as soon as one element is `<=`. -/
def vgt (x y : Vec K n) : Bool := (List.finRange n).all fun i => !(le (x i) (y i))
/-- `operator>=`, 541-550: false as soon as one element is `<`. -/
def vge (x y : Vec K n) : Bool := (List.finRange n).all fun i => !(lt (x i) (y i))

/-- `valprev + valin * dt` (I.hpp:69). -/
def advance (prev x : Vec K n) (dt : K) : Vec K n := fun i => add (prev i) (mul (x i) (.fin dt))

/-- `I::run` (I.hpp:65-73), enabled: the new output, which is also the new `prev`. -/
def integrate (lower upper : Fin n → K) (prev x : Vec K n) (dt : K) : Vec K n :=
  let val := advance prev x dt
  if vlt val (num upper) && vgt val (num lower) then val else prev

/-- Runs with inputs and the time since the previous run. -/
def integrates (lower upper : Fin n → K) (prev : Vec K n) (ins : List (Vec K n × K)) : Vec K n :=
  ins.foldl (fun p i => integrate lower upper p i.1 i.2) prev

/-- `I::setLimit` (I.hpp:119-125): the new `prev`. -/
def setLimit (upper lower : Fin n → K) (prev : Vec K n) : Vec K n :=
  let p := if vgt prev (num upper) then num upper else prev
  if vlt prev (num lower) then num lower else p

/-- `SignalChecker::limitsExceeded` without norm (SignalChecker.hpp:174-177). -/
def exceeded (lower upper : Fin n → K) (v : Vec K n) : Bool := !(vgt v (num lower) && vlt v (num upper))
/-- `SignalChecker::withinLimits` without norm (184-187). -/
def within (lower upper : Fin n → K) (v : Vec K n) : Bool := vgt v (num lower) && vlt v (num upper)

/-- `SignalChecker::run` (83-114) with safety event and without active level: the new `fired`, and whether the event is triggered. -/
def checker (lower upper : Fin n → K) (offRange : Bool) (fired : Bool) (v : Vec K n) : Bool × Bool :=
  if fired then (true, false)
  else if (if offRange then within lower upper v else exceeded lower upper v) then (true, true)
  else (false, false)

/-- Number of events triggered by runs with these values. -/
def events (lower upper : Fin n → K) (offRange : Bool) : Bool → List (Vec K n) → Nat
  | _, [] => 0
  | f, v :: vs => (if (checker lower upper offRange f v).2 then 1 else 0) + events lower upper offRange (checker lower upper offRange f v).1 vs

/-- The window test of `Switch::run` (Switch.hpp:60). -/
def inWindow (level delta : Fin n → K) (v : Vec K n) : Bool :=
  vlt v (num fun i => level i + delta i) && vgt v (num fun i => level i - delta i)

/-- The smooth change of `Gain::run` (Gain.hpp:110-124). -/
def glide (g target diff : Fin n → K) : Fin n → K :=
  let g1 := if vlt (num g) (num target) then
      (let h := fun i => g i + diff i
       if vgt (num h) (num target) then target else h)
    else g
  if vgt (num g1) (num target) then
    (let h := fun i => g1 i - diff i
     if vlt (num h) (num target) then target else h)
  else g1

/-- The limits of `Gain::run` (126-132). -/
def limit (g min max : Fin n → K) : Fin n → K :=
  let g1 := if vgt (num g) (num max) then max else g
  if vlt (num g1) (num min) then min else g1

/-- The gain after `k` runs with smooth change. -/
def gains (min max target diff : Fin n → K) : Nat → (Fin n → K) → (Fin n → K)
  | 0, g => g
  | k + 1, g => gains min max target diff k (limit (glide g target diff) min max)

/-- The condition of `Gain::setGain` (222). -/
def accepts (min max : Fin n → K) (c : Vec K n) : Bool := vle c (num max) && vge c (num min)

end Model

section Cmp
variable {K : Type} [Field K] [LinearOrder K] {n : Nat}

theorem lt_iff_not_le {a b : XVal K} (ha : a ≠ .nan) (hb : b ≠ .nan) : (!(le b a)) = lt a b := by
  cases a <;> cases b <;> simp_all [le, lt, eq]
  rename_i p q
  by_cases h : p < q
  · simp [h, not_lt.2 h.le, h.ne']
  · simp only [h, decide_false]
    rcases lt_or_eq_of_le (not_lt.1 h) with h | h <;> simp [h]

theorem le_iff_not_lt {a b : XVal K} (ha : a ≠ .nan) (hb : b ≠ .nan) : (!(lt b a)) = le a b := by
  cases a <;> cases b <;> simp_all [le, lt, eq]
  rename_i p q
  by_cases h : q < p
  · simp [h, not_lt.2 h.le, h.ne']
  · simp only [h, decide_false]
    rcases lt_or_eq_of_le (not_lt.1 h) with h | h <;> simp [h]

theorem nan_le (a : XVal K) : le .nan a = false := by cases a <;> rfl
theorem le_nan (a : XVal K) : le a .nan = false := by cases a <;> rfl

/-- **C204** (without NaN).  For matrices whose elements are numbers or infinities each operator does what its comment says: it compares every element. -/
theorem compares_every_element_partial (x y : Vec K n) (hx : ∀ i, x i ≠ .nan) (hy : ∀ i, y i ≠ .nan) :
    (vlt x y = true ↔ ∀ i, lt (x i) (y i) = true) ∧ (vle x y = true ↔ ∀ i, le (x i) (y i) = true) ∧
    (vgt x y = true ↔ ∀ i, lt (y i) (x i) = true) ∧ (vge x y = true ↔ ∀ i, le (y i) (x i) = true) := by
  simp only [vlt, vle, vgt, vge, List.all_eq_true, List.mem_finRange, true_implies]
  refine ⟨forall_congr' fun i => ?_, forall_congr' fun i => ?_, forall_congr' fun i => ?_, forall_congr' fun i => ?_⟩
  · rw [lt_iff_not_le (hx i) (hy i)]
  · rw [le_iff_not_lt (hx i) (hy i)]
  · rw [lt_iff_not_le (hy i) (hx i)]
  · rw [le_iff_not_lt (hy i) (hx i)]

/-- **C204**.  `==` holds exactly when every pair of elements compares equal (so never for a matrix with a NaN), and `!=` is its negation: for all values. -/
theorem equality_every_element (x y : Vec K n) :
    (veq x y = true ↔ ∀ i, eq (x i) (y i) = true) ∧ (vne x y = !(veq x y)) ∧ (∀ i, x i = .nan → veq x y = false) := by
  have h1 : veq x y = true ↔ ∀ i, eq (x i) (y i) = true := by simp [veq]
  refine ⟨h1, ?_, fun i hi => ?_⟩
  · by_cases h : veq x y = true
    · rw [h]; simp only [Bool.not_true]
      rw [vne, List.any_eq_false]; intro i _; simp [h1.1 h i]
    · have hf : veq x y = false := by simpa using h
      rw [hf]; simp only [Bool.not_false]
      rw [vne, List.any_eq_true]
      rw [h1] at h; push Not at h
      obtain ⟨i, hi⟩ := h
      exact ⟨i, List.mem_finRange i, by simpa using hi⟩
  · by_contra hc
    have := h1.1 (by simpa using hc) i
    rw [hi] at this; cases hy : y i <;> simp [hy, eq] at this

/-- **C204 is violated.**  Elements which are NaN count as smaller and as greater: an ordered comparison looks at the other elements only.  -/
theorem nan_elements_pass_violated (x y : Vec K n) :
    (vlt x y = true ↔ ∀ i, x i = .nan ∨ y i = .nan ∨ lt (x i) (y i) = true) ∧
    (vle x y = true ↔ ∀ i, x i = .nan ∨ y i = .nan ∨ le (x i) (y i) = true) ∧
    (vgt x y = true ↔ ∀ i, x i = .nan ∨ y i = .nan ∨ lt (y i) (x i) = true) ∧
    (vge x y = true ↔ ∀ i, x i = .nan ∨ y i = .nan ∨ le (y i) (x i) = true) := by
  simp only [vlt, vle, vgt, vge, List.all_eq_true, List.mem_finRange, true_implies]
  have key : ∀ (a b : XVal K), ((!(le b a)) = true ↔ a = .nan ∨ b = .nan ∨ lt a b = true) ∧
      ((!(lt b a)) = true ↔ a = .nan ∨ b = .nan ∨ le a b = true) := by
    intro a b
    by_cases ha : a = .nan
    · subst ha; simp [le_nan]
    · by_cases hb : b = .nan
      · subst hb; simp [nan_le]
      · rw [lt_iff_not_le ha hb, le_iff_not_lt ha hb]; simp [ha, hb]
  refine ⟨forall_congr' fun i => (key _ _).1, forall_congr' fun i => (key _ _).2, forall_congr' fun i => ?_, forall_congr' fun i => ?_⟩
  · rw [(key (y i) (x i)).1]; tauto
  · rw [(key (y i) (x i)).2]; tauto

/-- **C204 is violated**, at its worst: a matrix of NaNs is smaller and greater than every matrix (also than itself), while a NaN alone is neither. -/
theorem nan_smaller_and_greater_violated (y : Vec K n) :
    vlt (fun _ => .nan) y = true ∧ vgt (fun _ => .nan) y = true ∧ vle (fun _ => .nan) y = true ∧ vge (fun _ => .nan) y = true ∧
    (∀ b : XVal K, lt .nan b = false ∧ lt b .nan = false) := by
  obtain ⟨h1, h2, h3, h4⟩ := nan_elements_pass_violated (fun _ => .nan) y
  exact ⟨h1.2 fun i => .inl rfl, h3.2 fun i => .inl rfl, h2.2 fun i => .inl rfl, h4.2 fun i => .inl rfl, fun b => by cases b <;> exact ⟨rfl, rfl⟩⟩

theorem vlt_num (a b : Fin n → K) : vlt (num a) (num b) = true ↔ ∀ i, a i < b i := by
  rw [(compares_every_element_partial (num a) (num b) (fun _ => by simp [num]) (fun _ => by simp [num])).1]; simp [num]
theorem vgt_num (a b : Fin n → K) : vgt (num a) (num b) = true ↔ ∀ i, b i < a i := by
  rw [(compares_every_element_partial (num a) (num b) (fun _ => by simp [num]) (fun _ => by simp [num])).2.2.1]; simp [num]

/-- Two elements, one smaller and one greater: neither `<` nor `>` nor `<=` nor `>=`. -/
example : vlt (num ![(0 : ℚ), 1]) (num ![1, 0]) = false ∧ vgt (num ![(0 : ℚ), 1]) (num ![1, 0]) = false ∧
    vlt (num ![(0 : ℚ), 1]) (num ![1, 2]) = true ∧ vle (num ![(0 : ℚ), 1]) (num ![0, 1]) = true := by decide +kernel
/-- One NaN beside a smaller element. -/
example : vlt ![XVal.nan, .fin (1 : ℚ)] (num ![5, 2]) = true ∧ vgt ![XVal.nan, .fin (1 : ℚ)] (num ![5, 0]) = true := by decide +kernel

end Cmp

section Integrator
variable {K : Type} [Field K] [LinearOrder K] [IsStrictOrderedRing K] {n : Nat}

omit [IsStrictOrderedRing K] in
theorem advance_num (p x : Fin n → K) (dt : K) : advance (num p) (num x) dt = num fun i => p i + x i * dt := by
  funext i; simp [advance, num]

omit [IsStrictOrderedRing K] in
/-- **C205** (numbers).  If every element of the sum stays within the limits the output is the sum, element by element; otherwise the output keeps its value. -/
theorem integrates_if_inside (lower upper p x : Fin n → K) (dt : K) :
    ((∀ i, lower i < p i + x i * dt ∧ p i + x i * dt < upper i) → integrate lower upper (num p) (num x) dt = num fun i => p i + x i * dt) ∧
    ((∃ i, p i + x i * dt ≤ lower i ∨ upper i ≤ p i + x i * dt) → integrate lower upper (num p) (num x) dt = num p) := by
  constructor
  · intro h
    simp only [integrate, advance_num]
    rw [if_pos]
    rw [Bool.and_eq_true, vlt_num, vgt_num]
    exact ⟨fun i => (h i).2, fun i => (h i).1⟩
  · rintro ⟨i, h⟩
    simp only [integrate, advance_num]
    rw [if_neg]
    rw [Bool.and_eq_true, vlt_num, vgt_num]
    rintro ⟨h1, h2⟩
    rcases h with h | h
    · exact absurd (h2 i) (not_lt.2 h)
    · exact absurd (h1 i) (not_lt.2 h)

omit [IsStrictOrderedRing K] in
/-- **C205** (numbers).  From a value within the limits, whatever the numbers at the input and the times are, every element stays within its limits. -/
theorem elements_limited_partial (lower upper : Fin n → K) (ins : List ((Fin n → K) × K)) (p : Fin n → K)
    (h : ∀ i, lower i < p i ∧ p i < upper i) :
    ∃ q, integrates lower upper (num p) (ins.map fun e => (num e.1, e.2)) = num q ∧ ∀ i, lower i < q i ∧ q i < upper i := by
  induction ins generalizing p with
  | nil => exact ⟨p, rfl, h⟩
  | cons e es ih =>
    simp only [List.map_cons, integrates, List.foldl_cons]
    by_cases hin : ∀ i, lower i < p i + e.1 i * e.2 ∧ p i + e.1 i * e.2 < upper i
    · rw [(integrates_if_inside lower upper p e.1 e.2).1 hin]
      exact ih _ hin
    · rw [(integrates_if_inside lower upper p e.1 e.2).2 (by
        push Not at hin; obtain ⟨i, hi⟩ := hin
        by_cases h1 : lower i < p i + e.1 i * e.2
        · exact ⟨i, .inr (hi h1)⟩
        · exact ⟨i, .inl (not_lt.1 h1)⟩)]
      exact ih _ h

example : ∃ q, integrates ![-1, -9] ![1, 9] (num ![(1/2 : ℚ), 0]) [(num ![1, 1], 1), (num ![0, 1], 1)] = num q ∧ ∀ i, (![-1, -9] : Fin 2 → ℚ) i < q i ∧ q i < (![1, 9] : Fin 2 → ℚ) i :=
  elements_limited_partial ![-1, -9] ![1, 9] [(![1, 1], 1), (![0, 1], 1)] ![1/2, 0] (by decide +kernel)

omit [IsStrictOrderedRing K] in
/-- **C205 is violated.**  "will not integrate above the upper or below the lower limit but will stay at this limiting values": once an element cannot move because
of its limit, no element moves, for as long as the input of that element points outwards: the other elements lose all of their input. -/
theorem one_limit_stops_all_violated (lower upper p : Fin n → K) (j : Fin n) (ins : List ((Fin n → K) × K))
    (h : ∀ e ∈ ins, upper j ≤ p j + e.1 j * e.2) :
    integrates lower upper (num p) (ins.map fun e => (num e.1, e.2)) = num p := by
  induction ins with
  | nil => rfl
  | cons e es ih =>
    simp only [List.map_cons, integrates, List.foldl_cons]
    rw [(integrates_if_inside lower upper p e.1 e.2).2 ⟨j, .inr (h e (List.mem_cons_self ..))⟩]
    exact ih fun e he => h e (List.mem_cons_of_mem _ he)

example (m : ℕ) : integrates ![-1, -9] ![1, 9] (num ![(1/2 : ℚ), 0]) ((List.replicate m (![1, 1], 1)).map fun e => (num e.1, e.2)) = num ![1/2, 0] :=
  one_limit_stops_all_violated _ _ _ 0 _ (fun e he => by rw [(List.mem_replicate.1 he).2]; norm_num)

omit [IsStrictOrderedRing K] in
/-- **C205 is violated.**  `setLimit` brings no element within the new limits unless all of them are above (or all below): an element stays outside next to one
which is inside. -/
theorem setLimit_leaves_outside_violated (lower upper p : Fin n → K) (j : Fin n) (hj : lower j ≤ p j ∧ p j ≤ upper j) :
    setLimit upper lower (num p) = num p := by
  simp only [setLimit]
  have h1 : vgt (num p) (num upper) = false := by
    rw [Bool.eq_false_iff, Ne, vgt_num]; exact fun h => absurd (h j) (not_lt.2 hj.2)
  have h2 : vlt (num p) (num lower) = false := by
    rw [Bool.eq_false_iff, Ne, vlt_num]; exact fun h => absurd (h j) (not_lt.2 hj.1)
  simp [h1, h2]

example : setLimit ![1, 1] ![-1, -1] (num ![(5 : ℚ), 0]) = num ![5, 0] := setLimit_leaves_outside_violated _ _ _ 1 (by norm_num)

omit [IsStrictOrderedRing K] in
/-- **C205** (the case which works).  If all elements are above the new upper limits, they are set to these. -/
theorem setLimit_all_above (lower upper p : Fin n → K) (j : Fin n) (hl : lower j ≤ upper j) (h : ∀ i, upper i < p i) :
    setLimit upper lower (num p) = num upper := by
  simp only [setLimit]
  have h2 : vlt (num p) (num lower) = false := by
    rw [Bool.eq_false_iff, Ne, vlt_num]; exact fun hc => absurd (hc j) (not_lt.2 (hl.trans (h j).le))
  rw [if_pos ((vgt_num _ _).2 h)]; simp [h2]

omit [IsStrictOrderedRing K] in
/-- **C205 is violated.**  A NaN in one element of the input reaches that element of the output, as the limits let it pass (the other elements being within), … -/
theorem nan_input_enters_violated (lower upper p : Fin n → K) (x : Vec K n) (dt : K) (j : Fin n) (hj : x j = .nan)
    (h : ∀ i, i ≠ j → ∃ a, x i = .fin a ∧ lower i < p i + a * dt ∧ p i + a * dt < upper i) :
    integrate lower upper (num p) x dt j = .nan := by
  have hv : ∀ i, advance (num p) x dt i = .nan ∨ ∃ q, advance (num p) x dt i = .fin q ∧ lower i < q ∧ q < upper i := by
    intro i
    by_cases hi : i = j
    · subst hi; left; simp [advance, hj]
    · obtain ⟨a, ha, h1, h2⟩ := h i hi
      right; exact ⟨p i + a * dt, by simp [advance, ha, num], h1, h2⟩
  simp only [integrate]
  rw [if_pos]
  · simp [advance, hj]
  · rw [Bool.and_eq_true, (nan_elements_pass_violated _ _).1, (nan_elements_pass_violated _ _).2.2.1]
    refine ⟨fun i => ?_, fun i => ?_⟩
    · rcases hv i with h | ⟨q, h, h1, h2⟩
      · exact .inl h
      · right; right; simp [h, num, h2]
    · rcases hv i with h | ⟨q, h, h1, h2⟩
      · exact .inl h
      · right; right; simp [h, num, h1]

omit [IsStrictOrderedRing K] in
/-- … and never leaves it again, whatever the inputs are (only `setInitCondition` or a call of `setLimit` removes it). -/
theorem nan_stays_violated (lower upper : Fin n → K) (p : Vec K n) (j : Fin n) (hj : p j = .nan) (ins : List (Vec K n × K)) :
    integrates lower upper p ins j = .nan := by
  induction ins generalizing p with
  | nil => exact hj
  | cons e es ih =>
    simp only [integrates, List.foldl_cons]
    refine ih _ ?_
    simp only [integrate]
    split
    · simp [advance, hj]
    · exact hj

omit [IsStrictOrderedRing K] in
/-- **C205 is violated.**  Limits set before the initial condition: the cleared state of the integrator (a vector of NaNs) is above and below the limits, and the
integrator starts at the lower limit (a scalar one stays NaN until `setInitCondition` is called). -/
theorem setLimit_starts_low_violated (lower upper : Fin n → K) : setLimit upper lower (fun _ => .nan) = num lower := by
  simp [setLimit, (nan_smaller_and_greater_violated _).1]

/-- Element 0 at its limit: element 1 gets input 1 for two seconds and does not move; without that it would reach 2. -/
example : integrates ![-1, -9] ![1, 9] (num ![(1/2 : ℚ), 0]) [(num ![1, 1], 1), (num ![1, 1], 1)] = num ![1/2, 0] ∧
    integrates ![-1, -9] ![1, 9] (num ![(1/2 : ℚ), 0]) [(num ![0, 1], 1), (num ![0, 1], 1)] = num ![1/2, 2] := by decide +kernel
example : setLimit ![1, 1] ![-1, -1] (num ![(5 : ℚ), 0]) = num ![5, 0] ∧ setLimit ![1, 1] ![-1, -1] (num ![(5 : ℚ), 7]) = num ![1, 1] := by decide +kernel
example : integrates ![-1, -9] ![1, 9] (num ![(1/2 : ℚ), 0]) [(![.nan, .fin 1], 1), (num ![0, 1], 1)] = ![.nan, .fin 2] := by decide +kernel

end Integrator

section Checker
variable {K : Type} [Field K] [LinearOrder K] {n : Nat}

/-- **C206** (numbers).  A checker of a vector triggers its event when an element is not strictly within its limits, an off-range checker when all are. -/
theorem fires_on_numbers_partial (lower upper a : Fin n → K) :
    ((checker lower upper false false (num a)).2 = true ↔ ∃ i, a i ≤ lower i ∨ upper i ≤ a i) ∧
    ((checker lower upper true false (num a)).2 = true ↔ ∀ i, lower i < a i ∧ a i < upper i) := by
  have hw : within lower upper (num a) = true ↔ ∀ i, lower i < a i ∧ a i < upper i := by
    rw [within, Bool.and_eq_true, vgt_num, vlt_num]
    exact ⟨fun h i => ⟨h.1 i, h.2 i⟩, fun h => ⟨fun i => (h i).1, fun i => (h i).2⟩⟩
  have he : exceeded lower upper (num a) = !(within lower upper (num a)) := rfl
  constructor
  · by_cases h : within lower upper (num a) = true
    · have h' : ¬ ∃ i, a i ≤ lower i ∨ upper i ≤ a i := by
        rintro ⟨i, hi⟩
        have := hw.1 h i
        rcases hi with hi | hi
        · exact absurd this.1 (not_lt.2 hi)
        · exact absurd this.2 (not_lt.2 hi)
      simp [checker, he, h, h']
    · have h' : ∃ i, a i ≤ lower i ∨ upper i ≤ a i := by
        rw [hw] at h; push Not at h; obtain ⟨i, hi⟩ := h
        by_cases h1 : lower i < a i
        · exact ⟨i, .inr (hi h1)⟩
        · exact ⟨i, .inl (not_lt.1 h1)⟩
      simp [checker, he, h, h']
  · rw [← hw]
    by_cases h : within lower upper (num a) = true <;> simp [checker, h]

/-- **C206 is violated.**  Elements which are NaN are not checked: a vector whose other elements are within the limits never triggers the event, in any number of
runs – also when all elements are NaN. -/
theorem nan_not_detected_violated (lower upper : Fin n → K) (vs : List (Vec K n))
    (h : ∀ v ∈ vs, ∀ i, v i = .nan ∨ ∃ a, v i = .fin a ∧ lower i < a ∧ a < upper i) :
    events lower upper false false vs = 0 := by
  induction vs with
  | nil => rfl
  | cons v vs ih =>
    have hv := h v (List.mem_cons_self ..)
    have hw : vgt v (num lower) = true ∧ vlt v (num upper) = true := by
      rw [(nan_elements_pass_violated _ _).1, (nan_elements_pass_violated _ _).2.2.1]
      refine ⟨fun i => ?_, fun i => ?_⟩
      · rcases hv i with h | ⟨a, h, h1, h2⟩
        · exact .inl h
        · right; right; simp [h, num, h1]
      · rcases hv i with h | ⟨a, h, h1, h2⟩
        · exact .inl h
        · right; right; simp [h, num, h2]
    have hc : checker lower upper false false v = (false, false) := by simp [checker, exceeded, hw]
    rw [events, hc]
    simpa using ih fun v hv => h v (List.mem_cons_of_mem _ hv)

omit [Field K] in
/-- **C206**.  Between two resets the event is triggered at most once. -/
theorem fires_once (lower upper : Fin n → K) (off f : Bool) (vs : List (Vec K n)) : events lower upper off f vs ≤ 1 := by
  have h0 : ∀ vs : List (Vec K n), events lower upper off true vs = 0 := by
    intro vs; induction vs with
    | nil => rfl
    | cons v vs ih => simp [events, checker, ih]
  induction vs generalizing f with
  | nil => simp [events]
  | cons v vs ih =>
    cases f
    · by_cases hc : (if off then within lower upper v else exceeded lower upper v) = true
      · simp [events, checker, hc, h0]
      · have : checker lower upper off false v = (false, false) := by simp only [checker, Bool.false_eq_true, if_false, hc]
        rw [events, this]; simpa using ih false
    · rw [h0]; omega

/-- **C206** (switch, numbers).  A switch of vectors switches when every element is within its window. -/
theorem window_on_numbers (level delta a : Fin n → K) :
    inWindow level delta (num a) = true ↔ ∀ i, level i - delta i < a i ∧ a i < level i + delta i := by
  rw [inWindow, Bool.and_eq_true, vgt_num, vlt_num]
  exact ⟨fun h i => ⟨h.2 i, h.1 i⟩, fun h => ⟨fun i => (h i).2, fun i => (h i).1⟩⟩

/-- **C206 is violated** (switch).  A vector of NaNs (the value of a signal which was cleared) is within every window: an armed switch of vectors switches. -/
theorem window_nan_violated (level delta : Fin n → K) : inWindow level delta (fun _ => .nan) = true := by
  simp [inWindow, (nan_smaller_and_greater_violated _).1, (nan_smaller_and_greater_violated _).2.1]

/-- One element too large triggers the event once; a NaN at its place does not. -/
example : events ![-1, -1] ![1, 1] false false [num ![(0 : ℚ), 0], num ![0, 3], num ![0, 3]] = 1 ∧
    events ![(-1 : ℚ), -1] ![1, 1] false false [num ![0, 0], ![.fin 0, .nan], fun _ => .nan] = 0 := by decide +kernel
example : inWindow ![(5 : ℚ), 5] ![1, 1] (num ![5, 7]) = false ∧ inWindow ![(5 : ℚ), 5] ![1, 1] ![.nan, .fin 5] = true := by decide +kernel

end Checker

section Gain
variable {K : Type} [Field K] [LinearOrder K] {n : Nat}

theorem glide_stuck (g target diff : Fin n → K) (i j : Fin n) (hi : target i ≤ g i) (hj : g j ≤ target j) : glide g target diff = g := by
  have h1 : vlt (num g) (num target) = false := by
    rw [Bool.eq_false_iff, Ne, vlt_num]; exact fun h => absurd (h i) (not_lt.2 hi)
  have h2 : vgt (num g) (num target) = false := by
    rw [Bool.eq_false_iff, Ne, vgt_num]; exact fun h => absurd (h j) (not_lt.2 hj)
  simp [glide, h1, h2]

theorem limit_inside (g min max : Fin n → K) (i j : Fin n) (hi : g i ≤ max i) (hj : min j ≤ g j) : limit g min max = g := by
  have h1 : vgt (num g) (num max) = false := by
    rw [Bool.eq_false_iff, Ne, vgt_num]; exact fun h => absurd (h i) (not_lt.2 hi)
  have h2 : vlt (num g) (num min) = false := by
    rw [Bool.eq_false_iff, Ne, vlt_num]; exact fun h => absurd (h j) (not_lt.2 hj)
  simp [limit, h1, h2]

/-- **C207 is violated.**  A gain matrix with one element at or above its target and one at or below does not move any more, in any number of runs: the smooth
change never reaches the target.  That is so from the beginning if some elements are to grow and others to shrink, or if one element is not to change at all, and it
comes to that as soon as the first element reaches its target. -/
theorem smooth_change_stuck_violated (min max target diff g : Fin n → K) (i j : Fin n) (hi : target i ≤ g i) (hj : g j ≤ target j)
    (hg : ∃ a b, g a ≤ max a ∧ min b ≤ g b) (k : Nat) : gains min max target diff k g = g := by
  obtain ⟨a, b, ha, hb⟩ := hg
  induction k with
  | zero => rfl
  | succ k ih =>
    rw [gains, glide_stuck g target diff i j hi hj, limit_inside g min max a b ha hb]; exact ih

example (k : ℕ) : gains ![-99, -99] ![99, 99] ![1, 10] ![1, 1] k ![(1 : ℚ), 1] = ![1, 1] :=
  smooth_change_stuck_violated _ _ _ _ _ 0 1 (by norm_num) (by norm_num) ⟨0, 0, by norm_num, by norm_num⟩ k

/-- **C207 is violated.**  A gain matrix which is above its maximum in some elements only, and below its minimum in some only, is not limited at all. -/
theorem element_not_limited_violated (min max g : Fin n → K) (i j : Fin n) (hi : g i ≤ max i) (hj : min j ≤ g j) : limit g min max = g :=
  limit_inside g min max i j hi hj

example : limit ![(200 : ℚ), 0] ![-99, -99] ![99, 99] = ![200, 0] := element_not_limited_violated _ _ _ 1 0 (by norm_num) (by norm_num)

/-- **C207 is violated.**  `setGain` accepts a matrix of NaNs as gain, whatever the limits are. -/
theorem nan_gain_accepted_violated (min max : Fin n → K) : accepts min max (fun _ => .nan) = true := by
  obtain ⟨_, _, h3, h4, _⟩ := nan_smaller_and_greater_violated (num max : Vec K n)
  obtain ⟨_, _, _, h4, _⟩ := nan_smaller_and_greater_violated (num min : Vec K n)
  simp [accepts, h3, h4]

/-- **C207** (numbers).  `setGain` accepts a matrix of numbers exactly when every element is within its limits. -/
theorem accepts_numbers (min max c : Fin n → K) : accepts min max (num c) = true ↔ ∀ i, min i ≤ c i ∧ c i ≤ max i := by
  have h1 := (compares_every_element_partial (num c) (num max) (fun _ => by simp [num]) (fun _ => by simp [num])).2.1
  have h2 := (compares_every_element_partial (num c) (num min) (fun _ => by simp [num]) (fun _ => by simp [num])).2.2.2
  have hle : ∀ a b : K, le (.fin a : XVal K) (.fin b) = true ↔ a ≤ b := by
    intro a b; simp [le, eq, le_iff_lt_or_eq]
  rw [accepts, Bool.and_eq_true, h1, h2]
  simp only [num, hle]
  exact ⟨fun h i => ⟨h.2 i, h.1 i⟩, fun h => ⟨fun i => (h i).2, fun i => (h i).1⟩⟩

variable [IsStrictOrderedRing K]

/-- **C207** (the case which works).  If all elements have to grow by the same number of steps, the gain is at its target after that number of runs. -/
theorem smooth_change_reaches_partial (min max target diff : Fin n → K) (hd : ∀ i, 0 < diff i) (m : Nat) (g : Fin n → K)
    (ht : ∀ i, target i = g i + m * diff i) (hmin : ∀ i, min i ≤ g i) (hmax : ∀ i, target i ≤ max i) (i0 : Fin n) :
    gains min max target diff m g = target := by
  induction m generalizing g with
  | zero => rw [gains]; funext i; simp [ht i]
  | succ m ih =>
    have hlt : ∀ i, g i < target i := fun i => by
      have h0 : (0 : K) ≤ m * diff i := mul_nonneg (Nat.cast_nonneg m) (hd i).le
      have := hd i; rw [ht i]; push_cast; rw [add_mul, one_mul]; linarith
    have hle : ∀ i, g i + diff i ≤ target i := fun i => by
      have h0 : (0 : K) ≤ m * diff i := mul_nonneg (Nat.cast_nonneg m) (hd i).le
      rw [ht i]; push_cast; rw [add_mul, one_mul]; linarith
    have hgl : glide g target diff = fun i => g i + diff i := by
      have h2 : vgt (num fun i => g i + diff i) (num target) = false := by
        rw [Bool.eq_false_iff, Ne, vgt_num]; exact fun h => absurd (h i0) (not_lt.2 (hle i0))
      simp [glide, (vlt_num g target).2 hlt, h2]
    rw [gains, hgl, limit_inside _ min max i0 i0 ((hle i0).trans (hmax i0)) ((hmin i0).trans (by have := hd i0; linarith))]
    refine ih _ (fun i => ?_) fun i => (hmin i).trans (by have := hd i; linarith)
    rw [ht i]; push_cast; ring

omit [IsStrictOrderedRing K] in
/-- **C207** (one element).  With a single element the smooth change comes closer by `diff` or ends at the target, from below and from above. -/
theorem smooth_change_single (target diff g : Fin 1 → K) :
    (g 0 < target 0 → glide g target diff 0 = Min.min (g 0 + diff 0) (target 0)) ∧
    (target 0 < g 0 → glide g target diff 0 = Max.max (g 0 - diff 0) (target 0)) := by
  have one : ∀ P : Fin 1 → Prop, (∀ i, P i) ↔ P 0 := fun P => ⟨fun h => h 0, fun h i => by rwa [Subsingleton.elim i 0]⟩
  constructor
  · intro h
    have h1 : vlt (num g) (num target) = true := (vlt_num _ _).2 ((one _).2 h)
    by_cases ho : target 0 < g 0 + diff 0
    · have h2 : vgt (num fun i => g i + diff i) (num target) = true := (vgt_num _ _).2 ((one _).2 ho)
      have h3 : vgt (num target) (num target) = false := by
        rw [Bool.eq_false_iff, Ne, vgt_num, one]; exact lt_irrefl _
      simp [glide, h1, h2, h3, min_eq_right ho.le]
    · have h2 : vgt (num fun i => g i + diff i) (num target) = false := by
        rw [Bool.eq_false_iff, Ne, vgt_num, one]; exact ho
      simp [glide, h1, h2, min_eq_left (not_lt.1 ho)]
  · intro h
    have h1 : vlt (num g) (num target) = false := by
      rw [Bool.eq_false_iff, Ne, vlt_num, one]; exact not_lt.2 h.le
    have h1' : vgt (num g) (num target) = true := (vgt_num _ _).2 ((one _).2 h)
    by_cases ho : g 0 - diff 0 < target 0
    · have h2 : vlt (num fun i => g i - diff i) (num target) = true := (vlt_num _ _).2 ((one _).2 ho)
      simp [glide, h1, h1', h2, max_eq_right ho.le]
    · have h2 : vlt (num fun i => g i - diff i) (num target) = false := by
        rw [Bool.eq_false_iff, Ne, vlt_num, one]; exact ho
      simp [glide, h1, h1', h2, max_eq_left (not_lt.1 ho)]

/-- Two gains 0 with targets 1 and 10 in steps of 1 stop at 1 and 1; in steps of 2 the first one stops at 2, beyond its target; with targets 3 and 3 they arrive. -/
example : gains ![-99, -99] ![99, 99] ![1, 10] ![1, 1] 50 ![(0 : ℚ), 0] = ![1, 1] ∧
    gains ![-99, -99] ![99, 99] ![1, 10] ![2, 2] 50 ![(0 : ℚ), 0] = ![2, 2] ∧
    gains ![-99, -99] ![99, 99] ![3, 3] ![1, 1] 3 ![(0 : ℚ), 0] = ![3, 3] := by decide +kernel
example : limit ![(200 : ℚ), 0] ![-99, -99] ![99, 99] = ![200, 0] ∧ limit ![(200 : ℚ), 150] ![-99, -99] ![99, 99] = ![99, 99] := by decide +kernel

end Gain

/-- Case of `compares_every_element_partial`. -/
example := VectorCmp.compares_every_element_partial (num ![(0 : ℚ), 1]) (num ![1, 0]) (fun _ => by simp [num]) (fun _ => by simp [num])

end Verif.Control.VectorCmp
