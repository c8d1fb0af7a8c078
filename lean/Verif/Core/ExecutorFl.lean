import Verif.Control.DelayFl
import Mathlib.Algebra.Order.Round
/-!
The number of base periods of a periodic task as computed in doubles: `createThread`, src/core/Executor.cpp:59-61 and 82.  Periods are written in the program as
decimal numbers, `n T` for the task and `T` for its base task; both are rounded to doubles, and so are the quotient and the deviation.

Simplification: no overflow and no underflow of doubles.  The other conditions of `createThread` (priority, empty list) are in `Verif/Core/Executor.lean`, where
the arithmetic is exact.
-/
namespace Verif.Core.ExecutorFl
open Verif.Common.Round Verif.Common

inductive Outcome
  /-- the quotient does not fit into `int` -/
  | ub
  /-- "period deviation too high" -/
  | deviation
  /-- the task runs once in `k` periods of its base task -/
  | every (k : ℤ)
deriving DecidableEq, Repr

/-- Executor.cpp:59-61 and 82 for doubles `period > 0` and `base > 0`. -/
def divisor (period base : ℚ) : Outcome :=
  let q := rnd (period / base)
  let k := if 0 ≤ q then ⌊q⌋ else ⌈q⌉
  if k < -2147483648 ∨ 2147483647 < k then .ub
  else
    let actual := rnd (k * base)
    let dev := rnd (|rnd (period - actual)| / period)
    if dev > rnd (1 / 100) then .deviation else .every k

/-- A task whose period is written as `n T`, with a base task whose period is written as `T`. -/
def written (n : ℕ) (T : ℚ) : Outcome := divisor (rnd (n * T)) (rnd T)

/-! ### Lemmas -/

theorem floor_of_new {S : Type} (delay ts : ℚ) (n : ℕ) (h1 : 1 ≤ n) (h : (Verif.Control.DelayFl.new delay ts : Verif.Control.Delay.Ctor S) = .ok (Verif.Control.Delay.mk n)) :
    ⌊rnd (delay / ts)⌋ = (n : ℤ) := by
  unfold Verif.Control.DelayFl.new at h
  simp only at h
  split at h
  · cases h
  · split at h
    · cases h
    · have := congrArg Verif.Control.Delay.St.bufLen (Verif.Control.Delay.Ctor.ok.inj h)
      simp only [Verif.Control.Delay.mk] at this
      omega

/-- The quotient, cut, is `n` or `n - 1`. -/
theorem floor_near (n : ℕ) (T : ℚ) (hT : 0 < T) (h1 : 1 ≤ n) (h2 : n < 2 ^ 31) :
    ⌊rnd (rnd (n * T) / rnd T)⌋ = (n : ℤ) ∨ (2 ≤ n ∧ ⌊rnd (rnd (n * T) / rnd T)⌋ = (n : ℤ) - 1) := by
  rcases Verif.Control.DelayFl.written_near (S := ℕ) n T hT h1 (by omega) with h | ⟨h, h'⟩
  · exact Or.inl (floor_of_new _ _ n h1 h)
  · right
    have := floor_of_new _ _ (n - 1) (by omega) h'
    exact ⟨h, by rw [this]; omega⟩

/-- What the doubles are: period `p`, base period `B`, `n B`. -/
theorem sizes (n : ℕ) (T : ℚ) (hT : 0 < T) (h1 : 1 ≤ n) :
    |rnd T - T| ≤ T / 2 ^ 53 ∧ |rnd (n * T) - n * T| ≤ n * T / 2 ^ 53 ∧ |n * rnd T - n * T| ≤ n * T / 2 ^ 53 ∧ T ≤ n * T ∧ 0 < rnd T ∧ 0 < rnd (n * T) := by
  have hn : (1 : ℚ) ≤ n := by exact_mod_cast h1
  have hD : 0 < (n : ℚ) * T := by positivity
  have a := rnd_rel T
  have b := rnd_rel (n * T)
  rw [abs_of_pos hT] at a
  rw [abs_of_pos hD] at b
  have c : |(n : ℚ) * rnd T - n * T| ≤ n * T / 2 ^ 53 := by
    rw [← mul_sub, abs_mul, abs_of_pos (by linarith : (0 : ℚ) < n), mul_div_assoc]
    exact mul_le_mul_of_nonneg_left a (by linarith)
  refine ⟨a, b, c, by nlinarith, ?_, ?_⟩
  · have := (abs_le.1 a).1; norm_num at this; linarith
  · have := (abs_le.1 b).1; norm_num at this; linarith

theorem tol : 163 / 16384 < rnd (1 / 100) ∧ rnd (1 / 100) < 165 / 16384 := by
  have := abs_le.1 (rnd_rel (1 / 100))
  rw [abs_of_pos (by norm_num)] at this
  norm_num at this ⊢
  constructor <;> linarith [this.1, this.2]

theorem dyadic (m : ℤ) (hm : |m| ≤ 2 ^ 53) : rnd ((m : ℚ) / 16384) = m / 16384 := by
  have := rnd_exact m (-14) hm
  rw [show ((m : ℚ)) * 2 ^ (-14 : ℤ) = m / 16384 by norm_num; ring] at this
  exact this

theorem divisor_of_floor (p B : ℚ) (hp : 0 < p) (hB : 0 < B) (k : ℤ) (hk : 0 ≤ k) (hk2 : k ≤ 2147483647) (hf : ⌊rnd (p / B)⌋ = k) :
    divisor p B = if rnd (|rnd (p - rnd (k * B))| / p) > rnd (1 / 100) then .deviation else .every k := by
  have hq : 0 ≤ rnd (p / B) := by
    have : (0 : ℤ) ≤ ⌊rnd (p / B)⌋ := by omega
    exact Int.floor_nonneg.1 this
  unfold divisor
  simp only [hq, if_true, hf]
  rw [if_neg (by omega)]

theorem exact_accepted (n : ℕ) (T : ℚ) (hT : 0 < T) (h1 : 1 ≤ n) (h2 : n < 2 ^ 31) (hf : ⌊rnd (rnd (n * T) / rnd T)⌋ = (n : ℤ)) : written n T = .every n := by
  obtain ⟨a, b, c, d, e, f⟩ := sizes n T hT h1
  unfold written
  rw [divisor_of_floor _ _ f e n (by omega) (by omega) hf, if_neg]
  rw [not_lt]
  refine le_trans ?_ tol.1.le
  have hd := dyadic 163 (by norm_num)
  push_cast at hd
  rw [← hd]
  apply rnd_mono
  rw [div_le_iff₀ f]
  have r1 := rnd_rel ((n : ℚ) * rnd T)
  push_cast
  generalize hD : (n : ℚ) * T = D at *
  generalize rnd T = B at *
  generalize hE : (n : ℚ) * B = E at *
  generalize rnd D = p at *
  generalize rnd E = A at *
  have r2 := rnd_rel (p - A)
  generalize rnd (p - A) = R at *
  norm_num at a b c r1 r2
  rw [abs_le] at a b c
  have hE0 : 0 < E := by linarith
  rw [abs_of_pos hE0, abs_le] at r1
  have hpa : |p - A| ≤ D / 1000000 := by rw [abs_le]; constructor <;> linarith
  rw [abs_le] at r2 hpa
  have hab : |p - A| ≤ D / 1000000 := by rw [abs_le]; exact hpa
  have hR : |R| ≤ D / 100000 := by rw [abs_le]; constructor <;> linarith
  linarith

theorem short_bounds (n : ℕ) (T : ℚ) (hT : 0 < T) (h1 : 2 ≤ n) :
    ((n : ℚ) ≤ 99 → 165 / 16384 * rnd (n * T) ≤ |rnd (rnd (n * T) - rnd (((n : ℤ) - 1 : ℤ) * rnd T))|) ∧
    ((101 : ℚ) ≤ n → |rnd (rnd (n * T) - rnd (((n : ℤ) - 1 : ℤ) * rnd T))| ≤ 163 / 16384 * rnd (n * T)) := by
  obtain ⟨a, b, c, d, e, f⟩ := sizes n T hT (by omega)
  have h2 : (2 : ℚ) ≤ n := by exact_mod_cast h1
  have hm : ((((n : ℤ) - 1 : ℤ) : ℚ) * rnd T) = n * rnd T - rnd T := by push_cast; ring
  rw [hm]
  have hpos : 0 < (n : ℚ) * rnd T - rnd T := by nlinarith
  have r1 := rnd_rel ((n : ℚ) * rnd T - rnd T)
  rw [abs_of_pos hpos] at r1
  have i1 : (n : ℚ) ≤ 99 → (n : ℚ) * T ≤ 99 * T := fun h => by nlinarith
  have i2 : (101 : ℚ) ≤ n → 101 * T ≤ (n : ℚ) * T := fun h => by nlinarith
  generalize hD : (n : ℚ) * T = D at *
  generalize rnd T = B at *
  generalize hE : (n : ℚ) * B = E at *
  generalize rnd D = p at *
  generalize rnd (E - B) = A at *
  have r2 := rnd_rel (p - A)
  generalize rnd (p - A) = R at *
  norm_num at a b c r1 r2
  rw [abs_le] at a b c r1
  constructor
  · intro h
    have hD2 := i1 h
    have hpa : 0 < p - A := by linarith
    rw [abs_of_pos hpa, abs_le] at r2
    refine le_trans ?_ (le_abs_self R)
    linarith
  · intro h
    have hD2 := i2 h
    have hpa : |p - A| ≤ D * (991 / 100000) := by rw [abs_le]; constructor <;> linarith
    have hR : |R| ≤ D * (993 / 100000) := by
      rw [abs_le] at r2 ⊢
      have := abs_le.1 hpa
      constructor <;> linarith
    linarith

theorem short_cases (n : ℕ) (T : ℚ) (hT : 0 < T) (h1 : 2 ≤ n) (h2 : n < 2 ^ 31) (hf : ⌊rnd (rnd (n * T) / rnd T)⌋ = (n : ℤ) - 1) :
    (n ≤ 99 → written n T = .deviation) ∧ (101 ≤ n → written n T = .every (n - 1)) ∧ (written n T = .deviation ∨ written n T = .every (n - 1)) := by
  obtain ⟨-, -, -, -, e, f⟩ := sizes n T hT (by omega)
  have hw : written n T = if rnd (|rnd (rnd (n * T) - rnd (((n : ℤ) - 1 : ℤ) * rnd T))| / rnd (n * T)) > rnd (1 / 100) then .deviation else .every (n - 1) :=
    divisor_of_floor _ _ f e _ (by omega) (by omega) hf
  obtain ⟨s1, s2⟩ := short_bounds n T hT h1
  refine ⟨fun h => ?_, fun h => ?_, ?_⟩
  · rw [hw, if_pos]
    have hd := dyadic 165 (by norm_num)
    push_cast at hd
    refine lt_of_lt_of_le tol.2 ?_
    rw [← hd]
    exact rnd_mono ((le_div_iff₀ f).2 (s1 (by exact_mod_cast h)))
  · rw [hw, if_neg]
    have hd := dyadic 163 (by norm_num)
    push_cast at hd
    rw [not_lt]
    refine le_trans ?_ tol.1.le
    rw [← hd]
    exact rnd_mono ((div_le_iff₀ f).2 (s2 (by exact_mod_cast h)))
  · rw [hw]; split
    · exact Or.inl rfl
    · exact Or.inr rfl

/-! ### C357 -/

/-- **C357, exactly when it holds.** A task with the period `n T` runs once in `n` periods of its base task exactly if the rounded quotient of the rounded periods does
not fall below `n`. -/
theorem every_iff (n : ℕ) (T : ℚ) (hT : 0 < T) (h1 : 1 ≤ n) (h2 : n < 2 ^ 31) : written n T = .every n ↔ (n : ℚ) ≤ rnd (rnd (n * T) / rnd T) := by
  rcases floor_near n T hT h1 h2 with h | ⟨h, h'⟩
  · refine ⟨fun _ => ?_, fun _ => exact_accepted n T hT h1 h2 h⟩
    have := Int.floor_le (rnd (rnd (n * T) / rnd T))
    rw [h] at this
    exact_mod_cast this
  · refine ⟨fun hw => ?_, fun hq => ?_⟩
    · rcases (short_cases n T hT h h2 h').2.2 with h3 | h3
      · rw [hw] at h3; cases h3
      · rw [hw] at h3
        have := Outcome.every.inj h3
        omega
    · have : (n : ℤ) ≤ ⌊rnd (rnd (n * T) / rnd T)⌋ := Int.le_floor.2 (by exact_mod_cast hq)
      omega

/-- **C357, the part which holds.** Periods which are doubles themselves. -/
theorem doubles_partial (n : ℕ) (T : ℚ) (hT : 0 < T) (h1 : 1 ≤ n) (h2 : n < 2 ^ 31) (ha : IsDouble T) (hb : IsDouble (n * T)) : written n T = .every n := by
  rw [every_iff n T hT h1 h2, show rnd T = T from ha, show rnd (n * T) = n * T from hb, mul_div_assoc, div_self hT.ne', mul_one,
    Verif.Control.DelayFl.rnd_natCast n (by omega)]

/-- **C357, what happens otherwise.** A period of at most 99 base periods is refused, one of at least 101 is taken as one base period less. -/
theorem otherwise (n : ℕ) (T : ℚ) (hT : 0 < T) (h1 : 1 ≤ n) (h2 : n < 2 ^ 31) (h : written n T ≠ .every n) :
    2 ≤ n ∧ (n ≤ 99 → written n T = .deviation) ∧ (101 ≤ n → written n T = .every (n - 1)) ∧ (written n T = .deviation ∨ written n T = .every (n - 1)) := by
  rcases floor_near n T hT h1 h2 with hf | ⟨h3, hf⟩
  · exact absurd (exact_accepted n T hT h1 h2 hf) h
  · exact ⟨h3, short_cases n T hT h3 h2 hf⟩

theorem floor_of_short (n : ℕ) (T : ℚ) (h1 : 2 ≤ n) (h : (Verif.Control.DelayFl.written n T : Verif.Control.Delay.Ctor ℕ) = .ok (Verif.Control.Delay.mk (n - 1))) :
    ⌊rnd (rnd (n * T) / rnd T)⌋ = (n : ℤ) - 1 := by
  have := floor_of_new _ _ (n - 1) (by omega) h
  rw [this]; omega

/-- **C357 is violated**: with a base period of 0.1 s, tasks of 0.3 s, 0.6 s, 1.2 s, 2.4 s, 4.8 s and 9.6 s are refused, "period deviation too high". -/
theorem tenth_refused_violated (k : ℕ) (hk : k ≤ 5) : written (3 * 2 ^ k) (1 / 10) = .deviation := by
  have h1 : 1 ≤ 2 ^ k := Nat.one_le_two_pow
  have h2 : 2 ^ k ≤ 2 ^ 5 := Nat.pow_le_pow_right (by norm_num) hk
  exact (short_cases _ (1 / 10) (by norm_num) (by omega) (by omega) (floor_of_short _ _ (by omega) (Verif.Control.DelayFl.tenth_violated k (by omega)))).1 (by omega)

/-- **C357 is violated**: with a base period of 1 ms, tasks of 43 ms and 86 ms are refused. -/
theorem milli_refused_violated (k : ℕ) (hk : k ≤ 1) : written (43 * 2 ^ k) (1 / 1000) = .deviation := by
  have h1 : 1 ≤ 2 ^ k := Nat.one_le_two_pow
  have h2 : 2 ^ k ≤ 2 ^ 1 := Nat.pow_le_pow_right (by norm_num) hk
  exact (short_cases _ (1 / 1000) (by norm_num) (by omega) (by omega) (floor_of_short _ _ (by omega) (Verif.Control.DelayFl.milli_violated k (by omega)))).1 (by omega)

/-- **C357 is violated**: with a base period of 1 ms, a task of 172 ms, 344 ms, 688 ms and so on is accepted and runs one millisecond too early each time. -/
theorem milli_early_violated (k : ℕ) (hk : 2 ≤ k) (hk2 : k ≤ 25) : written (43 * 2 ^ k) (1 / 1000) = .every (43 * 2 ^ k - 1) := by
  have h1 : 2 ^ 2 ≤ 2 ^ k := Nat.pow_le_pow_right (by norm_num) hk
  have h2 : 2 ^ k ≤ 2 ^ 25 := Nat.pow_le_pow_right (by norm_num) hk2
  have := (short_cases (43 * 2 ^ k) (1 / 1000) (by norm_num) (by omega) (by omega) (floor_of_short _ _ (by omega) (Verif.Control.DelayFl.milli_violated k (by omega)))).2.1 (by omega)
  rw [this]; push_cast; rfl

/-! ### C358: multiples which are computed in the program -/

/-- A task whose period is computed as `n * dt` from the period `dt` of its base task, which is written as `T` (examples/task/PeriodicExample3.cpp:66-117,
examples/block/TransitionBlockTest.cpp:40). -/
def computed (n : ℕ) (T : ℚ) : Outcome := divisor (rnd (n * rnd T)) (rnd T)

theorem computed_eq (n : ℕ) (T : ℚ) : computed n T = written n (rnd T) := by
  unfold computed written; rw [show rnd (rnd T) = rnd T from rnd_idem T]

theorem rnd_T_pos (T : ℚ) (hT : 0 < T) : 0 < rnd T := (sizes 1 T hT (by norm_num)).2.2.2.2.1

/-- **C358, exactly when it holds.** -/
theorem computed_iff (n : ℕ) (T : ℚ) (hT : 0 < T) (h1 : 1 ≤ n) (h2 : n < 2 ^ 31) : computed n T = .every n ↔ (n : ℚ) ≤ rnd (rnd (n * rnd T) / rnd T) := by
  rw [computed_eq, every_iff n _ (rnd_T_pos T hT) h1 h2, show rnd (rnd T) = rnd T from rnd_idem T]

/-- **C358, the part which holds.** Powers of two, for all base periods. -/
theorem computed_pow_partial (k : ℕ) (hk : k ≤ 30) (T : ℚ) (hT : 0 < T) : computed (2 ^ k) T = .every (2 ^ k : ℕ) := by
  have h2 : 2 ^ k ≤ 2 ^ 30 := Nat.pow_le_pow_right (by norm_num) hk
  rw [computed_eq]
  refine doubles_partial (2 ^ k) (rnd T) (rnd_T_pos T hT) Nat.one_le_two_pow (by omega) (rnd_idem T) ?_
  have e : (((2 ^ k : ℕ) : ℚ) * rnd T) = rnd T * 2 ^ (k : ℤ) := by push_cast; rw [zpow_natCast]; ring
  unfold IsDouble
  rw [e, rnd_scale, show rnd (rnd T) = rnd T from rnd_idem T]

/-- **C358, the part which holds.** A base period which is a whole number of seconds, as in PeriodicExample3. -/
theorem computed_whole_partial (n s : ℕ) (h1 : 1 ≤ n) (h2 : n < 2 ^ 31) (hs : 1 ≤ s) (hs2 : s < 2 ^ 22) : computed n s = .every n := by
  have e1 : rnd (s : ℚ) = s := Verif.Control.DelayFl.rnd_natCast s (by omega)
  rw [computed_eq, e1]
  refine doubles_partial n s (by exact_mod_cast hs) h1 h2 e1 ?_
  have hle : n * s ≤ 2 ^ 53 := by
    calc n * s ≤ 2 ^ 31 * 2 ^ 22 := Nat.mul_le_mul h2.le hs2.le
      _ = 2 ^ 53 := by norm_num
  have := rnd_exact ((n * s : ℕ) : ℤ) 0 (by rw [abs_of_nonneg (by positivity)]; exact_mod_cast hle)
  unfold IsDouble
  simpa using this

/-- **C358, what happens otherwise.** -/
theorem computed_otherwise (n : ℕ) (T : ℚ) (hT : 0 < T) (h1 : 1 ≤ n) (h2 : n < 2 ^ 31) (h : computed n T ≠ .every n) :
    2 ≤ n ∧ (n ≤ 99 → computed n T = .deviation) ∧ (101 ≤ n → computed n T = .every (n - 1)) ∧ (computed n T = .deviation ∨ computed n T = .every (n - 1)) := by
  rw [computed_eq] at h ⊢
  exact otherwise n _ (rnd_T_pos T hT) h1 h2 h

theorem hundredth : rnd (1 / 100) = 5764607523034235 / 2 ^ 59 := by
  rw [rnd_pos (by norm_num), fl_eq (1 / 100) (-7) 5764607523034235 (by norm_num) (by norm_num) (by norm_num [abs_lt])]; norm_num

theorem hundredth_short (k : ℕ) (hk : k ≤ 26) : ⌊rnd (rnd ((29 * 2 ^ k : ℕ) * rnd (1 / 100)) / rnd (rnd (1 / 100)))⌋ = ((29 * 2 ^ k : ℕ) : ℤ) - 1 := by
  have h1 : 1 ≤ 2 ^ k := Nat.one_le_two_pow
  have hk2 : 2 ^ k ≤ 2 ^ 26 := Nat.pow_le_pow_right (by norm_num) hk
  refine floor_of_short (29 * 2 ^ k) (rnd (1 / 100)) (by omega) (Verif.Control.DelayFl.short_of 29 k (rnd (1 / 100)) (1 / 2 ^ 48) (by norm_num) (by omega) ?_ (by norm_num) ?_)
  · rw [show rnd (rnd (1 / 100)) = rnd (1 / 100) from rnd_idem _, hundredth]
    push_cast
    have e : rnd (29 * (5764607523034235 / 2 ^ 59)) = 5224175567749775 / 2 ^ 54 := by
      rw [rnd_pos (by norm_num), fl_eq _ (-2) 5224175567749775 (by norm_num) (by norm_num) (by norm_num [abs_lt])]; norm_num
    rw [e, rnd_pos (by norm_num), fl_eq _ 4 8162774324609023 (by norm_num) (by norm_num) (by norm_num [abs_lt])]; norm_num
  · have : (2 : ℚ) ^ k ≤ 2 ^ 26 := by exact_mod_cast hk2
    norm_num at this ⊢; linarith

/-- **C358 is violated**: with `dt` = 0.01 s, tasks of `29 * dt` and `58 * dt` are refused. -/
theorem hundredth_refused_violated (k : ℕ) (hk : k ≤ 1) : computed (29 * 2 ^ k) (1 / 100) = .deviation := by
  have h1 : 1 ≤ 2 ^ k := Nat.one_le_two_pow
  have h2 : 2 ^ k ≤ 2 ^ 1 := Nat.pow_le_pow_right (by norm_num) hk
  rw [computed_eq]
  exact (short_cases _ _ (rnd_T_pos _ (by norm_num)) (by omega) (by omega) (hundredth_short k (by omega))).1 (by omega)

/-- **C358 is violated**: with `dt` = 0.01 s, tasks of `116 * dt`, `232 * dt` and so on are accepted and run one base period too early. -/
theorem hundredth_early_violated (k : ℕ) (hk : 2 ≤ k) (hk2 : k ≤ 26) : computed (29 * 2 ^ k) (1 / 100) = .every (29 * 2 ^ k - 1) := by
  have h1 : 2 ^ 2 ≤ 2 ^ k := Nat.pow_le_pow_right (by norm_num) hk
  have h2 : 2 ^ k ≤ 2 ^ 26 := Nat.pow_le_pow_right (by norm_num) hk2
  rw [computed_eq, (short_cases _ _ (rnd_T_pos _ (by norm_num)) (by omega) (by omega) (hundredth_short k hk2)).2.1 (by omega)]
  push_cast; rfl

/-- The slow domain of TransitionBlockTest.cpp:19 and 40, `100*period` with `period` = 0.05: right. -/
theorem transition_test : computed 100 (1 / 20) = .every 100 := by
  have hB : rnd (1 / 20) = 7205759403792794 / 2 ^ 57 := by
    rw [rnd_pos (by norm_num), fl_eq (1 / 20) (-5) 7205759403792794 (by norm_num) (by norm_num) (by norm_num [abs_lt])]; norm_num
  have e : rnd (((100 : ℕ) : ℚ) * (7205759403792794 / 2 ^ 57)) = 5 := by
    push_cast
    rw [rnd_pos (by norm_num), fl_eq _ 2 5629499534213120 (by norm_num) (by norm_num) (by norm_num [abs_lt])]; norm_num
  have := (computed_iff 100 (1 / 20) (by norm_num) (by norm_num) (by norm_num)).2 (by
    rw [hB, e, rnd_pos (by norm_num), fl_eq _ 6 7036874417766400 (by norm_num) (by norm_num) (by norm_num [abs_lt])]; norm_num)
  exact_mod_cast this

/-! ### Cases -/

example : written 3 (1 / 10) = .deviation := tenth_refused_violated 0 (by norm_num)
example : written 172 (1 / 1000) = .every 171 := milli_early_violated 2 (by norm_num) (by norm_num)
example : written 1 (1 / 1000) = .every 1 := by
  by_contra h
  have := (otherwise 1 (1 / 1000) (by norm_num) (by norm_num) (by norm_num) h).1
  omega
example : written 3 (1 / 1024) = .every 3 :=
  doubles_partial 3 (1 / 1024) (by norm_num) (by norm_num) (by norm_num)
    (by have := rnd_exact 1 (-10) (by norm_num); norm_num at this; simpa [IsDouble] using this)
    (by have := rnd_exact 3 (-10) (by norm_num); norm_num at this; norm_num [IsDouble]; exact this)
example : computed 29 (1 / 100) = .deviation := hundredth_refused_violated 0 (by norm_num)
example : computed 5 1 = .every 5 := by simpa using computed_whole_partial 5 1 (by norm_num) (by norm_num) (by norm_num) (by norm_num)
example : computed 8 (1 / 10) = .every 8 := computed_pow_partial 3 (by norm_num) (1 / 10) (by norm_num)

end Verif.Core.ExecutorFl
