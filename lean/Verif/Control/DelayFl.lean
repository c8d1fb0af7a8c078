import Verif.Control.DelayProps
import Verif.Common.Scale
/-!
The length of the buffer of a Delay block as computed in doubles: `bufLen(delay / ts)` (includes/eeros/control/Delay.hpp:30) cuts the rounded quotient of two
doubles, which are themselves the doubles nearest to the numbers written in the program.

Simplification: no overflow and no underflow of doubles.
-/
namespace Verif.Control.DelayFl
open Verif.Common.Round Verif.Common Verif.Control.Delay

/-- Constructor of Delay (Delay.hpp:30-34) for doubles `delay` and `ts > 0`: the quotient is rounded and then cut. -/
def new {S : Type} (delay ts : ℚ) : Ctor S :=
  let q := rnd (delay / ts)
  if q ≤ -1 ∨ 4294967296 ≤ q then .ub
  else
    let n := ⌊q⌋.toNat
    if n < 1 then .fault else .ok (mk n)

/-- A block which is written in the program as `Delay(n T, T)`: both numbers are rounded to doubles. -/
def written {S : Type} (n : ℕ) (T : ℚ) : Ctor S := new (rnd (n * T)) (rnd T)

/-! ### Lemmas -/

theorem new_of_floor {S : Type} (delay ts : ℚ) (n : ℕ) (h1 : 1 ≤ n) (h2 : n < 2 ^ 32) (ha : (n : ℚ) ≤ rnd (delay / ts)) (hb : rnd (delay / ts) < n + 1) :
    (new delay ts : Ctor S) = .ok (mk n) := by
  have hn : (1 : ℚ) ≤ n := by exact_mod_cast h1
  have hn2 : (n : ℚ) + 1 ≤ 4294967296 := by
    have : n + 1 ≤ 4294967296 := by omega
    exact_mod_cast this
  have hf : ⌊rnd (delay / ts)⌋ = (n : ℤ) := by rw [Int.floor_eq_iff]; exact ⟨by exact_mod_cast ha, by exact_mod_cast hb⟩
  unfold new
  simp only [hf, Int.toNat_natCast]
  rw [if_neg (by rintro (h | h) <;> linarith), if_neg (by omega)]

theorem rnd_half (n : ℕ) (h : n < 2 ^ 32) : rnd ((n : ℚ) + 1 / 2) = (n : ℚ) + 1 / 2 := by
  have := rnd_exact (2 * n + 1) (-1) (by rw [abs_of_nonneg (by omega)]; omega)
  rw [show ((2 * n + 1 : ℤ) : ℚ) * 2 ^ (-1 : ℤ) = (n : ℚ) + 1 / 2 by push_cast; norm_num; ring] at this
  exact this

theorem rnd_natCast (n : ℕ) (h : n < 2 ^ 32) : rnd (n : ℚ) = n := by
  rw [rnd_pos (Nat.cast_nonneg n)]; exact fl_nat n (by omega)

/-! ### What holds -/

/-- **C354, the part which holds.** When the delay as a double is at least `n` and at most `n + 1/2` sampling times as doubles, the buffer has length `n`. -/
theorem length_partial {S : Type} (delay ts : ℚ) (hts : 0 < ts) (n : ℕ) (h1 : 1 ≤ n) (h2 : n < 2 ^ 32) (ha : n * ts ≤ delay) (hb : delay ≤ (n + 1 / 2) * ts) :
    (new delay ts : Ctor S) = .ok (mk n) := by
  have a := rnd_mono ((le_div_iff₀ hts).2 ha)
  have b := rnd_mono ((div_le_iff₀ hts).2 hb)
  rw [rnd_natCast n h2] at a
  rw [rnd_half n h2] at b
  exact new_of_floor delay ts n h1 h2 a (by linarith)

/-- **C354, the part which holds.** Sampling time and delay which are doubles themselves, as 1/1024 s and 3/1024 s. -/
theorem written_partial {S : Type} (n : ℕ) (T : ℚ) (hT : 0 < T) (h1 : 1 ≤ n) (h2 : n < 2 ^ 32) (ha : IsDouble T) (hb : IsDouble (n * T)) : (written n T : Ctor S) = .ok (mk n) := by
  unfold written
  rw [show rnd T = T from ha, show rnd (n * T) = n * T from hb]
  exact length_partial _ _ hT n h1 h2 (le_refl _) (by nlinarith)

/-- **C354, how far it can be off.** The buffer is as long as written or one element shorter. -/
theorem written_near {S : Type} (n : ℕ) (T : ℚ) (hT : 0 < T) (h1 : 1 ≤ n) (h2 : n < 2 ^ 32) :
    (written n T : Ctor S) = .ok (mk n) ∨ (2 ≤ n ∧ (written n T : Ctor S) = .ok (mk (n - 1))) := by
  have hn : (1 : ℚ) ≤ n := by exact_mod_cast h1
  have hn2 : (n : ℚ) < 4294967296 := by
    have : n < 4294967296 := by omega
    exact_mod_cast this
  have hr := abs_le.1 (rnd_rel T)
  have hD : 0 < (n : ℚ) * T := by positivity
  have hq := abs_le.1 (rnd_rel (n * T))
  rw [abs_of_pos hT] at hr
  rw [abs_of_pos hD] at hq
  have hts : 0 < rnd T := by
    have : T / 2 ^ 53 ≤ T / 2 := by apply div_le_div_of_nonneg_left hT.le <;> norm_num
    linarith [hr.1]
  have e1 : T / 2 ^ 53 * n ≤ T / 2 ^ 20 := by
    have : T / 2 ^ 53 * n ≤ T / 2 ^ 53 * 4294967296 := by apply mul_le_mul_of_nonneg_left hn2.le; positivity
    have e : T / 2 ^ 53 * 4294967296 = T / 2 ^ 21 := by ring
    have : T / 2 ^ 21 ≤ T / 2 ^ 20 := by apply div_le_div_of_nonneg_left hT.le <;> norm_num
    linarith
  have e2 : (n : ℚ) * T / 2 ^ 53 = T / 2 ^ 53 * n := by ring
  have e3 : T / 2 ^ 20 ≤ rnd T / 8 := by
    have : T / 2 ^ 53 ≤ T / 2 := by apply div_le_div_of_nonneg_left hT.le <;> norm_num
    have : T / 2 ≤ rnd T := by linarith [hr.1]
    have : T / 2 ^ 20 ≤ T / 16 := by apply div_le_div_of_nonneg_left hT.le <;> norm_num
    linarith
  -- the delay lies between (n - 1/2) and (n + 1/2) sampling times
  have lo : ((n : ℚ) - 1 / 2) * rnd T ≤ rnd (n * T) := by nlinarith [hr.1, hr.2, hq.1]
  have hi : rnd (n * T) ≤ (n + 1 / 2) * rnd T := by nlinarith [hr.1, hr.2, hq.2]
  unfold written
  have b := rnd_mono ((div_le_iff₀ hts).2 hi)
  rw [rnd_half n h2] at b
  rcases le_or_gt (n : ℚ) (rnd (rnd (n * T) / rnd T)) with h | h
  · exact Or.inl (new_of_floor _ _ n h1 h2 h (by linarith))
  · right
    have hn1 : 2 ≤ n := by
      by_contra hc
      obtain rfl : n = 1 := by omega
      rw [Nat.cast_one, one_mul, div_self hts.ne'] at h
      have := rnd_natCast 1 (by norm_num)
      rw [Nat.cast_one] at this
      rw [this] at h
      exact absurd h (lt_irrefl _)
    refine ⟨hn1, new_of_floor _ _ (n - 1) (by omega) (by omega) ?_ ?_⟩
    · have hc : ((n - 1 : ℕ) : ℚ) = n - 1 := by rw [Nat.cast_sub h1, Nat.cast_one]
      have c := rnd_mono ((le_div_iff₀ hts).2 (show ((n - 1 : ℕ) : ℚ) * rnd T ≤ rnd (n * T) by rw [hc]; nlinarith))
      rwa [rnd_natCast (n - 1) (by omega)] at c
    · rw [Nat.cast_sub h1, Nat.cast_one]; linarith

/-- A delay of one sampling time always has length 1. -/
theorem written_one {S : Type} (T : ℚ) (hT : 0 < T) : (written 1 T : Ctor S) = .ok (mk 1) := by
  rcases written_near (S := S) 1 T hT (by norm_num) (by norm_num) with h | ⟨h, -⟩
  · exact h
  · omega

/-- **C354, doubling.** Delays which are `2^k` times as long are right or short together: the fraction of short ones does not vanish for long delays. -/
theorem quotient_scale (n k : ℕ) (T : ℚ) : rnd (rnd ((n * 2 ^ k : ℕ) * T) / rnd T) = rnd (rnd (n * T) / rnd T) * 2 ^ k := by
  have e : (((n * 2 ^ k : ℕ) : ℚ) * T) = (n * T) * 2 ^ (k : ℤ) := by push_cast; rw [zpow_natCast]; ring
  rw [e, rnd_scale, mul_div_right_comm, rnd_scale, zpow_natCast]

/-! ### What does not hold -/

theorem short_of (n k : ℕ) (T x : ℚ) (h1 : 2 ≤ n) (h2 : n * 2 ^ k < 2 ^ 32) (hq : rnd (rnd (n * T) / rnd T) = n - x) (hx : 0 < x) (hx' : x * 2 ^ k ≤ 1) {S : Type} :
    (written (n * 2 ^ k) T : Ctor S) = .ok (mk (n * 2 ^ k - 1)) := by
  have hp : 1 ≤ 2 ^ k := Nat.one_le_two_pow
  have hle : 2 ≤ n * 2 ^ k := le_trans h1 (Nat.le_mul_of_pos_right n hp)
  have hpos : (0 : ℚ) < 2 ^ k := by positivity
  unfold written
  apply new_of_floor _ _ _ (by omega) (by omega)
  · rw [quotient_scale, hq, Nat.cast_sub (by omega)]; push_cast; nlinarith
  · rw [quotient_scale, hq, Nat.cast_sub (by omega)]; push_cast; nlinarith

theorem tenth : rnd (1 / 10) = 7205759403792794 / 2 ^ 56 := by
  rw [rnd_pos (by norm_num), fl_eq (1 / 10) (-4) 7205759403792794 (by norm_num) (by norm_num) (by norm_num [abs_lt])]; norm_num

theorem tenths3 : rnd (3 * (1 / 10)) = 5404319552844595 / 2 ^ 54 := by
  rw [rnd_pos (by norm_num), fl_eq (3 * (1 / 10)) (-2) 5404319552844595 (by norm_num) (by norm_num) (by norm_num [abs_lt])]; norm_num

/-- **C354 is violated**: with a sampling time of 0.1 s, delays of 0.3 s, 0.6 s, 1.2 s, 2.4 s and so on have a buffer which is one element too short. -/
theorem tenth_violated {S : Type} (k : ℕ) (hk : k ≤ 30) : (written (3 * 2 ^ k) (1 / 10) : Ctor S) = .ok (mk (3 * 2 ^ k - 1)) := by
  have hk2 : 2 ^ k ≤ 2 ^ 30 := Nat.pow_le_pow_right (by norm_num) hk
  apply short_of 3 k (1 / 10) (1 / 2 ^ 51) (by norm_num) (by omega)
  · push_cast
    rw [tenth, tenths3, rnd_pos (by norm_num), fl_eq _ 1 6755399441055743 (by norm_num) (by norm_num) (by norm_num [abs_lt])]; norm_num
  · positivity
  · have : (2 : ℚ) ^ k ≤ 2 ^ 30 := by exact_mod_cast hk2
    norm_num at this ⊢; linarith

theorem milli : rnd (1 / 1000) = 1152921504606847 / 2 ^ 60 := by
  rw [rnd_pos (by norm_num), fl_eq (1 / 1000) (-10) 4611686018427388 (by norm_num) (by norm_num) (by norm_num [abs_lt])]; norm_num

theorem millis43 : rnd (43 * (1 / 1000)) = 6196953087261802 / 2 ^ 57 := by
  rw [rnd_pos (by norm_num), fl_eq (43 * (1 / 1000)) (-5) 6196953087261802 (by norm_num) (by norm_num) (by norm_num [abs_lt])]; norm_num

/-- **C354 is violated**: with a sampling time of 1 ms, delays of 43 ms, 86 ms, 172 ms and so on. -/
theorem milli_violated {S : Type} (k : ℕ) (hk : k ≤ 26) : (written (43 * 2 ^ k) (1 / 1000) : Ctor S) = .ok (mk (43 * 2 ^ k - 1)) := by
  have hk2 : 2 ^ k ≤ 2 ^ 26 := Nat.pow_le_pow_right (by norm_num) hk
  apply short_of 43 k (1 / 1000) (1 / 2 ^ 47) (by norm_num) (by omega)
  · push_cast
    rw [milli, millis43, rnd_pos (by norm_num), fl_eq _ 5 6051711999279103 (by norm_num) (by norm_num) (by norm_num [abs_lt])]; norm_num
  · positivity
  · have : (2 : ℚ) ^ k ≤ 2 ^ 26 := by exact_mod_cast hk2
    norm_num at this ⊢; linarith

/-- **C354, what comes out.** With the sample by which every Delay block is short (C25), such a block delays by two samples less than written: with 0.1 s and
`3 * 2^k` periods, the output of run `i` is the input of run `i - (3 * 2^k - 2)`. -/
theorem two_short_violated {S : Type} (k : ℕ) (hk : k ≤ 30) (xs : List S) : ∃ s0 s outs, (written (3 * 2 ^ k) (1 / 10) : Ctor S) = .ok s0 ∧ runs s0 xs = some (s, outs) ∧
    ∀ i, i < xs.length → 3 * 2 ^ k - 2 ≤ i → outs[i]? = some xs[i - (3 * 2 ^ k - 2)]? := by
  have hp : 1 ≤ 2 ^ k := Nat.one_le_two_pow
  obtain ⟨s, outs, r1, -, -, r4⟩ := delay_shifts_partial (3 * 2 ^ k - 1) (by omega) xs
  exact ⟨_, s, outs, tenth_violated k hk, r1, fun i hi h => r4 i hi (by omega)⟩

/-! ### Cases -/

example : ∃ s0, (written 3 (1 / 10) : Ctor ℕ) = .ok s0 ∧ s0.bufLen = 2 := ⟨_, tenth_violated 0 (by norm_num), rfl⟩
example : ∃ s0, (written 3 (1 / 1024) : Ctor ℕ) = .ok s0 ∧ s0.bufLen = 3 :=
  ⟨_, written_partial 3 (1 / 1024) (by norm_num) (by norm_num) (by norm_num)
    (by have := rnd_exact 1 (-10) (by norm_num); norm_num at this; simpa [IsDouble] using this)
    (by have := rnd_exact 3 (-10) (by norm_num); norm_num at this; norm_num [IsDouble]; exact this), rfl⟩
/-- Inputs 4, 5, 6, 7 with 0.3 s at 0.1 s: delayed by one sample instead of three. -/
example : (runs (mk 2) [4, 5, 6, 7]).map (·.2) = some [none, some 4, some 5, some 6] := by decide

end Verif.Control.DelayFl
