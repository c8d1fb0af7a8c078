import Verif.Control.IeeeBlocks
import Mathlib.Data.Set.Finite.Lattice
import Mathlib.Order.Interval.Finset.Defs
import Mathlib.Data.Int.Interval
import Mathlib.Data.Fintype.Pigeonhole
import Mathlib.Data.Finite.Prod
import Mathlib.Data.Set.Finite.Basic
/-!
The low pass filter (LowPassFilter.hpp:58-72) on IEEE doubles, in the long run: does it settle, or can the rounding keep it moving for ever (a limit cycle)?  The block
is `Verif.Control.IeeeBlocks.lowPass`.
-/
namespace Verif.Control.IeeeSettle
open Verif.Common Verif.Common.Round Verif.Common.Ieee Verif.Control.IeeeBlocks

/-! ### Specification -/

/-- The output after `n` runs with the input `c`, from the output `p`. -/
def held (alpha c p : XVal ℚ) (n : Nat) : XVal ℚ := (List.replicate n c).foldl (lowPass alpha) p

/-- Both are finite doubles, the first is not larger. -/
def Le (u v : XVal ℚ) : Prop := ∃ a b, u = .fin a ∧ v = .fin b ∧ F64 a ∧ F64 b ∧ a ≤ b

/-! ### One run -/

/-- The rounded step of the filter. -/
def next (a x p : ℚ) : ℚ := rndS (rndS (x * a) + rndS (p * rndS (1 - a)))

theorem lowPass_next {a p x : ℚ} (ha : F64 a) (h0 : 0 ≤ a) (h1 : a ≤ 1) (hp : F64 p) (hx : F64 x) :
    lowPass (.fin a) (.fin p) (.fin x) = .fin (next a x p) ∧ F64 (next a x p) := by
  obtain ⟨q, hq, hf⟩ := lowPass_step ha h0 h1 hp hx
  have hb0 : 0 ≤ rndS (1 - a) := rndS_nonneg (by linarith)
  have hone : F64 1 := ⟨1, 0, by norm_num, by norm_num, by norm_num, by norm_num⟩
  have hb1 : rndS (1 - a) ≤ 1 := rndS_le hone.rep (by linarith)
  have e1 : sub (.fin 1) (.fin a) = .fin (rndS (1 - a)) := by
    rw [sub_fin]
    exact (round_within hone (by rw [abs_of_nonneg (by linarith)]; linarith)).1
  have key : ∀ {c v : ℚ}, 0 ≤ c → c ≤ 1 → F64 v → Ieee.round (v * c) = .fin (rndS (v * c)) := by
    intro c v hc0 hc1 hv
    refine (round_within f64_maxD ?_).1
    rw [abs_mul, abs_of_nonneg hc0]
    calc |v| * c ≤ |v| * 1 := mul_le_mul_of_nonneg_left hc1 (abs_nonneg v)
      _ ≤ maxD := by rw [mul_one]; exact hv.le
  have e2 : lowPass (.fin a) (.fin p) (.fin x) = Ieee.round (rndS (x * a) + rndS (p * rndS (1 - a))) := by
    unfold lowPass
    rw [e1, mul_fin, mul_fin, key h0 h1 hx, key hb0 hb1 hp, add_fin]
  rw [e2] at hq
  have hv := round_val hq
  have : next a x p = q := hv.symm
  rw [this, e2]
  exact ⟨hq, hf⟩

/-- The step is monotone: a larger input and a larger output before give a larger output. -/
theorem next_mono {a x y p q : ℚ} (h0 : 0 ≤ a) (h1 : a ≤ 1) (hx : x ≤ y) (hp : p ≤ q) : next a x p ≤ next a y q := by
  have hb0 : 0 ≤ rndS (1 - a) := rndS_nonneg (by linarith)
  exact rndS_mono (add_le_add (rndS_mono (mul_le_mul_of_nonneg_right hx h0)) (rndS_mono (mul_le_mul_of_nonneg_right hp hb0)))

theorem lowPass_le {a : ℚ} (ha : F64 a) (h0 : 0 ≤ a) (h1 : a ≤ 1) {p q x y : XVal ℚ} (hp : Le p q) (hx : Le x y) :
    Le (lowPass (.fin a) p x) (lowPass (.fin a) q y) := by
  obtain ⟨p, q, rfl, rfl, fp, fq, hpq⟩ := hp
  obtain ⟨x, y, rfl, rfl, fx, fy, hxy⟩ := hx
  obtain ⟨e1, f1⟩ := lowPass_next ha h0 h1 fp fx
  obtain ⟨e2, f2⟩ := lowPass_next ha h0 h1 fq fy
  exact ⟨_, _, e1, e2, f1, f2, next_mono h0 h1 hxy hpq⟩

/-! ### C298 -/

/-- **C298, order.**  If every input is at most the input of a second filter with the same weight, so is every output, despite of all roundings. -/
theorem keeps_order {a : ℚ} (ha : F64 a) (h0 : 0 ≤ a) (h1 : a ≤ 1) {xs ys : List (XVal ℚ)} (h : List.Forall₂ Le xs ys) (hne : xs ≠ []) :
    Le (lowPasses (.fin a) xs) (lowPasses (.fin a) ys) := by
  have key : ∀ {xs ys : List (XVal ℚ)}, List.Forall₂ Le xs ys → ∀ {p q : XVal ℚ}, Le p q → Le (xs.foldl (lowPass (.fin a)) p) (ys.foldl (lowPass (.fin a)) q) := by
    intro xs ys h
    induction h with
    | nil => exact fun hp => hp
    | cons hxy _ ih => exact fun hp => ih (lowPass_le ha h0 h1 hp hxy)
  cases h with
  | nil => exact absurd rfl hne
  | cons hxy ht => exact key ht (lowPass_le ha h0 h1 hxy hxy)

theorem held_succ (alpha c p : XVal ℚ) (n : Nat) : held alpha c p (n + 1) = lowPass alpha (held alpha c p n) c := by
  simp [held, List.replicate_succ']

/-- The values of the outputs. -/
theorem held_val {a c p : ℚ} (ha : F64 a) (h0 : 0 ≤ a) (h1 : a ≤ 1) (hp : F64 p) (hc : F64 c) (n : Nat) :
    held (.fin a) (.fin c) (.fin p) n = .fin ((next a c)^[n] p) ∧ F64 ((next a c)^[n] p) := by
  induction n with
  | zero => exact ⟨rfl, hp⟩
  | succ n ih =>
    rw [held_succ, ih.1, Function.iterate_succ_apply']
    exact lowPass_next ha h0 h1 ih.2 hc

/-- There are finitely many doubles. -/
theorem finite_doubles : {x : ℚ | F64 x}.Finite := by
  have h : {x : ℚ | F64 x} ⊆ (fun mk : ℤ × ℤ => (mk.1 : ℚ) * 2 ^ mk.2) '' (Set.Icc (-2 ^ 53) (2 ^ 53) ×ˢ Set.Icc (-1074) 971) := by
    rintro x ⟨m, k, hm, h1, h2, rfl⟩
    have := abs_lt.1 hm
    exact ⟨(m, k), ⟨⟨this.1.le, this.2.le⟩, h1, h2⟩, rfl⟩
  exact Set.Finite.subset ((Set.Finite.prod (Set.finite_Icc _ _) (Set.finite_Icc _ _)).image _) h

/-- A monotone function iterated on finitely many numbers comes to rest, and on its way it moves in one direction only. -/
theorem iterate_rests {f : ℚ → ℚ} (hf : Monotone f) {p : ℚ} (h : ∀ n, F64 (f^[n] p)) :
    (Monotone (fun n => f^[n] p) ∨ Antitone (fun n => f^[n] p)) ∧ ∃ N, f (f^[N] p) = f^[N] p := by
  have hm : Monotone (fun n => f^[n] p) ∨ Antitone (fun n => f^[n] p) := by
    rcases le_total p (f p) with h1 | h1
    · left
      refine monotone_nat_of_le_succ fun n => ?_
      rw [Function.iterate_succ_apply]
      exact hf.iterate n h1
    · right
      refine antitone_nat_of_succ_le fun n => ?_
      rw [Function.iterate_succ_apply]
      exact hf.iterate n h1
  refine ⟨hm, ?_⟩
  have : _root_.Finite {x : ℚ | F64 x} := finite_doubles
  obtain ⟨i, j, hij, he⟩ := _root_.Finite.exists_ne_map_eq_of_infinite (fun n : ℕ => (⟨f^[n] p, h n⟩ : {x : ℚ | F64 x}))
  have he' : f^[i] p = f^[j] p := congrArg Subtype.val he
  clear he
  wlog hlt : i < j generalizing i j
  · exact this j i hij.symm he'.symm (by omega)
  refine ⟨i, ?_⟩
  rw [← Function.iterate_succ_apply' f i p]
  rcases hm with hm | hm
  · exact le_antisymm ((hm (show i + 1 ≤ j by omega)).trans he'.ge) (hm (Nat.le_succ i))
  · exact le_antisymm (hm (Nat.le_succ i)) (he'.le.trans (hm (show i + 1 ≤ j by omega)))

/-- **C298, rest.**  With a constant input the output moves in one direction only, whatever it was before, and after finitely many runs it does not move any more: the
rounding causes no limit cycle, for every weight from 0 to 1. -/
theorem settles {a c p : ℚ} (ha : F64 a) (h0 : 0 ≤ a) (h1 : a ≤ 1) (hp : F64 p) (hc : F64 c) :
    ((∀ m n, m ≤ n → Le (held (.fin a) (.fin c) (.fin p) m) (held (.fin a) (.fin c) (.fin p) n)) ∨
     (∀ m n, m ≤ n → Le (held (.fin a) (.fin c) (.fin p) n) (held (.fin a) (.fin c) (.fin p) m))) ∧
    ∃ N y, F64 y ∧ ∀ n, N ≤ n → held (.fin a) (.fin c) (.fin p) n = .fin y := by
  have hv := held_val ha h0 h1 hp hc
  obtain ⟨hm, N, hN⟩ := iterate_rests (f := next a c) (fun p q h => next_mono h0 h1 le_rfl h) (fun n => (hv n).2)
  refine ⟨hm.imp (fun h m n hmn => ⟨_, _, (hv m).1, (hv n).1, (hv m).2, (hv n).2, h hmn⟩) (fun h m n hmn => ⟨_, _, (hv n).1, (hv m).1, (hv n).2, (hv m).2, h hmn⟩), N, _,
    (hv N).2, fun n hn => ?_⟩
  rw [(hv n).1]
  obtain ⟨k, rfl⟩ := Nat.exists_eq_add_of_le hn
  congr 1
  rw [Nat.add_comm, Function.iterate_add_apply]
  exact Function.iterate_fixed hN k

example : ∃ N y, F64 y ∧ ∀ n, N ≤ n → held (.fin (1 / 2)) (.fin 5) (.fin 1) n = .fin y :=
  (settles f64_half (by norm_num) (by norm_num) (p := 1) (c := 5) ⟨1, 0, by norm_num, by norm_num, by norm_num, by norm_num⟩
    ⟨5, 0, by norm_num, by norm_num, by norm_num, by norm_num⟩).2

/-! ### The input zero -/

/-- The smallest positive double. -/
def least : ℚ := 2 ^ (-1074 : ℤ)

theorem f64_least : F64 least := ⟨1, -1074, by norm_num, by norm_num, by norm_num, by norm_num [least]⟩

theorem least_le {x : ℚ} (hx : Rep x) (h : 0 < x) : least ≤ x := by
  obtain ⟨m, k, hm, hk, rfl⟩ := hx
  have h2 := Ieee.two_pos k
  have hm0 : 0 < m := by
    by_contra hc
    have : (m : ℚ) ≤ 0 := by exact_mod_cast not_lt.1 hc
    nlinarith
  have hm1 : (1 : ℚ) ≤ m := by exact_mod_cast hm0
  have : (2:ℚ) ^ (-1074 : ℤ) ≤ 2 ^ k := zpow_le_iff.2 hk
  unfold least
  nlinarith

theorem rndS_zero : rndS 0 = 0 := rndS_exact rep_zero

theorem next_zero (a p : ℚ) : next a 0 p = rndS (p * rndS (1 - a)) := by
  rw [next, zero_mul, rndS_zero, zero_add]
  exact rndS_exact (rndS_rep _)

/-- More than half of the smallest double is rounded to it. -/
theorem rndS_least {b : ℚ} (h : 1 / 2 < b) : least ≤ rndS (least * b) := by
  have hl : 0 < least := Ieee.two_pos _
  by_contra hc
  have hr := rndS_rep (least * b)
  have h0 : 0 ≤ rndS (least * b) := rndS_nonneg (by positivity)
  have hz : rndS (least * b) = 0 := by
    rcases h0.lt_or_eq with h1 | h1
    · exact absurd (least_le hr h1) hc
    · exact h1.symm
  have hb : b < 1 := by
    by_contra hb
    have h1 : least ≤ least * b := by nlinarith
    have := rndS_mono h1
    rw [rndS_exact f64_least.rep, hz] at this
    linarith
  have := rndS_nearest (least * b) f64_least.rep
  rw [hz, sub_zero, abs_of_pos (by nlinarith), abs_of_nonpos (by nlinarith)] at this
  nlinarith

/-- Half of a positive double is rounded to a smaller one. -/
theorem rndS_half {y b : ℚ} (hy : Rep y) (h0 : 0 < y) (h : b ≤ 1 / 2) : rndS (y * b) < y := by
  refine lt_of_le_of_lt (rndS_mono (show y * b ≤ y * (1 / 2) by nlinarith)) ?_
  obtain ⟨m, k, hm, hk, rfl⟩ := hy
  have h2 := Ieee.two_pos k
  have hm0 : 0 < m := by
    by_contra hc
    have : (m : ℚ) ≤ 0 := by exact_mod_cast not_lt.1 hc
    nlinarith
  rw [abs_of_pos hm0] at hm
  rcases (show m = 1 ∨ 2 ≤ m by omega) with rfl | h3
  · rcases (show k = -1074 ∨ -1074 ≤ k - 1 by omega) with rfl | h4
    · decide +kernel
    · have he : (((1 : ℤ) : ℚ) * 2 ^ k * (1 / 2)) = 2 ^ (k - 1) := by
        rw [zpow_sub₀ (by norm_num)]; norm_num; ring
      rw [he, rndS_exact (rep_pow h4)]
      have : (2:ℚ) ^ (k - 1) < 2 ^ k := zpow_lt_iff.2 (by omega)
      simp [this]
  · have hr : Rep (((m - 1 : ℤ) : ℚ) * 2 ^ k) := ⟨m - 1, k, by rw [abs_of_pos (by omega)]; omega, hk, rfl⟩
    have h3' : (2:ℚ) ≤ m := by exact_mod_cast h3
    have hle : (m : ℚ) * 2 ^ k * (1 / 2) ≤ ((m - 1 : ℤ) : ℚ) * 2 ^ k := by push_cast; nlinarith
    refine lt_of_le_of_lt (rndS_le hr hle) ?_
    push_cast
    nlinarith

/-- **C299, exactly.**  From a positive output the filter with the input zero reaches the output zero exactly if the weight of the old output is at most one half. -/
theorem zero_reached_iff {a p : ℚ} (ha : F64 a) (h0 : 0 ≤ a) (h1 : a ≤ 1) (hp : F64 p) (hp0 : 0 < p) :
    (∃ n, held (.fin a) (.fin 0) (.fin p) n = .fin 0) ↔ rndS (1 - a) ≤ 1 / 2 := by
  have hv := held_val ha h0 h1 hp f64_zero
  have hl : 0 < least := Ieee.two_pos _
  constructor
  · rintro ⟨n, hn⟩
    by_contra hb
    have key : ∀ n, least ≤ (next a 0)^[n] p := by
      intro n
      induction n with
      | zero => exact least_le hp.rep hp0
      | succ n ih =>
        rw [Function.iterate_succ_apply']
        refine le_trans ?_ (next_mono h0 h1 le_rfl ih)
        rw [next_zero]
        exact rndS_least (not_le.1 hb)
    have h := (hv n).1.symm.trans hn
    have := key n
    rw [XVal.fin.inj h] at this
    linarith
  · intro hb
    obtain ⟨_, N, hN⟩ := iterate_rests (f := next a 0) (fun p q h => next_mono h0 h1 le_rfl h) (fun n => (hv n).2)
    refine ⟨N, ?_⟩
    rw [(hv N).1]
    congr 1
    have hnn : ∀ n, 0 ≤ (next a 0)^[n] p := by
      intro n
      induction n with
      | zero => exact hp0.le
      | succ n ih =>
        rw [Function.iterate_succ_apply', next_zero]
        exact rndS_nonneg (mul_nonneg ih (rndS_nonneg (by linarith)))
    rcases (hnn N).lt_or_eq with h | h
    · rw [next_zero] at hN
      exact absurd hN (rndS_half (hv N).2.rep h hb).ne
    · exact h.symm

/-- **C147 and C299 are violated** for every weight below one half (by two units in the last place) and every positive output: when the input has become zero the output
never does. -/
theorem zero_never_reached_violated {a p : ℚ} (ha : F64 a) (h0 : 0 ≤ a) (h1 : a ≤ 1 / 2 - 1 / 2 ^ 53) (hp : F64 p) (hp0 : 0 < p) (n : Nat) :
    held (.fin a) (.fin 0) (.fin p) n ≠ .fin 0 := by
  intro h
  have hb := (zero_reached_iff ha h0 (by linarith) hp hp0).1 ⟨n, h⟩
  have hr : Rep (1 / 2 + 1 / 2 ^ 53) := ⟨2 ^ 52 + 1, -53, by norm_num, by norm_num, by norm_num⟩
  have := le_rndS hr (show 1 / 2 + 1 / 2 ^ 53 ≤ 1 - a by linarith)
  linarith

/-- **C299, where it stops.**  Every double which the weight of the old output does not change stops the output: it never falls below. -/
theorem stops_above {a p z : ℚ} (ha : F64 a) (h0 : 0 ≤ a) (h1 : a ≤ 1) (hp : F64 p) (hz : rndS (z * rndS (1 - a)) = z) (hzp : z ≤ p) (n : Nat) :
    ∃ y, held (.fin a) (.fin 0) (.fin p) n = .fin y ∧ z ≤ y := by
  have hv := held_val ha h0 h1 hp f64_zero
  refine ⟨_, (hv n).1, ?_⟩
  induction n with
  | zero => exact hzp
  | succ n ih =>
    rw [Function.iterate_succ_apply']
    refine le_trans ?_ (next_mono h0 h1 le_rfl ih)
    rw [next_zero, hz]

/-- The double next to 0.001. -/
def milli : ℚ := rndS (1 / 1000)

theorem f64_milli : F64 milli := by
  refine f64_iff.2 ⟨rndS_rep _, ?_⟩
  have : |milli| ≤ 1 := by decide +kernel
  refine le_trans this ?_
  have : (1:ℚ) ≤ 2 ^ (971 : ℤ) := one_le_zpow₀ (by norm_num) (by norm_num)
  exact le_trans this (le_mul_of_one_le_left (by positivity) (by norm_num))

/-- With the weight 0.001 the output stops at 499 times the smallest double, from any output at least as large. -/
example (p : ℚ) (hp : F64 p) (h : 499 * least ≤ p) (n : Nat) : ∃ y, held (.fin milli) (.fin 0) (.fin p) n = .fin y ∧ 499 * least ≤ y :=
  stops_above f64_milli (by decide +kernel) (by decide +kernel) hp (by decide +kernel) h n

/-- Weight 3/4: from 4 the output becomes 1, 1/4, … and in the end zero. -/
example : ∃ n, held (.fin (3 / 4)) (.fin 0) (.fin 4) n = .fin 0 :=
  (zero_reached_iff ⟨3, -2, by norm_num, by norm_num, by norm_num, by norm_num⟩ (by norm_num) (by norm_num) ⟨4, 0, by norm_num, by norm_num, by norm_num, by norm_num⟩
    (by norm_num)).2 (by decide +kernel)

example : ∀ n, held (.fin milli) (.fin 0) (.fin 5) n ≠ .fin 0 :=
  fun n => zero_never_reached_violated f64_milli (by decide +kernel) (by decide +kernel) ⟨5, 0, by norm_num, by norm_num, by norm_num, by norm_num⟩ (by norm_num) n

example : Le (lowPasses (.fin (1 / 2)) [.fin 1, .fin 2]) (lowPasses (.fin (1 / 2)) [.fin 1, .fin 5]) :=
  have h (m : ℤ) (hm : |m| < 2 ^ 53) : F64 m := ⟨m, 0, hm, by norm_num, by norm_num, by norm_num⟩
  keeps_order f64_half (by norm_num) (by norm_num)
    (.cons ⟨1, 1, rfl, rfl, by simpa using h 1 (by norm_num), by simpa using h 1 (by norm_num), le_rfl⟩
      (.cons ⟨2, 5, rfl, rfl, by simpa using h 2 (by norm_num), by simpa using h 5 (by norm_num), by norm_num⟩ .nil)) (by simp)

end Verif.Control.IeeeSettle
