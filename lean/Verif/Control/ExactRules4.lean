import Verif.Control.VectorCmp
import Verif.Control.RosTimeProps
import Verif.Common.Double
/-!
Exact rules, part 4: checkers, switches, integrators and gains of vectors with elements which are not numbers (`Verif.Control.VectorCmp`), and the conversion of time
stamps of the present to ROS (`Verif.Control.RosTime`).
-/
namespace Verif.Control.ExactRules4
open Verif.Common Verif.Common.Round

section Vectors
open Verif.Control.VectorCmp
variable {K : Type} [Field K] [LinearOrder K] {n : Nat}

/-- Strictly between two numbers; infinities are not. -/
def Inside (l u : K) (v : XVal K) : Prop := ∃ a, v = .fin a ∧ l < a ∧ a < u

/-- Not strictly between two numbers: at or beyond one of them, or infinite. -/
def Outside (l u : K) (v : XVal K) : Prop := v = .pinf ∨ v = .ninf ∨ ∃ a, v = .fin a ∧ (a ≤ l ∨ u ≤ a)

omit [Field K] in
theorem gt_lt_iff (l u : K) (v : XVal K) :
    ((v = .nan ∨ (.fin l : XVal K) = .nan ∨ XVal.lt (.fin l) v = true) ∧ (v = .nan ∨ (.fin u : XVal K) = .nan ∨ XVal.lt v (.fin u) = true)) ↔
      v = .nan ∨ Inside l u v := by
  cases v <;> simp [Inside, XVal.lt]

theorem within_iff (lower upper : Fin n → K) (v : Vec K n) :
    (vgt v (num lower) && vlt v (num upper)) = true ↔ ∀ i, v i = .nan ∨ Inside (lower i) (upper i) (v i) := by
  rw [Bool.and_eq_true, (nan_elements_pass_violated _ _).1, (nan_elements_pass_violated _ _).2.2.1, ← forall_and]
  exact forall_congr' fun i => gt_lt_iff _ _ _

omit [Field K] in
theorem not_inside (l u : K) (v : XVal K) : ¬ (v = .nan ∨ Inside l u v) ↔ Outside l u v := by
  cases v with
  | fin a =>
    simp only [Inside, Outside, reduceCtorEq, false_or, XVal.fin.injEq]
    constructor
    · intro h
      refine ⟨a, rfl, ?_⟩
      by_cases h1 : l < a
      · exact .inr (not_lt.1 fun h2 => h ⟨a, rfl, h1, h2⟩)
      · exact .inl (not_lt.1 h1)
    · rintro ⟨b, rfl, hb⟩ ⟨c, rfl, hc⟩
      rcases hb with hb | hb
      · exact absurd hc.1 (not_lt.2 hb)
      · exact absurd hc.2 (not_lt.2 hb)
  | _ => simp [Inside, Outside]

/-- **C300, checker.**  With any elements, also infinite ones and NaN: a checker triggers its event exactly when one element is outside of its limits, an off-range checker
exactly when every element is NaN or strictly inside; in both cases exactly if it has not triggered before. -/
theorem checker_exact (lower upper : Fin n → K) (fired : Bool) (v : Vec K n) :
    ((checker lower upper false fired v).2 = true ↔ fired = false ∧ ∃ i, Outside (lower i) (upper i) (v i)) ∧
    ((checker lower upper true fired v).2 = true ↔ fired = false ∧ ∀ i, v i = .nan ∨ Inside (lower i) (upper i) (v i)) := by
  have hw := within_iff lower upper v
  have hn : (¬ ∀ i, v i = .nan ∨ Inside (lower i) (upper i) (v i)) ↔ ∃ i, Outside (lower i) (upper i) (v i) := by
    rw [not_forall]; exact exists_congr fun i => not_inside _ _ _
  cases fired
  · rw [← hn, ← hw]
    cases h : (vgt v (num lower) && vlt v (num upper)) <;> simp [checker, exceeded, within, h]
  · simp [checker]

/-- **C300, histories.**  The number of events in any sequence of runs is one exactly if some vector in it has an element outside of its limits, else zero: NaN alone never
triggers. -/
theorem events_exact (lower upper : Fin n → K) (vs : List (Vec K n)) :
    (events lower upper false false vs = 1 ↔ ∃ v ∈ vs, ∃ i, Outside (lower i) (upper i) (v i)) ∧
    (events lower upper false false vs = 0 ↔ ∀ v ∈ vs, ∀ i, ¬ Outside (lower i) (upper i) (v i)) := by
  have h0 : ∀ vs : List (Vec K n), events lower upper false true vs = 0 := by
    intro vs; induction vs with
    | nil => rfl
    | cons v vs ih => simp [events, checker, ih]
  induction vs with
  | nil => simp [events]
  | cons v vs ih =>
    have hc := (checker_exact lower upper false v).1
    by_cases h : ∃ i, Outside (lower i) (upper i) (v i)
    · have h2 : (checker lower upper false false v).2 = true := hc.2 ⟨rfl, h⟩
      have h1 : (checker lower upper false false v).1 = true := by
        unfold checker at h2 ⊢
        simp only [Bool.false_eq_true, if_false] at h2 ⊢
        split at h2
        · next he => simp [he]
        · cases h2
      simp only [events, h2, h1, h0, if_true]
      refine ⟨⟨fun _ => ⟨v, by simp, h⟩, fun _ => trivial⟩, ⟨fun h => absurd h (by omega), fun hall => ?_⟩⟩
      obtain ⟨i, hi⟩ := h
      exact absurd hi (hall v (by simp) i)
    · have h2 : (checker lower upper false false v).2 = false := by
        rw [Bool.eq_false_iff]; exact fun hh => h (hc.1 hh).2
      have h1 : (checker lower upper false false v).1 = false := by
        unfold checker at h2 ⊢
        simp only [Bool.false_eq_true, if_false] at h2 ⊢
        split at h2
        · cases h2
        · next he => simp [he]
      simp only [events, h2, h1, Bool.false_eq_true, if_false, Nat.zero_add]
      push Not at h
      refine ⟨ih.1.trans ?_, ih.2.trans ?_⟩
      · simp only [List.mem_cons, exists_eq_or_imp]
        exact ⟨.inr, fun hh => hh.resolve_left fun ⟨i, hi⟩ => h i hi⟩
      · simp only [List.mem_cons, forall_eq_or_imp]
        exact ⟨fun hh => ⟨h, hh⟩, fun hh => hh.2⟩

/-- **C300, switch.**  A switch of vectors finds its input in the window exactly if every element is NaN or strictly inside. -/
theorem window_exact (level delta : Fin n → K) (v : Vec K n) :
    inWindow level delta v = true ↔ ∀ i, v i = .nan ∨ Inside (level i - delta i) (level i + delta i) (v i) := by
  rw [inWindow, Bool.and_comm]
  exact within_iff _ _ _

/-- **C300, integrator.**  A run takes over the new vector exactly if every new element is NaN or strictly within its limits, else it keeps all elements. -/
theorem integrate_exact (lower upper : Fin n → K) (prev x : Vec K n) (dt : K) :
    ((∀ i, advance prev x dt i = .nan ∨ Inside (lower i) (upper i) (advance prev x dt i)) → integrate lower upper prev x dt = advance prev x dt) ∧
    ((∃ i, Outside (lower i) (upper i) (advance prev x dt i)) → integrate lower upper prev x dt = prev) := by
  have hw := within_iff lower upper (advance prev x dt)
  rw [Bool.and_comm] at hw
  refine ⟨fun h => ?_, fun ⟨i, hi⟩ => ?_⟩
  · simp only [integrate, hw.2 h, if_true]
  · have : ¬ (vlt (advance prev x dt) (num upper) && vgt (advance prev x dt) (num lower)) = true := by
      rw [hw]; exact fun hh => (not_inside _ _ _).2 hi (hh i)
    simp only [integrate, this]
    simp

/-- **C300, gain.**  `setGain` takes over exactly the vectors whose elements are NaN or numbers within the limits. -/
theorem accepts_exact (min max : Fin n → K) (c : Vec K n) :
    accepts min max c = true ↔ ∀ i, c i = .nan ∨ ∃ a, c i = .fin a ∧ min i ≤ a ∧ a ≤ max i := by
  rw [accepts, Bool.and_eq_true, (nan_elements_pass_violated _ _).2.1, (nan_elements_pass_violated _ _).2.2.2, ← forall_and]
  refine forall_congr' fun i => ?_
  rw [num, num]
  cases h : c i with
  | fin a =>
    simp only [XVal.le, XVal.lt, XVal.eq, reduceCtorEq, false_or, XVal.fin.injEq, exists_eq_left']
    simp [le_iff_lt_or_eq, and_comm]
  | _ => simp [XVal.le, XVal.lt, XVal.eq]

example : events ![(-1 : ℚ), -1] ![1, 1] false false [![.fin 0, .nan], ![.nan, .pinf], fun _ => .nan] = 1 :=
  (events_exact _ _ _).1.2 ⟨![.nan, .pinf], by simp, 1, .inl rfl⟩
example : inWindow ![(5 : ℚ), 5] ![1, 1] ![.nan, .fin 5] = true := (window_exact _ _ _).2 fun i => by
  match i with
  | 0 => exact .inl rfl
  | 1 => exact .inr ⟨5, rfl, by norm_num, by norm_num⟩
example : integrate ![(-1 : ℚ), -1] ![1, 1] (num ![0, 0]) (num ![1, 5]) (1/2) = num ![0, 0] :=
  (integrate_exact _ _ _ _ _).2 ⟨1, .inr (.inr ⟨5/2, by norm_num [advance, num, XVal.add, XVal.mul], by norm_num⟩)⟩
example : accepts ![(0 : ℚ), 0] ![1, 1] ![.nan, .fin 2] = false ∧ accepts ![(0 : ℚ), 0] ![1, 1] ![.nan, .fin 1] = true := by decide +kernel

end Vectors

section Time
open Verif.Control.RosTime

theorem fl_up (m : ℕ) (hm : m % 2 = 0) (h1 : 2 ^ 60 < m * 256) (h2 : m ≤ 2 ^ 53) (h3 : 2 ^ 60 ≤ m * 256 - 128) : fl ((m : ℚ) * 256 - 128) = (m : ℚ) * 256 := by
  have hx : ((m * 256 - 128 : ℕ) : ℚ) = (m : ℚ) * 256 - 128 := by
    rw [Nat.cast_sub (by omega)]; push_cast; ring
  have hpos : (0:ℚ) < (m : ℚ) * 256 - 128 := by
    have : 0 < m * 256 - 128 := by omega
    rw [← hx]; exact_mod_cast this
  have hlog : Int.log 2 ((m : ℚ) * 256 - 128) = 60 := by
    rw [← hx, Int.log_natCast]
    have : Nat.log 2 (m * 256 - 128) = 60 := by
      rw [Nat.log_eq_iff (by norm_num)]
      constructor <;> omega
    rw [this]; rfl
  have hu : ulp ((m : ℚ) * 256 - 128) = 256 := by rw [ulp, hlog]; norm_num
  rw [fl, if_neg (not_le.2 hpos), hu]
  have hf : ⌊((m:ℚ) * 256 - 128) / 256⌋ = (m:ℤ) - 1 := by
    rw [Int.floor_eq_iff]; push_cast; constructor <;> linarith
  have : nearest (((m:ℚ) * 256 - 128) / 256) = m := by
    unfold nearest
    rw [hf]
    push_cast
    rw [if_neg (by linarith), if_neg (by linarith), if_neg (by rw [Int.even_iff]; omega)]
    ring
  rw [this]; push_cast; ring

/-- A multiple of 256 ns up to `2^61` is a double. -/
theorem fl_mult (m : ℕ) (h : m ≤ 2 ^ 53) : fl ((m : ℚ) * 256) = (m : ℚ) * 256 := by
  have := fl_exact m 8 h
  norm_num at this
  exact this

/-- The whole seconds of the time stamps of the present (2006 to 2038), exactly: one second late in the last 128 ns of each second. -/
theorem floor_seconds_present (ns : ℕ) (h1 : 2 ^ 60 ≤ ns) (h2 : ns < 2 ^ 31 * 1000000000) :
    ⌊seconds ns⌋ = ((ns / 1000000000 + (if 1000000000 - 128 ≤ ns % 1000000000 then 1 else 0) : ℕ) : ℤ) := by
  set s := ns / 1000000000 with hs
  set r := ns % 1000000000 with hr
  have hd : ns = s * 1000000000 + r := by omega
  have hr9 : r < 1000000000 := Nat.mod_lt _ (by norm_num)
  obtain ⟨m, hm⟩ : ∃ m, m = (s + 1) * 3906250 := ⟨_, rfl⟩
  have h256 : m * 256 = (s + 1) * 1000000000 := by rw [hm]; ring
  have hs31 : s + 1 ≤ 2 ^ 31 := by omega
  have hm2 : m ≤ 2 ^ 53 := by omega
  have hq256 : (m : ℚ) * 256 = (s + 1) * 1000000000 := by exact_mod_cast h256
  have hnsq : (ns : ℚ) = s * 1000000000 + r := by rw [hd]; push_cast; ring
  have hr9q : (r : ℚ) ≤ 999999999 := by exact_mod_cast (by omega : r ≤ 999999999)
  have hr0 : (0 : ℚ) ≤ r := by positivity
  split
  · next hl =>
    have e : fl (ns : ℚ) = (m : ℚ) * 256 := by
      apply le_antisymm
      · rw [← fl_mult m hm2]
        apply fl_mono
        rw [hq256, hnsq]; linarith
      · rw [← fl_up m (by omega) (by omega) hm2 (by omega)]
        apply fl_mono
        have : (999999872 : ℚ) ≤ r := by exact_mod_cast (by omega : 999999872 ≤ r)
        rw [hq256, hnsq]; linarith
    rw [seconds, e, hq256, mul_div_assoc, div_self (by norm_num), mul_one]
    have := fl_nat (s + 1) (by omega)
    push_cast at this
    rw [this]
    have h := Int.floor_natCast (R := ℚ) (s + 1)
    push_cast at h ⊢
    exact h
  · next hl =>
    have hpos : (0:ℚ) < ns := by
      have : 0 < ns := by omega
      exact_mod_cast this
    have hup : fl (ns : ℚ) ≤ (m : ℚ) * 256 - 256 := by
      obtain ⟨k, hk⟩ := fl_multiple (x := (ns : ℚ)) (e := 60) (by exact_mod_cast h1)
      norm_num at hk
      have herr := (abs_le.1 (fl_error hpos)).2
      have hlog : Int.log 2 (ns : ℚ) = 60 := by
        rw [Int.log_natCast]
        have : Nat.log 2 ns = 60 := by
          rw [Nat.log_eq_iff (by norm_num)]
          constructor
          · omega
          · omega
        rw [this]; rfl
      have hu : ulp (ns : ℚ) = 256 := by rw [ulp, hlog]; norm_num
      rw [hu, hk] at herr
      have hr' : (r : ℚ) ≤ 999999871 := by exact_mod_cast (by omega : r ≤ 999999871)
      have hlt : (k : ℚ) * 256 < (m : ℚ) * 256 := by rw [hq256]; rw [hnsq] at herr; linarith
      have hkm : (k : ℚ) < ((m : ℤ) : ℚ) := by push_cast; linarith
      have hkm' : k + 1 ≤ (m : ℤ) := by exact_mod_cast hkm
      have : (k : ℚ) + 1 ≤ m := by exact_mod_cast hkm'
      rw [hk]; linarith
    have hlo : (s : ℚ) * 1000000000 ≤ fl (ns : ℚ) := by
      have h3 := fl_mult (s * 3906250) (by omega)
      have h4 : ((s * 3906250 : ℕ) : ℚ) * 256 = s * 1000000000 := by push_cast; ring
      rw [h4] at h3
      rw [← h3]
      apply fl_mono
      rw [hnsq]; linarith
    rw [Nat.add_zero]
    rw [Int.floor_eq_iff]
    constructor
    · have h5 : fl (s : ℚ) ≤ seconds ns := by
        rw [seconds]
        apply fl_mono
        rw [le_div_iff₀ (by norm_num)]
        exact hlo
      rw [fl_nat s (by omega)] at h5
      exact_mod_cast h5
    · have hfp : (0:ℚ) < fl (ns : ℚ) / 1000000000 := by
        have hs0 : 0 < s := by omega
        have : (0:ℚ) < (s : ℚ) * 1000000000 := by
          have : (0:ℚ) < s := by exact_mod_cast hs0
          positivity
        have := lt_of_lt_of_le this hlo
        positivity
      have hle : fl (ns : ℚ) / 1000000000 ≤ s + 1 - 256 / 1000000000 := by
        rw [div_le_iff₀ (by norm_num)]
        rw [hq256] at hup
        linarith
      have herr := (abs_le.1 (fl_error hfp)).2
      have hulp : ulp (fl (ns : ℚ) / 1000000000) ≤ 2 ^ (-22:ℤ) := by
        unfold ulp
        apply zpow_le_zpow_right₀ (by norm_num)
        have h31q : (s : ℚ) + 1 ≤ 2 ^ 31 := by exact_mod_cast hs31
        have : (2:ℚ) ^ Int.log 2 (fl (ns : ℚ) / 1000000000) < 2 ^ (31:ℤ) := by
          refine lt_of_le_of_lt (log_bounds hfp).1 ?_
          norm_num at h31q ⊢
          linarith
        have := (zpow_lt_zpow_iff_right₀ (by norm_num : (1:ℚ) < 2)).1 this
        omega
      norm_num at hulp
      rw [seconds]
      push_cast
      linarith

/-- **C301, exactly.**  A time stamp of the present, from `2^60` ns to `2^31` s after 1970 (2006 to 2038), is converted to ROS 1 without error exactly if it is not in the last
128 ns of a second; there the converted time is one second late. -/
theorem toRos1_exact (ns : ℕ) (h1 : 2 ^ 60 ≤ ns) (h2 : ns < 2 ^ 31 * 1000000000) :
    toRos1 ns = some (((ns / 1000000000 + (if 1000000000 - 128 ≤ ns % 1000000000 then 1 else 0) : ℕ) : ℤ), ns % 1000000000) := by
  rw [toRos1, floor_seconds_present ns h1 h2, if_pos]
  have : ns / 1000000000 + (if 1000000000 - 128 ≤ ns % 1000000000 then 1 else 0) < 2 ^ 32 := by split <;> omega
  exact_mod_cast this

/-- **C301, exactly**, ROS 2: the same; in the last 128 ns before `2^31` s the conversion is undefined. -/
theorem toRos2_exact (ns : ℕ) (h1 : 2 ^ 60 ≤ ns) (h2 : ns < 2 ^ 31 * 1000000000 - 128) :
    toRos2 ns = some (((ns / 1000000000 + (if 1000000000 - 128 ≤ ns % 1000000000 then 1 else 0) : ℕ) : ℤ), ns % 1000000000) := by
  rw [toRos2, floor_seconds_present ns h1 (by omega), if_pos]
  have : ns / 1000000000 + (if 1000000000 - 128 ≤ ns % 1000000000 then 1 else 0) < 2 ^ 31 := by split <;> omega
  exact_mod_cast this

/-- **C301, there and back**: the time stamp comes back exactly if it is not in the last 128 ns of a second, else it is one second larger. -/
theorem roundtrip_iff (ns : ℕ) (h1 : 2 ^ 60 ≤ ns) (h2 : ns < 2 ^ 31 * 1000000000 - 128) :
    ((toRos2 ns).map toEeros = some ns ↔ ns % 1000000000 < 1000000000 - 128) ∧
    (1000000000 - 128 ≤ ns % 1000000000 → (toRos2 ns).map toEeros = some (ns + 1000000000)) := by
  rw [toRos2_exact ns h1 h2, Option.map_some]
  split
  · next h =>
    rw [toEeros_exact _ _ (by omega) (by omega)]
    refine ⟨⟨fun he => ?_, fun he => absurd h (by omega)⟩, fun _ => ?_⟩
    · have := Option.some.inj he; omega
    · congr 1; omega
  · next h =>
    rw [toEeros_exact _ _ (by omega) (by omega)]
    exact ⟨⟨fun _ => by omega, fun _ => by congr 1; omega⟩, fun h' => absurd h' h⟩

/-- A time in 2025, in the middle and 100 ns before the end of a second. -/
example : (toRos2 1763000000500000000).map toEeros = some 1763000000500000000 ∧ (toRos2 1763000000999999900).map toEeros = some 1763000001999999900 :=
  ⟨(roundtrip_iff _ (by norm_num) (by norm_num)).1.2 (by norm_num), (roundtrip_iff _ (by norm_num) (by norm_num)).2 (by norm_num)⟩

end Time

end Verif.Control.ExactRules4
