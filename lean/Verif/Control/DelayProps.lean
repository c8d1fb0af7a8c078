import Verif.Control.Delay
import Mathlib.Algebra.Order.Floor.Ring
import Mathlib.Data.Rat.Floor
import Mathlib.Tactic.Linarith
import Mathlib.Tactic.NormNum
import Mathlib.Data.List.Induction
namespace Verif.Control.Delay
variable {S : Type}

/-- State after the samples `xs` (oldest first): slot `k` holds the newest sample whose number is `k` modulo the length. -/
structure Inv (n : Nat) (s : St S) (xs : List S) : Prop where
  pos : 1 ≤ n
  bufLen : s.bufLen = n
  len : s.buf.length = n
  index : s.index = xs.length % n
  cycle : s.cycle = decide (n ≤ xs.length)
  slots : ∀ j, j < n → j < xs.length → s.buf[(xs.length - 1 - j) % n]? = (xs[xs.length - 1 - j]?).map some
  out : s.out = if n ≤ xs.length then xs[xs.length - n]? else none

theorem inv_mk (n : Nat) (h : 1 ≤ n) : Inv n (mk n : St S) [] :=
  ⟨h, rfl, by simp [mk], by simp [mk], by simp [mk]; omega, by simp, by simp [mk]⟩

theorem run_inv (n : Nat) (s : St S) (xs : List S) (h : Inv n s xs) (x : S) :
    ∃ s', run s x = .ok s' ∧ Inv n s' (xs ++ [x]) := by
  obtain ⟨hpos, hb, hl, hi, hc, hs, ho⟩ := h
  have hlt : s.index < n := by rw [hi]; exact Nat.mod_lt _ (by omega)
  have hidx' : (if s.index + 1 = n then 0 else s.index + 1) = (xs.length + 1) % n := by
    rw [hi, Nat.add_mod]
    by_cases h1 : n = 1
    · subst h1; simp [Nat.mod_one]
    · rw [Nat.mod_eq_of_lt (show 1 < n by omega)]
      have := Nat.mod_lt xs.length (show n > 0 by omega)
      by_cases h2 : xs.length % n + 1 = n
      · simp [h2]
      · rw [if_neg h2, Nat.mod_eq_of_lt (show xs.length % n + 1 < n by omega)]
  have hcyc' : (if s.index + 1 = n then true else s.cycle) = decide (n ≤ xs.length + 1) := by
    rw [hc]
    by_cases h2 : s.index + 1 = n
    · rw [if_pos h2]
      have : n ≤ xs.length + 1 := by
        rw [hi] at h2
        have := Nat.mod_le xs.length n
        omega
      simp [this]
    · rw [if_neg h2]
      have : n ≤ xs.length ↔ n ≤ xs.length + 1 := by
        constructor
        · intro h; omega
        · intro h
          rcases Nat.lt_or_ge xs.length n with hlt' | hge
          · rw [hi, Nat.mod_eq_of_lt hlt'] at h2; omega
          · exact hge
      simp only [this]
  -- the new buffer satisfies the slot condition
  have hslots : ∀ j, j < n → j < xs.length + 1 →
      (s.buf.set s.index (some x))[(xs.length - j) % n]? = ((xs ++ [x])[xs.length - j]?).map some := by
    intro j hj hjx
    rw [List.getElem?_set]
    by_cases h0 : j = 0
    · subst h0
      rw [if_pos (by rw [hi]; simp), if_pos (by rw [hl]; exact hlt)]
      simp
    · have hne : s.index ≠ (xs.length - j) % n := by
        rw [hi]
        intro he
        have h1 : (xs.length - j + j) % n = (xs.length - j) % n := by rw [Nat.sub_add_cancel (by omega)]; exact he
        have h2 := Nat.sub_mod_eq_zero_of_mod_eq h1
        rw [Nat.add_sub_cancel_left, Nat.mod_eq_of_lt hj] at h2
        exact h0 h2
      rw [if_neg hne]
      have := hs (j - 1) (by omega) (by omega)
      rw [show xs.length - 1 - (j - 1) = xs.length - j by omega] at this
      rw [this, List.getElem?_append_left (by omega)]
  unfold run
  rw [if_pos (by rw [hl]; exact hlt), hb]
  dsimp only
  have hpair : (if s.index + 1 = n then ((0 : Nat), true) else (s.index + 1, s.cycle)) =
      ((xs.length + 1) % n, decide (n ≤ xs.length + 1)) := by
    rw [← hidx', ← hcyc']; split <;> rfl
  rw [hpair]
  by_cases hfull : n ≤ xs.length + 1
  · have hrd : (s.buf.set s.index (some x))[(xs.length + 1) % n]? = ((xs ++ [x])[xs.length + 1 - n]?).map some := by
      have := hslots (n - 1) (by omega) (by omega)
      rw [show xs.length - (n - 1) = xs.length + 1 - n by omega] at this
      rw [← this]
      congr 1
      conv_lhs => rw [← Nat.sub_add_cancel hfull]
      rw [Nat.add_mod_right]
    have hin : xs.length + 1 - n < (xs ++ [x]).length := by simp; omega
    rw [List.getElem?_eq_getElem hin] at hrd
    simp only [hfull, decide_true, if_true, hrd, Option.map_some]
    refine ⟨_, rfl, ⟨hpos, rfl, by simp [hl], by simp, by simp [hfull], ?_, ?_⟩⟩
    · intro j hj hjx
      have := hslots j hj (by simpa using hjx)
      simpa using this
    · simp only [List.length_append, List.length_singleton, hfull, if_true]
      rw [List.getElem?_eq_getElem hin]
  · simp only [hfull, decide_false]
    refine ⟨_, rfl, ⟨hpos, rfl, by simp [hl], by simp, by simp [hfull], ?_, ?_⟩⟩
    · intro j hj hjx
      have := hslots j hj (by simpa using hjx)
      simpa using this
    · have : ¬ n ≤ xs.length := by omega
      simp [ho, this, hfull]

theorem runs_inv (n : Nat) : ∀ (ys : List S) (s : St S) (xs : List S), Inv n s xs →
    ∃ s' outs, runs s ys = some (s', outs) ∧ Inv n s' (xs ++ ys) ∧ outs.length = ys.length ∧
      ∀ k, k < ys.length → outs[k]? = some (if n ≤ xs.length + k + 1 then (xs ++ ys)[xs.length + k + 1 - n]? else none) := by
  intro ys
  induction ys with
  | nil => intro s xs h; exact ⟨s, [], rfl, by simpa using h, rfl, by simp⟩
  | cons y ys ih =>
    intro s xs h
    obtain ⟨s1, h1, h2⟩ := run_inv n s xs h y
    obtain ⟨s', outs, h3, h4, h5, h6⟩ := ih s1 (xs ++ [y]) h2
    refine ⟨s', s1.out :: outs, by simp [runs, h1, h3], by simpa using h4, by simp [h5], ?_⟩
    intro k hk
    cases k with
    | zero =>
      have hp := h.pos
      rw [List.getElem?_cons_zero, h2.out]
      have : xs ++ y :: ys = (xs ++ [y]) ++ ys := by simp
      rw [this, List.getElem?_append_left (l₁ := xs ++ [y]) (by simp; omega)]
      simp
    | succ k =>
      rw [List.getElem?_cons_succ, h6 k (by simpa using hk)]
      simp only [List.length_append, List.length_singleton]
      rw [show xs.length + 1 + k + 1 = xs.length + (k + 1) + 1 by omega]
      simp

/-- **C25 (partial).** For every buffer length `n ≥ 1` and every input sequence the block never touches memory outside its buffer or an
uninitialised element, is silent for the first `n-1` runs, and in run number `k ≥ n-1` outputs the input of run `k-(n-1)`.
Missing for the full claim: the delay is one sampling period shorter than the length computed by the constructor, see `delay_one_short`. -/
theorem delay_shifts_partial (n : Nat) (hn : 1 ≤ n) (xs : List S) :
    ∃ s outs, runs (mk n) xs = some (s, outs) ∧ outs.length = xs.length ∧
      (∀ k, k < xs.length → k < n - 1 → outs[k]? = some none) ∧
      (∀ k, k < xs.length → n - 1 ≤ k → outs[k]? = some xs[k - (n - 1)]?) := by
  obtain ⟨s, outs, h1, -, h3, h4⟩ := runs_inv n xs (mk n) [] (inv_mk n hn)
  refine ⟨s, outs, h1, h3, ?_, ?_⟩
  · intro k hk hlt
    rw [h4 k hk, if_neg (by simp; omega)]
  · intro k hk hge
    rw [h4 k hk, if_pos (by simp; omega)]
    simp only [List.length_nil, List.nil_append]
    rw [show 0 + k + 1 - n = k - (n - 1) by omega]


/-- A buffer for three samples delays by two. -/
example : (runs (mk 3) [4, 5, 6, 7]).map (·.2) = some [none, none, some 4, some 5] := by decide

/-- The constructor refuses a delay shorter than one sampling period and uses the number of whole periods otherwise. -/
theorem new_length {K : Type} [Field K] [LinearOrder K] [IsStrictOrderedRing K] [FloorRing K] (delay ts : K)
    (hts : 0 < ts) (hd : 0 ≤ delay) (hmax : delay < 4294967296 * ts) :
    (delay < ts → (new delay ts : Ctor S) = .fault) ∧
    (ts ≤ delay → ∃ n : Nat, 1 ≤ n ∧ (n : K) * ts ≤ delay ∧ delay < (n + 1) * ts ∧ (new delay ts : Ctor S) = .ok (mk n)) := by
  have hq0 : 0 ≤ delay / ts := div_nonneg hd hts.le
  have hq : ¬ (delay / ts ≤ -1 ∨ 4294967296 ≤ delay / ts) := by
    rintro (h | h)
    · linarith
    · rw [le_div_iff₀ hts] at h; linarith
  have hf0 : 0 ≤ ⌊delay / ts⌋ := Int.floor_nonneg.2 hq0
  unfold new
  simp only [hq, if_false]
  constructor
  · intro h
    have : ⌊delay / ts⌋ = 0 := by
      rw [Int.floor_eq_zero_iff]; exact ⟨hq0, by rw [div_lt_one hts]; exact h⟩
    simp [this]
  · intro h
    have h1 : 1 ≤ ⌊delay / ts⌋ := by
      rw [Int.le_floor]; simp; rw [le_div_iff₀ hts]; linarith
    refine ⟨⌊delay / ts⌋.toNat, by omega, ?_, ?_, ?_⟩
    · have : ((⌊delay / ts⌋.toNat : ℤ) : K) = (⌊delay / ts⌋ : K) := by rw [Int.toNat_of_nonneg hf0]
      rw [← le_div_iff₀ hts, ← Int.cast_natCast, this]; exact Int.floor_le _
    · have : ((⌊delay / ts⌋.toNat : ℤ) : K) = (⌊delay / ts⌋ : K) := by rw [Int.toNat_of_nonneg hf0]
      rw [← div_lt_iff₀ hts, ← Int.cast_natCast, this]; exact Int.lt_floor_add_one _
    · rw [if_neg (by omega)]


/-- A delay of 5 ms at a sampling time of 2 ms: a buffer for two samples. -/
example : (0 : ℚ) < 1 / 500 ∧ (0 : ℚ) ≤ 1 / 200 ∧ (1 / 200 : ℚ) < 4294967296 * (1 / 500) ∧ (1 / 500 : ℚ) ≤ 1 / 200 ∧
    ((2 : Nat) : ℚ) * (1 / 500) ≤ 1 / 200 ∧ (1 / 200 : ℚ) < ((2 : Nat) + 1) * (1 / 500) := by norm_num

/-- The full claim of C25 fails: a delay of three sampling periods yields the input of two samples earlier. -/
theorem delay_one_short : (new (3/1000 : ℚ) (1/1000) : Ctor Nat) = .ok (mk 3) ∧
    (runs (mk 3) [10, 11, 12, 13]).map (·.2) = some [none, none, some 10, some 11] := by
  constructor
  · have : ⌊(3/1000 : ℚ) / (1/1000)⌋ = 3 := by norm_num
    unfold new
    simp only [this]
    rw [if_neg (by norm_num)]
    simp
  · decide

/-- Non-vacuity. -/
example : (runs (mk 1) [4, 5]).map (·.2) = some [some 4, some 5] := by decide

end Verif.Control.Delay
