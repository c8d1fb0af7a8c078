import Verif.Control.Trace
import Mathlib.Data.Nat.ModEq
namespace Verif.Control.Trace
variable {S : Type}

/-- Specification: the samples taken while enabled, oldest first. -/
def taken : Bool → List (Op S) → List S
  | _, [] => []
  | r, .run x :: ops => if r then x :: taken r ops else taken r ops
  | _, .enable :: ops => taken true ops
  | _, .disable :: ops => taken false ops

structure Inv (n : Nat) (s : St S) (xs : List S) : Prop where
  pos : 1 ≤ n
  maxBufLen : s.maxBufLen = n
  len : s.buf.length = n
  index : s.index = xs.length % n
  cycle : s.cycle = decide (n ≤ xs.length)
  slots : ∀ j, j < n → j < xs.length → s.buf[(xs.length - 1 - j) % n]? = (xs[xs.length - 1 - j]?).map some

theorem run_inv (n : Nat) (s : St S) (xs : List S) (h : Inv n s xs) (hr : s.running = true) (x : S) :
    ∃ s', step s (.run x) = some s' ∧ Inv n s' (xs ++ [x]) ∧ s'.running = true := by
  obtain ⟨hpos, hb, hl, hi, hc, hs⟩ := h
  have hlt : s.index < n := by rw [hi]; exact Nat.mod_lt _ (by omega)
  have hslots : ∀ j, j < n → j < xs.length + 1 →
      (s.buf.set s.index (some x))[(xs.length - j) % n]? = ((xs ++ [x])[xs.length - j]?).map some := by
    intro j hj hjx
    rw [List.getElem?_set]
    by_cases h0 : j = 0
    · subst h0
      rw [if_pos (by rw [hi]; simp), if_pos (by rw [hl]; exact hlt)]
      simp
    · have hne : s.index ≠ (xs.length - j) % n := by
        rw [hi]
        intro he
        have h1 : (xs.length - j + j) % n = (xs.length - j) % n := by rw [Nat.sub_add_cancel (by omega)]; exact he
        have h2 := Nat.sub_mod_eq_zero_of_mod_eq h1
        rw [Nat.add_sub_cancel_left, Nat.mod_eq_of_lt hj] at h2
        exact h0 h2
      rw [if_neg hne]
      have := hs (j - 1) (by omega) (by omega)
      rw [show xs.length - 1 - (j - 1) = xs.length - j by omega] at this
      rw [this, List.getElem?_append_left (by omega)]
  have hmod : (xs.length + 1) % n = if s.index + 1 = n then 0 else s.index + 1 := by
    rw [hi, Nat.add_mod]
    by_cases h1 : n = 1
    · subst h1; simp [Nat.mod_one]
    · rw [Nat.mod_eq_of_lt (show 1 < n by omega)]
      have := Nat.mod_lt xs.length (show n > 0 by omega)
      by_cases h2 : xs.length % n + 1 = n
      · simp [h2]
      · rw [if_neg h2, Nat.mod_eq_of_lt (show xs.length % n + 1 < n by omega)]
  unfold step
  simp only [hr, if_true, hl, hlt, hb]
  by_cases h2 : s.index + 1 = n
  · rw [if_pos h2]
    rw [if_pos h2] at hmod
    have hge : n ≤ xs.length + 1 := by
      rw [hi] at h2
      have := Nat.mod_le xs.length n
      omega
    refine ⟨_, rfl, ⟨hpos, by first | exact hb | rfl, by simp [hl], by simp [hmod], by simp [hge], ?_⟩, by first | exact hr | rfl⟩
    intro j hj hjx
    simpa using hslots j hj (by simpa using hjx)
  · rw [if_neg h2]
    rw [if_neg h2] at hmod
    have hcyc : (n ≤ xs.length) ↔ (n ≤ xs.length + 1) := by
      constructor
      · intro h; omega
      · intro h
        rcases Nat.lt_or_ge xs.length n with hlt' | hge
        · rw [hi, Nat.mod_eq_of_lt hlt'] at h2; omega
        · exact hge
    refine ⟨_, rfl, ⟨hpos, by first | exact hb | rfl, by simp [hl], by simp [hmod], ?_, ?_⟩, by first | exact hr | rfl⟩
    · simp [hc, hcyc]
    · intro j hj hjx
      simpa using hslots j hj (by simpa using hjx)

theorem exec_inv (n : Nat) : ∀ (ops : List (Op S)) (s : St S) (xs : List S), Inv n s xs →
    ∃ s', exec s ops = some s' ∧ Inv n s' (xs ++ taken s.running ops) := by
  intro ops
  induction ops with
  | nil => intro s xs h; exact ⟨s, rfl, by simpa [taken] using h⟩
  | cons op ops ih =>
    intro s xs h
    cases op with
    | run x =>
      by_cases hr : s.running = true
      · obtain ⟨s1, h1, h2, h3⟩ := run_inv n s xs h hr x
        obtain ⟨s', h4, h5⟩ := ih s1 _ h2
        refine ⟨s', by simp [exec, List.foldlM_cons, h1]; exact h4, ?_⟩
        simpa [taken, hr, h3] using h5
      · have hr' : s.running = false := by simpa using hr
        have hst : step s (.run x) = some s := by simp [step, hr']
        obtain ⟨s', h4, h5⟩ := ih s xs h
        refine ⟨s', by simp [exec, List.foldlM_cons, hst]; exact h4, ?_⟩
        simpa [taken, hr'] using h5
    | enable =>
      obtain ⟨s', h4, h5⟩ := ih { s with running := true } xs ⟨h.pos, h.maxBufLen, h.len, h.index, h.cycle, h.slots⟩
      exact ⟨s', by simp [exec, List.foldlM_cons, step]; exact h4, by simpa [taken] using h5⟩
    | disable =>
      obtain ⟨s', h4, h5⟩ := ih { s with running := false } xs ⟨h.pos, h.maxBufLen, h.len, h.index, h.cycle, h.slots⟩
      exact ⟨s', by simp [exec, List.foldlM_cons, step]; exact h4, by simpa [taken] using h5⟩

/-- **C34.** For every buffer length of at least one and every history the trace never writes outside its buffers, and `getTrace` returns
exactly the last `min(n, length)` samples taken while enabled, oldest first, all initialised. -/
theorem trace_last_samples (n : Nat) (hn : 1 ≤ n) (ops : List (Op S)) :
    ∃ s, exec (new n) ops = some s ∧
      getTrace s = ((taken false ops).drop ((taken false ops).length - n)).map (fun x => some (some x)) := by
  have h0 : Inv n (new n : St S) [] :=
    ⟨hn, rfl, by simp [new], by simp [new], by simp [new]; omega, by simp⟩
  obtain ⟨s, h1, h2⟩ := exec_inv n ops (new n) [] h0
  refine ⟨s, h1, ?_⟩
  have hrun : (new n : St S).running = false := rfl
  rw [List.nil_append, hrun] at h2
  obtain ⟨hpos, hb, hl, hi, hc, hs⟩ := h2
  generalize hxs : taken false ops = xs at *
  unfold getTrace
  by_cases hfull : n ≤ xs.length
  · rw [hc]
    simp only [hfull, decide_true, if_true, hb]
    apply List.ext_getElem
    · simp; omega
    · intro i hi1 hi2
      have hin : i < n := by rw [List.length_map, List.length_range] at hi1; exact hi1
      simp only [List.getElem_map, List.getElem_range, List.getElem_drop]
      have := hs (n - 1 - i) (by omega) (by omega)
      rw [show xs.length - 1 - (n - 1 - i) = xs.length - n + i by omega] at this
      rw [List.getElem?_eq_getElem (l := xs) (by omega)] at this
      simp only [Option.map_some] at this
      rw [← this, hi]
      congr 1
      have e : i + xs.length % n ≡ xs.length - n + i [MOD n] := by
        have : xs.length % n ≡ xs.length - n [MOD n] := by
          have h1 : xs.length % n ≡ xs.length [MOD n] := Nat.mod_modEq _ _
          have h2 : xs.length - n ≡ xs.length [MOD n] := by
            unfold Nat.ModEq
            conv_rhs => rw [← Nat.sub_add_cancel hfull]
            rw [Nat.add_mod_right]
          exact h1.trans h2.symm
        have := Nat.ModEq.add_left i this
        rwa [Nat.add_comm (xs.length - n) i]
      exact e
  · rw [hc]
    simp only [hfull, decide_false]
    have hmod : xs.length % n = xs.length := Nat.mod_eq_of_lt (by omega)
    rw [hi, hmod]
    apply List.ext_getElem
    · simp; omega
    · intro i hi1 hi2
      have hin : i < xs.length := by simpa using hi1
      have := hs (xs.length - 1 - i) (by omega) (by omega)
      rw [show xs.length - 1 - (xs.length - 1 - i) = i by omega, Nat.mod_eq_of_lt (by omega)] at this
      rw [List.getElem?_eq_getElem hin] at this
      simp only [Option.map_some] at this
      simp [this]
      congr 2
      omega

/-- Length zero is not rejected: the first enabled run writes outside the buffer. -/
theorem zero_length_undefined : (exec (new 0 : St Nat) [.enable, .run 1]).isNone = true := by decide

/-- Non-vacuity: length 3, samples 1..5 with 3 taken while disabled. -/
example : (exec (new 3 : St Nat) [.enable, .run 1, .run 2, .disable, .run 3, .enable, .run 4, .run 5]).map getTrace =
    some [some (some 2), some (some 4), some (some 5)] := by decide

end Verif.Control.Trace
