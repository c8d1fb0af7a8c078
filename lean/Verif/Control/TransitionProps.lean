import Verif.Control.Transition
import Mathlib.Algebra.Order.Floor.Ring
import Mathlib.Data.Rat.Floor
import Mathlib.Tactic.Linarith
import Mathlib.Tactic.NormNum
import Mathlib.Tactic.Ring
import Mathlib.Tactic.FieldSimp
namespace Verif.Control.Transition
variable {K : Type} [Field K] [LinearOrder K] [IsStrictOrderedRing K] [FloorRing K]

/-- The samples sent, newest last. -/
def sent : List (Op K) → List (Sig K)
  | [] => []
  | .inp s :: ops => s :: sent ops
  | .out _ :: ops => sent ops

/-- Specification of the steady mode: every reception yields the last sample sent before it. -/
def steadySpec : Sig K → List (Op K) → List (Sig K)
  | _, [] => []
  | _, .inp s :: ops => steadySpec s ops
  | c, .out _ :: ops => c :: steadySpec c ops

/-- **C33, steady.** With `steady` set every reception, in every interleaving and for every ratio, is the last sample sent; before the
first sample it is a cleared signal if the ratio is at least one, otherwise (`steady_uninitialised_violated`) what was in the memory. -/
theorem steady_last_sample (ratio : K) (raw : Raw K) (ops : List (Op K)) :
    (exec (new ratio true raw) ops).map (·.2) = some (steadySpec (if 1 ≤ ratio then cleared else raw.cin) ops) := by
  suffices H : ∀ (ops : List (Op K)) (s : St K), s.steady = true →
      (exec s ops).map (·.2) = some (steadySpec s.cin ops) from H ops (new ratio true raw) rfl
  intro ops
  induction ops with
  | nil => intro s _; rfl
  | cons op ops ih =>
    intro s hs
    cases op with
    | inp sig =>
      have : runIn s sig = { s with cin := sig } := by simp [runIn, hs]
      simp only [exec, this, steadySpec]
      exact ih { s with cin := sig } hs
    | out t =>
      have hro : runOut s t = some (s, s.cin) := by simp [runOut, hs]
      simp only [exec, hro, steadySpec]
      have := ih s hs
      cases h : exec s ops with
      | none => simp [h] at this
      | some r => simp [h] at this ⊢; exact this

/-- **C33, violation.** A steady transition to a slower time domain publishes uninitialised memory as long as nothing was sent: any value
and any time stamp are possible. -/
theorem steady_uninitialised_violated (ratio : K) (h : ratio < 1) (sig : Sig K) (times : List Nat) :
    ∃ raw : Raw K, (exec (new ratio true raw) (times.map .out)).map (·.2) = some (times.map fun _ => sig) := by
  refine ⟨⟨sig, none, 0⟩, ?_⟩
  rw [steady_last_sample, if_neg (not_le.2 h)]
  congr 1
  induction times with
  | nil => rfl
  | cons t l ih => simp only [List.map_cons, steadySpec, ih]

example : ∃ raw : Raw ℚ, (exec (new (1/2) true raw) [.out 5]).map (·.2) = some [⟨some 17, 3⟩] :=
  steady_uninitialised_violated (1/2) (by norm_num) ⟨some 17, 3⟩ [5]

/-- The state of an interpolating transition right after two samples `a`, `b` were sent and none received in between. -/
theorem up_refresh (s : St K) (hst : s.steady = false) (hup : s.up = true) (a b : Sig K) :
    let s' := runIn (runIn s a) b
    s'.steady = false ∧ s'.up = true ∧ s'.refresh = true ∧ s'.cprev = a ∧ s'.cin = b ∧ s'.ratio = s.ratio := by
  have h1 : runIn s a = { s with cprev := s.cin, cin := a, refresh := true } := by simp [runIn, hst, hup]
  have hup' : ({ s with cprev := s.cin, cin := a, refresh := true } : St K).up = true := hup
  have h2 : runIn (runIn s a) b = { s with cprev := a, cin := b, refresh := true } := by
    rw [h1]; unfold runIn
    rw [if_neg (by simp [hst]), if_pos hup']
  simp only [h2]
  exact ⟨hst, hup, trivial, trivial, trivial, trivial⟩


/-- A transition from a slow to a fast time domain which is not steady yet. -/
example : (new (2 : ℚ) false).steady = false ∧ (exec (new (2 : ℚ) false) [.inp ⟨some 10, 100⟩, .inp ⟨some 20, 200⟩]).map (fun r => (r.1.up, r.1.refresh)) = some (true, true) := by
  decide +kernel

/-- The out side repeatedly, without new samples. -/
def outs : St K → Nat → Option (List (Sig K))
  | _, 0 => some []
  | s, n+1 => match runOut s 0 with
    | none => none
    | some (s', o) => (outs s' n).map (o :: ·)

/-- **C33, slow to fast (partial).** After the samples `a` then `b` were sent, the `k`-th of the following receptions (counting from 0) is the
point `k/ratio` of the way from `a` to `b`, in value and (rounded down) in time; in particular the first one is exactly `a`.
Missing for the full claim: `b` itself is not reached when the next sample arrives on time, so equal periods (ratio 1) deliver the
last but one sample, see `ratio_one_lags`. -/
theorem up_interpolates_partial (s : St K) (hst : s.steady = false) (hup : s.up = true) (hrf : s.refresh = true) (a b : K) (ta tb : Nat)
    (ht : ta ≤ tb) (hp : s.cprev = ⟨some a, ta⟩) (hi : s.cin = ⟨some b, tb⟩) (n : Nat) :
    ∃ l, outs s n = some l ∧ l.length = n ∧ ∀ k, k < n →
      l[k]? = some ⟨some (a + (b - a) * (k / s.ratio)), (⌊(ta : K) + ((tb : K) - ta) * (k / s.ratio)⌋).toNat⟩ := by
  have hr : s.ratio ≠ 0 := by
    have : 1 ≤ s.ratio := by simpa [St.up] using hup
    intro h0; rw [h0] at this; linarith
  -- state from the first reception on
  let base : Nat → St K := fun c => { s with
    oprev := ⟨some a, ta⟩, oin := ⟨some b, tb⟩, refresh := false, count := c
    dVal := some ((b - a) / s.ratio), dTime := ((tb - ta : Nat) : K) / s.ratio }
  have sample : ∀ c : Nat, runOut (base c) 0 = some (base (c+1),
      ⟨some (a + (b - a) * ((c : K) / s.ratio)), (⌊(ta : K) + ((tb : K) - ta) * ((c : K) / s.ratio)⌋).toNat⟩) := by
    intro c
    have hup' : (base c).up = true := hup
    have hst' : (base c).steady = false := hst
    have htr : takeRefresh (base c) = base c := by unfold takeRefresh; rw [if_neg (by simp [base])]
    have : runOut (base c) 0 = some (publish (base c)) := by
      unfold runOut; rw [if_neg (by simp [hst']), if_pos hup', htr]
    rw [this]
    simp only [publish, base]
    have e1 : a + (b - a) / s.ratio * (c : K) = a + (b - a) * ((c : K) / s.ratio) := by ring
    have e2 : (ta : K) + (c : K) * (((tb - ta : Nat) : K) / s.ratio) = (ta : K) + ((tb : K) - ta) * ((c : K) / s.ratio) := by
      rw [Nat.cast_sub ht]; ring
    rw [e1, e2]
  have tail : ∀ m c : Nat, ∃ l, outs (base c) m = some l ∧ l.length = m ∧ ∀ k, k < m → l[k]? =
      some ⟨some (a + (b - a) * (((c + k : Nat) : K) / s.ratio)), (⌊(ta : K) + ((tb : K) - ta) * (((c + k : Nat) : K) / s.ratio)⌋).toNat⟩ := by
    intro m
    induction m with
    | zero => intro c; exact ⟨[], rfl, rfl, by simp⟩
    | succ m ih =>
      intro c
      obtain ⟨l, h1, h2, h3⟩ := ih (c+1)
      refine ⟨⟨some (a + (b - a) * ((c : K) / s.ratio)), (⌊(ta : K) + ((tb : K) - ta) * ((c : K) / s.ratio)⌋).toNat⟩ :: l,
        by simp only [outs, sample, h1, Option.map_some], by simp [h2], ?_⟩
      intro k hk
      cases k with
      | zero => simp
      | succ k =>
        rw [List.getElem?_cons_succ, h3 k (by omega), show c + 1 + k = c + (k + 1) by omega]
  -- the first reception refreshes, which yields `base`
  have hfirst : runOut s 0 = runOut (base 0) 0 := by
    have hup' : (base 0).up = true := hup
    have hst' : (base 0).steady = false := hst
    have htr : takeRefresh (base 0) = base 0 := by unfold takeRefresh; rw [if_neg (by simp [base])]
    have htr' : takeRefresh s = base 0 := by unfold takeRefresh; rw [if_pos hrf]; simp only [hp, hi, base]
    have h1 : runOut (base 0) 0 = some (publish (takeRefresh (base 0))) := by
      unfold runOut; rw [if_neg (by simp [hst']), if_pos hup']
    have h2 : runOut s 0 = some (publish (takeRefresh s)) := by
      unfold runOut; rw [if_neg (by simp [hst]), if_pos hup]
    rw [h1, h2, htr, htr']
  have : outs s n = outs (base 0) n := by
    cases n with
    | zero => rfl
    | succ n => simp only [outs, hfirst]
  rw [this]
  simpa using tail n 0

example : ∃ l, outs ({ (new (2 : ℚ) false) with steady := false, refresh := true, cprev := ⟨some 10, 100⟩, cin := ⟨some 20, 200⟩ }) 2 = some l ∧ l.length = 2 := by
  obtain ⟨l, h, h', -⟩ := up_interpolates_partial ({ (new (2 : ℚ) false) with steady := false, refresh := true, cprev := ⟨some 10, 100⟩, cin := ⟨some 20, 200⟩ }) rfl (by decide +kernel) rfl
    10 20 100 200 (by norm_num) rfl rfl 2
  exact ⟨l, h, h'⟩

/-- **C33, fast to slow (partial).** If the samples collected since the last reception are in time order and at least one is older than the
requested time, the reception is the newest of them that is strictly older, and the collected samples are dropped.
Missing for the full claim: a sample taken exactly at the requested time is not used (`equal_time_skipped`), without an older sample a newer one
is delivered (`newer_sample_delivered`), and without any sample the access is undefined (`empty_buffer_undefined`). -/
theorem down_newest_older_partial (s : St K) (hst : s.steady = false) (hup : s.up = false) (time : Nat)
    (hsorted : s.buf.Pairwise (fun x y => x.ts ≤ y.ts)) (hold : ∃ x ∈ s.buf, x.ts < time) :
    ∃ sig, runOut s time = some ({ s with buf := [] }, sig) ∧ sig ∈ s.buf ∧ sig.ts < time ∧
      ∀ x ∈ s.buf, x.ts < time → x.ts ≤ sig.ts := by
  -- the prefix of older samples is not empty
  have key : ∀ (l : List (Sig K)), l.Pairwise (fun x y => x.ts ≤ y.ts) → (∃ x ∈ l, x.ts < time) →
      ∃ sig, l[pick time l]? = some sig ∧ sig ∈ l ∧ sig.ts < time ∧ ∀ x ∈ l, x.ts < time → x.ts ≤ sig.ts := by
    intro l
    induction l with
    | nil => rintro - ⟨x, hx, -⟩; simp at hx
    | cons y l ih =>
      intro hs hex
      rw [List.pairwise_cons] at hs
      have hy : y.ts < time := by
        obtain ⟨x, hx, hxt⟩ := hex
        rcases List.mem_cons.1 hx with rfl | hx
        · exact hxt
        · exact lt_of_le_of_lt (hs.1 x hx) hxt
      by_cases hl : ∃ x ∈ l, x.ts < time
      · obtain ⟨sig, h1, h2, h3, h4⟩ := ih hs.2 hl
        refine ⟨sig, ?_, List.mem_cons_of_mem _ h2, h3, ?_⟩
        · have hne : l.takeWhile (fun b => decide (b.ts < time)) ≠ [] := by
            cases l with
            | nil => obtain ⟨x, hx, -⟩ := hl; simp at hx
            | cons z l =>
              have hz : z.ts < time := by
                obtain ⟨x, hx, hxt⟩ := hl
                rcases List.mem_cons.1 hx with rfl | hx
                · exact hxt
                · exact lt_of_le_of_lt ((List.pairwise_cons.1 hs.2).1 x hx) hxt
              simp [hz]
          have hlen := List.length_pos_iff.2 hne
          unfold pick at h1 ⊢
          rw [List.takeWhile_cons_of_pos (by simpa using hy), List.length_cons]
          rw [show (l.takeWhile (fun b => decide (b.ts < time))).length + 1 - 1 =
            ((l.takeWhile (fun b => decide (b.ts < time))).length - 1) + 1 by omega, List.getElem?_cons_succ]
          exact h1
        · intro x hx hxt
          rcases List.mem_cons.1 hx with rfl | hx
          · exact hs.1 sig h2
          · exact h4 x hx hxt
      · refine ⟨y, ?_, by simp, hy, ?_⟩
        · have : l.takeWhile (fun b => decide (b.ts < time)) = [] := by
            cases l with
            | nil => rfl
            | cons z l =>
              have : ¬ z.ts < time := fun h => hl ⟨z, by simp, h⟩
              simp [this]
          unfold pick
          rw [List.takeWhile_cons_of_pos (by simpa using hy), this]
          simp
        · intro x hx hxt
          rcases List.mem_cons.1 hx with rfl | hx
          · exact le_refl _
          · exact absurd ⟨x, hx, hxt⟩ hl
  obtain ⟨sig, h1, h2⟩ := key s.buf hsorted hold
  exact ⟨sig, by simp [runOut, hst, hup, h1], h2⟩

example : ∃ sig, (runOut { (new (1/2 : ℚ) false) with steady := false, buf := [⟨some 1, 10⟩, ⟨some 2, 20⟩, ⟨some 3, 30⟩] } 25).map (·.2) = some sig ∧ sig.ts < 25 := by
  obtain ⟨sig, h, -, h2, -⟩ := down_newest_older_partial { (new (1/2 : ℚ) false) with steady := false, buf := [⟨some 1, 10⟩, ⟨some 2, 20⟩, ⟨some 3, 30⟩] } rfl (by decide +kernel) 25
    (by simp) ⟨⟨some 2, 20⟩, by simp, by decide⟩
  exact ⟨sig, by rw [h]; rfl, h2⟩

/-- Fast to slow: whatever is delivered was really sent and not delivered before (it is one of the samples collected since the last
reception). -/
theorem down_only_sent (s : St K) (hst : s.steady = false) (hup : s.up = false) (time : Nat) (s' : St K) (sig : Sig K)
    (h : runOut s time = some (s', sig)) : sig ∈ s.buf ∧ s'.buf = [] := by
  simp only [runOut, hst, hup] at h
  simp only [Bool.false_eq_true, if_false] at h
  cases hb : s.buf[pick time s.buf]? with
  | none => simp [hb] at h
  | some x =>
    simp only [hb, Option.some.injEq, Prod.mk.injEq] at h
    obtain ⟨rfl, rfl⟩ := h
    exact ⟨List.mem_of_getElem? hb, rfl⟩

/-- Before the first sample a transition from slow to fast publishes NaN; the first time stamp is 0, the following ones are the multiples of
whatever `dTime` was in the memory. -/
theorem up_before_first (ratio : K) (h : 1 ≤ ratio) (raw : Raw K) (n : Nat) :
    outs (new ratio false raw) n = some ((List.range n).map fun k => ⟨none, (⌊(k : K) * raw.dTime⌋).toNat⟩) := by
  suffices H : ∀ n c : Nat, outs { new ratio false raw with count := c } n =
      some ((List.range n).map fun k => ⟨none, (⌊((c + k : Nat) : K) * raw.dTime⌋).toNat⟩) by
    have h0 : { new ratio false raw with count := 0 } = new ratio false raw := rfl
    have := H n 0
    rw [h0] at this
    simpa using this
  intro n
  induction n with
  | zero => intro c; rfl
  | succ n ih =>
    intro c
    have hr : runOut { new ratio false raw with count := c } 0 =
        some ({ new ratio false raw with count := c + 1 }, ⟨none, (⌊(c : K) * raw.dTime⌋).toNat⟩) := by
      simp [runOut, new, St.up, h, takeRefresh, publish, cleared]
    simp only [outs, hr, ih (c + 1), Option.map_some, List.range_succ_eq_map, List.map_cons, List.map_map]
    congr 2
    refine List.map_congr_left fun k _ => ?_
    simp only [Function.comp, Nat.succ_eq_add_one]
    rw [show c + 1 + k = c + (k + 1) by omega]

example : outs (new (2 : ℚ) false ⟨cleared, some 5, 7/2⟩) 3 = some [⟨none, 0⟩, ⟨none, 3⟩, ⟨none, 7⟩] := by decide +kernel

/-- Equal periods without `steady`: the receiver gets the last but one sample. -/
theorem ratio_one_lags :
    (exec (new (1 : ℚ) false) [.inp ⟨some 10, 100⟩, .out 0, .inp ⟨some 20, 200⟩, .out 0, .inp ⟨some 30, 300⟩, .out 0]).map
      (fun r => r.2.map (·.val)) = some [none, some 10, some 20] := by decide +kernel

/-- A sample taken exactly at the requested time is not used. -/
theorem equal_time_skipped :
    (exec (new (1/2 : ℚ) false) [.inp ⟨some 10, 100⟩, .inp ⟨some 20, 200⟩, .out 200]).map (fun r => r.2.map (·.val)) =
      some [some 10] := by decide +kernel

/-- Without an older sample a newer one is delivered. -/
theorem newer_sample_delivered :
    (exec (new (1/2 : ℚ) false) [.inp ⟨some 10, 100⟩, .out 50]).map (fun r => r.2.map (·.val)) = some [some 10] := by decide +kernel

/-- Two receptions without a sample in between: undefined behaviour. -/
theorem empty_buffer_undefined :
    (exec (new (1/2 : ℚ) false) [.inp ⟨some 10, 100⟩, .out 200, .out 300]).isNone = true := by decide +kernel

/-- Non-vacuity of the interpolation: ratio 2, from 10 to 20 at times 100 and 200. -/
example : (exec (new (2 : ℚ) false) [.inp ⟨some 10, 100⟩, .inp ⟨some 20, 200⟩, .out 0, .out 0]).map (·.2) =
    some [⟨some 10, 100⟩, ⟨some 15, 150⟩] := by decide +kernel

end Verif.Control.Transition
