import Verif.Hal.ScaleExact
import Verif.Common.XArith
import Mathlib.Tactic.SplitIfs
/-!
C334: the checks for finite values at the end of every stage in `JsonParser::calcScale` (`/repo/src/hal/JsonParser.cpp:193-352`).

`Hal/Scale.lean` stops at a division by zero.  Here the function is modelled once more with the special values of a double: the divisions yield infinities and
NaN, and the checks of lines 326-331 decide whether the configuration is refused.  Line 326 tests `*rangeMin` twice and `*rangeMax` not at all.

Simplifications: the numbers of the configuration are finite, the arithmetic on finite numbers is exact, the sign of zero is not modelled (`Common/XArith.lean`).
-/
namespace Verif.Hal.ScaleFinite
open Verif Verif.XVal Verif.Hal.Scale
variable {K : Type} [Field K] [LinearOrder K]

/-- The output parameters as doubles and `firstScale` (197-200, 219). -/
structure XAcc (K : Type) where
  scale : XVal K
  offset : XVal K
  rangeMin : XVal K
  rangeMax : XVal K
  first : Bool

inductive XErr where
  | noRange         -- 264-266
  | invalidRange    -- 326-328
  | invalidScale    -- 330-332
  deriving DecidableEq, Repr

/-- Initial values (197-200, 219). -/
def xstart : XAcc K := ⟨.fin 1, .fin 0, .fin 0, .fin 0, true⟩

/-- `tmpScale` and `tmpOffset` (282-290). -/
def xStageScale (st : Stage K) (rMinOut rMaxOut : K) : XVal K × XVal K :=
  match st.scale with
  | some s => (.fin s, .fin st.offset)
  | none =>
    let lsb := div (.fin (st.maxOut - st.minOut)) (.fin (st.maxIn - st.minIn))
    let xMin := sub (.fin st.minIn) (div (.fin (st.minOut + rMaxOut)) lsb)
    let xMax := sub (.fin st.maxIn) (div (.fin (st.maxOut + rMinOut)) lsb)
    let m := div (sub xMax xMin) (.fin (|rMinOut| + |rMaxOut|))
    let s := div (.fin 1) m
    (s, neg (add (.fin rMaxOut) (mul xMin s)))

/-- One pass of the loop over the stages (251-333), with the checks 326-332. -/
def xstage (dmin dmax : K) (rs : List (RangeObj K)) (a : XAcc K) (st : Stage K) : Except XErr (XAcc K) :=
  match findRange rs st.id with
  | .error _ => .error .noRange
  | .ok (r, noLim) =>
    let t := tmpRange st r noLim
    let so := xStageScale st t.2.2.1 t.2.2.2
    let rangeMin := if a.first then .fin t.1 else if noLim then .fin dmin else a.rangeMin
    let rangeMax := if a.first then .fin t.2.1 else if noLim then .fin dmax else a.rangeMax
    let scale := mul a.scale so.1                                        -- 313-314
    let offset := add (mul a.offset so.1) so.2
    if noLim then
      if isFinite scale && isFinite offset then .ok ⟨scale, offset, rangeMin, rangeMax, false⟩ else .error .invalidScale
    else
      let lo := div (sub (.fin t.1) a.offset) a.scale                    -- 302-309
      let hi := div (sub (.fin t.2.1) a.offset) a.scale
      let rangeMin := if lt rangeMin lo then lo else rangeMin
      let rangeMax := if lt hi rangeMax then hi else rangeMax
      let lo' := div (sub (.fin t.2.2.1) offset) scale                   -- 319-324
      let hi' := div (sub (.fin t.2.2.2) offset) scale
      let rangeMin := if lt rangeMin lo' then lo' else rangeMin
      let rangeMax := if lt hi' rangeMax then hi' else rangeMax
      if !isFinite rangeMin || !isFinite rangeMin then .error .invalidRange        -- 326: `rangeMin` twice
      else if isFinite scale && isFinite offset then .ok ⟨scale, offset, rangeMin, rangeMax, false⟩ else .error .invalidScale

/-- The loop over all stages. -/
def xstages (dmin dmax : K) (rs : List (RangeObj K)) : List (Stage K) → XAcc K → Except XErr (XAcc K)
  | [], a => .ok a
  | st :: sts, a =>
    match xstage dmin dmax rs a st with
    | .error e => .error e
    | .ok a' => xstages dmin dmax rs sts a'

/-- `calcScale`. -/
def xcalcScale (dmin dmax : K) (rs : List (RangeObj K)) (sts : List (Stage K)) : Except XErr (XAcc K) := xstages dmin dmax rs sts xstart

/-! ### The formula of the end points -/

/-- The results of the exact model as doubles. -/
def up (a : Acc K) : XAcc K := ⟨.fin a.scale, .fin a.offset, .fin a.rangeMin, .fin a.rangeMax, a.first⟩

theorem stageScale_up (st : Stage K) (lo hi : K) {s o : K} (h : stageScale st lo hi = .ok (s, o)) : xStageScale st lo hi = (.fin s, .fin o) := by
  unfold stageScale at h
  unfold xStageScale
  cases hs : st.scale with
  | some v =>
    rw [hs] at h
    simp only [Except.ok.injEq, Prod.mk.injEq] at h
    simp [h.1, h.2]
  | none =>
    rw [hs] at h
    obtain ⟨lsb, h1, h⟩ := bind_ok' h
    obtain ⟨a, h2, h⟩ := bind_ok' h
    obtain ⟨b, h3, h⟩ := bind_ok' h
    obtain ⟨m, h4, h⟩ := bind_ok' h
    obtain ⟨s', h5, h⟩ := bind_ok' h
    simp only [Except.ok.injEq, Prod.mk.injEq] at h
    obtain ⟨n1, e1⟩ := fdiv_inv h1
    obtain ⟨n2, e2⟩ := fdiv_inv h2
    obtain ⟨n3, e3⟩ := fdiv_inv h3
    obtain ⟨n4, e4⟩ := fdiv_inv h4
    obtain ⟨n5, e5⟩ := fdiv_inv h5
    simp only [div_fin n1, ← e1, div_fin n2, ← e2, ← e3, sub_fin, div_fin n4, ← e4, div_fin n5, ← e5, mul_fin, add_fin, neg]
    rw [← h.2, ← h.1]

theorem fin_of {v : XVal K} (h : isFinite v = true) : ∃ q, v = .fin q := by
  cases v <;> simp_all [isFinite]

variable [IsStrictOrderedRing K]

/-- The end points of a stage and its output range: what `calcScale` divides by is zero exactly if one of these pairs coincides. -/
theorem stageScale_err (st : Stage K) (lo hi : K) {e : Err} (h : stageScale st lo hi = .error e) :
    st.scale = none ∧ (st.minIn = st.maxIn ∨ st.minOut = st.maxOut ∨ lo = hi) := by
  unfold stageScale at h
  cases hs : st.scale with
  | some v => rw [hs] at h; simp at h
  | none =>
    refine ⟨rfl, ?_⟩
    rw [hs] at h
    by_contra hn
    simp only [not_or] at hn
    obtain ⟨h1, h2, h3⟩ := hn
    have hd1 : st.maxIn - st.minIn ≠ 0 := sub_ne_zero.2 (Ne.symm h1)
    have hd2 : st.maxOut - st.minOut ≠ 0 := sub_ne_zero.2 (Ne.symm h2)
    have hd3 : hi - lo ≠ 0 := sub_ne_zero.2 (Ne.symm h3)
    have hl : (st.maxOut - st.minOut) / (st.maxIn - st.minIn) ≠ 0 := div_ne_zero hd2 hd1
    have ht : |lo| + |hi| ≠ 0 := by
      intro h0
      have a1 := abs_nonneg lo
      have a2 := abs_nonneg hi
      have e1 : lo = 0 := abs_eq_zero.1 (by linarith)
      have e2 : hi = 0 := abs_eq_zero.1 (by linarith)
      exact h3 (e1.trans e2.symm)
    have hm : (st.maxIn - (st.maxOut + lo) / ((st.maxOut - st.minOut) / (st.maxIn - st.minIn)) -
        (st.minIn - (st.minOut + hi) / ((st.maxOut - st.minOut) / (st.maxIn - st.minIn)))) / (|lo| + |hi|) ≠ 0 := by
      refine div_ne_zero ?_ ht
      have : st.maxIn - (st.maxOut + lo) / ((st.maxOut - st.minOut) / (st.maxIn - st.minIn)) -
        (st.minIn - (st.minOut + hi) / ((st.maxOut - st.minOut) / (st.maxIn - st.minIn))) =
          (hi - lo) / ((st.maxOut - st.minOut) / (st.maxIn - st.minIn)) := by field_simp; ring
      rw [this]
      exact div_ne_zero hd3 hl
    simp only [bind, Except.bind, fdiv_ok hd1, fdiv_ok hl, fdiv_ok ht, fdiv_ok hm] at h
    simp at h

/-- An infinity or NaN never becomes finite by multiplication. -/
theorem mul_not_fin {a b : XVal K} (h : isFinite a = false) : isFinite (mul a b) = false := by
  cases a <;> cases b <;> simp_all [isFinite, mul, infOf] <;> split_ifs <;> rfl

theorem mul_not_fin' {a b : XVal K} (h : isFinite b = false) : isFinite (mul a b) = false := by
  cases a <;> cases b <;> simp_all [isFinite, mul, infOf] <;> split_ifs <;> rfl

theorem add_not_fin {a b : XVal K} (h : isFinite b = false) : isFinite (add a b) = false := by
  cases a <;> cases b <;> simp_all [isFinite, add]

theorem add_not_fin' {a b : XVal K} (h : isFinite a = false) : isFinite (add a b) = false := by
  cases a <;> cases b <;> simp_all [isFinite, add]

theorem neg_not_fin {a : XVal K} (h : isFinite a = false) : isFinite (neg a) = false := by
  cases a <;> simp_all [isFinite, neg]

theorem infOf_not_fin (q : K) : isFinite (infOf q) = false := by
  unfold infOf; split_ifs <;> rfl

/-- Coinciding end points or an output range of one value: scale or offset are not finite. -/
theorem degenerate_points (st : Stage K) (lo hi : K) (hs : st.scale = none)
    (h : st.minIn = st.maxIn ∨ st.minOut = st.maxOut ∨ lo = hi) :
    isFinite (xStageScale st lo hi).1 = false ∨ isFinite (xStageScale st lo hi).2 = false := by
  unfold xStageScale
  rw [hs]
  simp only
  by_cases h1 : st.maxIn - st.minIn = 0
  · left
    rw [h1]
    have hl : ∀ q : K, div (.fin q) (infOf (st.maxOut - st.minOut)) = .fin 0 ∨ div (.fin q) (infOf (st.maxOut - st.minOut)) = .nan := by
      intro q; unfold infOf; split_ifs <;> simp [div]
    have e0 : div (.fin (st.maxOut - st.minOut)) (.fin (0 : K)) = infOf (st.maxOut - st.minOut) := by simp [div]
    rw [e0]
    rcases hl (st.minOut + hi) with e1 | e1 <;> rcases hl (st.maxOut + lo) with e2 | e2 <;> rw [e1, e2] <;>
      simp only [sub_fin, sub_nan, nan_sub, nan_div, div_nan, sub_zero, h1]
    · by_cases h2 : |lo| + |hi| = 0
      · rw [h2]; simp [div, infOf, isFinite]
      · rw [div_fin h2]; simp [div, infOf, isFinite]
    all_goals rfl
  · by_cases h2 : st.maxOut - st.minOut = 0
    · right
      rw [h2, div_fin h1, zero_div]
      refine neg_not_fin (add_not_fin (mul_not_fin ?_))
      have : div (.fin (st.minOut + hi)) (.fin (0 : K)) = infOf (st.minOut + hi) := by simp [div]
      rw [this]
      exact add_not_fin (neg_not_fin (infOf_not_fin _))
    · left
      have h3 : lo = hi := by
        rcases h with h | h | h
        · exact absurd (by rw [h, sub_self]) h1
        · exact absurd (by rw [h, sub_self]) h2
        · exact h
      subst h3
      have hl : (st.maxOut - st.minOut) / (st.maxIn - st.minIn) ≠ 0 := div_ne_zero h2 h1
      have : st.maxIn - (st.maxOut + lo) / ((st.maxOut - st.minOut) / (st.maxIn - st.minIn)) -
        (st.minIn - (st.minOut + lo) / ((st.maxOut - st.minOut) / (st.maxIn - st.minIn))) = 0 := by field_simp; ring
      rw [div_fin h1, div_fin hl, div_fin hl]
      simp only [sub_fin, this]
      by_cases h4 : |lo| + |lo| = 0
      · rw [h4]; simp [div, infOf, isFinite]
      · rw [div_fin h4]; simp [div, infOf, isFinite]

/-! ### One stage -/

/-- Where the exact model has a result the doubles are the same. -/
theorem stage_up (dmin dmax : K) {rs : List (RangeObj K)} {st : Stage K} {a a' : Acc K} (h : stage dmin dmax rs a st = .ok a') :
    xstage dmin dmax rs (up a) st = .ok (up a') := by
  unfold stage at h
  obtain ⟨⟨r, nl⟩, h1, h⟩ := bind_ok' h
  simp only at h
  obtain ⟨⟨s, o⟩, h2, h⟩ := bind_ok' h
  unfold xstage
  rw [h1]
  simp only [stageScale_up _ _ _ h2, up, mul_fin, add_fin, sub_fin, isFinite]
  cases nl with
  | true =>
    simp only [↓reduceIte, Except.ok.injEq] at h
    subst h
    simp [apply_ite]
  | false =>
    simp only [Bool.false_eq_true, ↓reduceIte] at h
    obtain ⟨lo, g1, h⟩ := bind_ok' h
    obtain ⟨hi, g2, h⟩ := bind_ok' h
    obtain ⟨lo', g3, h⟩ := bind_ok' h
    obtain ⟨hi', g4, h⟩ := bind_ok' h
    obtain ⟨n1, e1⟩ := fdiv_inv g1
    obtain ⟨_, e2⟩ := fdiv_inv g2
    obtain ⟨n3, e3⟩ := fdiv_inv g3
    obtain ⟨_, e4⟩ := fdiv_inv g4
    simp only [Except.ok.injEq] at h
    subst h
    simp only [Bool.false_eq_true, ↓reduceIte, div_fin n1, div_fin n3, ← e1, ← e2, ← e3, ← e4, ← apply_ite XVal.fin, lt_fin, decide_eq_true_eq,
      Bool.not_true, Bool.or_self, Bool.and_self]

omit [Field K] [LinearOrder K] [IsStrictOrderedRing K] in
/-- The checks at the end of a limited stage. -/
theorem finish {rm rx sc o : XVal K} {a : XAcc K} (h : (if (!isFinite rm || !isFinite rm) = true then Except.error XErr.invalidRange
      else if (isFinite sc && isFinite o) = true then .ok ⟨sc, o, rm, rx, false⟩ else .error .invalidScale) = .ok a) :
    isFinite rm = true ∧ isFinite sc = true ∧ isFinite o = true ∧ a = ⟨sc, o, rm, rx, false⟩ := by
  split at h
  · simp at h
  · rename_i h0
    split at h
    · rename_i h1
      simp only [Bool.and_eq_true] at h1
      simp only [Except.ok.injEq] at h
      simp only [Bool.or_self, Bool.not_eq_true', Bool.not_eq_false] at h0
      exact ⟨h0, h1.1, h1.2, h.symm⟩
    · simp at h

/-- What an accepted stage looks like. -/
theorem xstage_ok {dmin dmax : K} {rs : List (RangeObj K)} {st : Stage K} {a a' : XAcc K} (ha : isFinite a.rangeMin = true)
    (h : xstage dmin dmax rs a st = .ok a') :
    isFinite a'.scale = true ∧ isFinite a'.offset = true ∧ isFinite a'.rangeMin = true ∧ a'.first = false ∧
      ∃ r nl, findRange rs st.id = .ok (r, nl) ∧ a'.scale = mul a.scale (xStageScale st (tmpRange st r nl).2.2.1 (tmpRange st r nl).2.2.2).1 ∧
        a'.offset = add (mul a.offset (xStageScale st (tmpRange st r nl).2.2.1 (tmpRange st r nl).2.2.2).1)
          (xStageScale st (tmpRange st r nl).2.2.1 (tmpRange st r nl).2.2.2).2 := by
  unfold xstage at h
  cases hr : findRange rs st.id with
  | error e => rw [hr] at h; simp at h
  | ok p =>
    obtain ⟨r, nl⟩ := p
    rw [hr] at h
    simp only at h
    cases nl with
    | true =>
      simp only [↓reduceIte] at h
      split_ifs at h with h1 h2
      all_goals
        simp only [Bool.and_eq_true] at h1
        simp only [Except.ok.injEq] at h
        subst h
        exact ⟨h1.1, h1.2, rfl, rfl, r, true, rfl, rfl, rfl⟩
    | false =>
      simp only [Bool.false_eq_true, ↓reduceIte] at h
      obtain ⟨g1, g2, g3, rfl⟩ := finish h
      exact ⟨g2, g3, g1, rfl, r, false, rfl, rfl, rfl⟩

/-! ### C334 -/

theorem run_inv {dmin dmax : K} {rs : List (RangeObj K)} (sts : List (Stage K)) {a a' : XAcc K} (h1 : isFinite a.scale = true)
    (h2 : isFinite a.offset = true) (h3 : isFinite a.rangeMin = true) (h : xstages dmin dmax rs sts a = .ok a') :
    isFinite a'.scale = true ∧ isFinite a'.offset = true ∧ isFinite a'.rangeMin = true := by
  induction sts generalizing a with
  | nil => simp only [xstages, Except.ok.injEq] at h; subst h; exact ⟨h1, h2, h3⟩
  | cons st sts ih =>
    unfold xstages at h
    split at h
    · simp at h
    · rename_i a1 e
      obtain ⟨k1, k2, k3, _⟩ := xstage_ok h3 e
      exact ih k1 k2 k3 h

/-- **C334 (partial)** Scale, offset and lower limit which come out of an accepted configuration are finite, whatever the configuration.  Missing: the upper limit
(`max_infinite_violated`). -/
theorem finite_partial (dmin dmax : K) (rs : List (RangeObj K)) (sts : List (Stage K)) {a : XAcc K} (h : xcalcScale dmin dmax rs sts = .ok a) :
    isFinite a.scale = true ∧ isFinite a.offset = true ∧ isFinite a.rangeMin = true :=
  run_inv sts rfl rfl rfl h

/-- **C334 violated**: a scale of zero given directly and an output range below the offset: the configuration is accepted and the upper limit is minus infinity. -/
theorem max_infinite_violated (dmin dmax : K) (id : String) (r : RangeObj K) (off : K) (hid : r.id = id) (hl : r.noLimit = false)
    (h1 : r.minOut ≤ off) (h2 : r.maxOut < off) :
    xcalcScale dmin dmax [r] [⟨id, 0, 0, 0, 0, some 0, off⟩] = .ok ⟨.fin 0, .fin off, .fin r.minIn, .ninf, false⟩ := by
  have hr : findRange [r] id = .ok (r, false) := by simp [findRange, hid, hl]
  simp only [xcalcScale, xstages, xstage, xstart, hr, tmpRange, xStageScale]
  have e1 : infOf (r.minOut - off) = .ninf ∨ infOf (r.minOut - off) = (.nan : XVal K) := by
    unfold infOf
    rw [if_neg (not_lt.2 (sub_nonpos.2 h1))]
    split_ifs <;> simp
  have e2 : infOf (r.maxOut - off) = (.ninf : XVal K) := by
    unfold infOf
    rw [if_neg (not_lt.2 (le_of_lt (sub_neg.2 h2))), if_pos (sub_neg.2 h2)]
  simp only [Bool.false_eq_true, ↓reduceIte, sub_fin, mul_fin, add_fin, mul_zero, zero_mul, zero_add, sub_zero, div_fin (one_ne_zero (α := K)), div_one, lt_fin,
    lt_irrefl, decide_false, ite_self]
  have d1 : ∀ q : K, div (.fin q) (.fin 0) = infOf q := fun q => by simp [div]
  rw [d1, d1, e2]
  rcases e1 with e1 | e1 <;> rw [e1] <;> simp [lt, isFinite]

/-- A channel whose scale was set to 0 by mistake, with an offset of 20 and an output range from 0 to 10. -/
example : xcalcScale (K := ℚ) (1 / 10 ^ 300) (10 ^ 300) [⟨"i", false, -5, 5, 0, 10⟩] [⟨"i", 0, 0, 0, 0, some 0, 20⟩] =
    .ok ⟨.fin 0, .fin 20, .fin (-5), .ninf, false⟩ :=
  max_infinite_violated _ _ "i" ⟨"i", false, -5, 5, 0, 10⟩ 20 rfl rfl (by norm_num) (by norm_num)

theorem mul_zero_left {a b : XVal K} (h : mul a b ≠ .fin 0) (hf : isFinite (mul a b) = true) :
    ∃ p q, a = .fin p ∧ b = .fin q ∧ p ≠ 0 ∧ q ≠ 0 := by
  have ha : isFinite a = true := by
    by_contra hn; rw [mul_not_fin (by simpa using hn)] at hf; exact Bool.noConfusion hf
  have hb : isFinite b = true := by
    by_contra hn; rw [mul_not_fin' (by simpa using hn)] at hf; exact Bool.noConfusion hf
  obtain ⟨p, rfl⟩ := fin_of ha
  obtain ⟨q, rfl⟩ := fin_of hb
  refine ⟨p, q, rfl, rfl, ?_, ?_⟩ <;> rintro rfl <;> simp at h

theorem add_fin_inv {a b : XVal K} (hf : isFinite (add a b) = true) : ∃ p q, a = .fin p ∧ b = .fin q := by
  have ha : isFinite a = true := by
    by_contra hn; rw [add_not_fin' (by simpa using hn)] at hf; exact Bool.noConfusion hf
  have hb : isFinite b = true := by
    by_contra hn; rw [add_not_fin (by simpa using hn)] at hf; exact Bool.noConfusion hf
  obtain ⟨p, rfl⟩ := fin_of ha
  obtain ⟨q, rfl⟩ := fin_of hb
  exact ⟨p, q, rfl, rfl⟩

/-- An accepted stage with a total scale other than zero is a stage of the exact model. -/
theorem xstage_down {dmin dmax : K} {rs : List (RangeObj K)} {st : Stage K} {a : Acc K} {a' : XAcc K} (h : xstage dmin dmax rs (up a) st = .ok a')
    (h0 : a'.scale ≠ .fin 0) : ∃ b, stage dmin dmax rs a st = .ok b ∧ a' = up b := by
  obtain ⟨k1, k2, _, _, r, nl, hr, e1, e2⟩ := xstage_ok (a := up a) rfl h
  obtain ⟨p, s, ep, es, np, ns⟩ := mul_zero_left (e1 ▸ h0) (e1 ▸ k1)
  obtain ⟨_, o, _, eo⟩ := add_fin_inv (e2 ▸ k2)
  simp only [up, XVal.fin.injEq] at ep
  have hstage : ∃ s o, stageScale st (tmpRange st r nl).2.2.1 (tmpRange st r nl).2.2.2 = .ok (s, o) := by
    cases hc : stageScale st (tmpRange st r nl).2.2.1 (tmpRange st r nl).2.2.2 with
    | ok v => exact ⟨v.1, v.2, rfl⟩
    | error e =>
      obtain ⟨g1, g2⟩ := stageScale_err st _ _ hc
      rcases degenerate_points st _ _ g1 g2 with g | g
      · rw [es] at g; exact absurd g (by simp [isFinite])
      · rw [eo] at g; exact absurd g (by simp [isFinite])
  obtain ⟨s', o', hso⟩ := hstage
  have hs' : s' = s := by
    have := stageScale_up st _ _ hso
    rw [this] at es
    simpa using es
  have hok : ∃ b, stage dmin dmax rs a st = .ok b := by
    unfold stage
    rw [hr]
    simp only [bind, Except.bind, hso]
    have na : a.scale ≠ 0 := by rw [ep]; exact np
    have nb : a.scale * s' ≠ 0 := mul_ne_zero na (by rw [hs']; exact ns)
    simp only [fdiv_ok na, fdiv_ok nb]
    split_ifs <;> exact ⟨_, rfl⟩
  obtain ⟨b, hb⟩ := hok
  refine ⟨b, hb, ?_⟩
  have := stage_up dmin dmax hb
  rw [h] at this
  simpa using this

theorem zero_stays {dmin dmax : K} {rs : List (RangeObj K)} (sts : List (Stage K)) {a a' : XAcc K} (h3 : isFinite a.rangeMin = true)
    (h0 : a.scale = .fin 0) (h : xstages dmin dmax rs sts a = .ok a') : a'.scale = .fin 0 := by
  induction sts generalizing a with
  | nil => simp only [xstages, Except.ok.injEq] at h; subst h; exact h0
  | cons st sts ih =>
    unfold xstages at h
    split at h
    · simp at h
    · rename_i a1 e
      obtain ⟨k1, _, k3, _, r, nl, _, e1, _⟩ := xstage_ok h3 e
      refine ih k3 ?_ h
      by_contra hn
      obtain ⟨p, q, ep, _, np, _⟩ := mul_zero_left (e1 ▸ hn) (e1 ▸ k1)
      rw [h0] at ep
      simp only [XVal.fin.injEq] at ep
      exact np ep.symm

/-- **C334** The exact model and the one with special values agree: a configuration is accepted with a scale other than zero exactly if no division by zero
occurs, and then all numbers are finite and the same.  So coinciding end points and output ranges of one value are always refused. -/
theorem accepted_iff (dmin dmax : K) (rs : List (RangeObj K)) (sts : List (Stage K)) (x : XAcc K) (h0 : x.scale ≠ .fin 0) :
    xcalcScale dmin dmax rs sts = .ok x ↔ ∃ a, calcScale dmin dmax rs sts = .ok a ∧ x = up a := by
  have key : ∀ (sts : List (Stage K)) (a : Acc K), xstages dmin dmax rs sts (up a) = .ok x ↔ ∃ b, stages dmin dmax rs sts a = .ok b ∧ x = up b := by
    intro sts
    induction sts with
    | nil =>
      intro a
      simp only [xstages, stages, Except.ok.injEq]
      constructor
      · rintro rfl; exact ⟨a, rfl, rfl⟩
      · rintro ⟨b, rfl, rfl⟩; rfl
    | cons st sts ih =>
      intro a
      constructor
      · intro h
        unfold xstages at h
        split at h
        · simp at h
        · rename_i a1 e
          have hz : a1.scale ≠ .fin 0 := by
            intro hz
            exact h0 (zero_stays sts (xstage_ok (a := up a) rfl e).2.2.1 hz h)
          obtain ⟨b, hb, rfl⟩ := xstage_down e hz
          obtain ⟨c, hc, hx⟩ := (ih b).1 h
          exact ⟨c, by simp only [stages, hb, hc], hx⟩
      · rintro ⟨b, hb, hx⟩
        unfold stages at hb
        split at hb
        · simp at hb
        · rename_i a1 e
          simp only [xstages, stage_up dmin dmax e]
          exact (ih a1).2 ⟨b, hb, hx⟩
  exact key sts start

/-- **C334 (partial)** Also the upper limit is finite, unless the total scale is zero. -/
theorem max_finite_partial (dmin dmax : K) (rs : List (RangeObj K)) (sts : List (Stage K)) {x : XAcc K} (h : xcalcScale dmin dmax rs sts = .ok x)
    (h0 : x.scale ≠ .fin 0) : isFinite x.rangeMax = true := by
  obtain ⟨a, _, rfl⟩ := (accepted_iff dmin dmax rs sts x h0).1 h
  rfl

/-- **C334** A configuration all of whose stages are given by end points is never accepted with a scale of zero: all its numbers are finite. -/
theorem points_finite (dmin dmax : K) (rs : List (RangeObj K)) (sts : List (Stage K)) (hp : ∀ st ∈ sts, st.scale ≠ some 0) {x : XAcc K}
    (h : xcalcScale dmin dmax rs sts = .ok x) :
    isFinite x.scale = true ∧ isFinite x.offset = true ∧ isFinite x.rangeMin = true ∧ isFinite x.rangeMax = true ∧ x.scale ≠ .fin 0 := by
  have nz : ∀ (sts : List (Stage K)) (a : XAcc K), (∀ st ∈ sts, st.scale ≠ some 0) → isFinite a.rangeMin = true → a.scale ≠ .fin 0 →
      isFinite a.scale = true → xstages dmin dmax rs sts a = .ok x → x.scale ≠ .fin 0 := by
    intro sts
    induction sts with
    | nil => intro a _ _ hz _ h; simp only [xstages, Except.ok.injEq] at h; subst h; exact hz
    | cons st sts ih =>
      intro a hp h3 hz hf h
      unfold xstages at h
      split at h
      · simp at h
      · rename_i a1 e
        obtain ⟨k1, k2, k3, _, r, nl, hr, e1, e2⟩ := xstage_ok h3 e
        refine ih a1 (fun s hs => hp s (List.mem_cons_of_mem _ hs)) k3 ?_ k1 h
        obtain ⟨p, ep⟩ := fin_of hf
        have hsf : isFinite (xStageScale st (tmpRange st r nl).2.2.1 (tmpRange st r nl).2.2.2).1 = true := by
          by_contra hn
          have := mul_not_fin' (a := a.scale) (by simpa using hn)
          rw [← e1] at this
          rw [this] at k1
          exact Bool.noConfusion k1
        obtain ⟨_, o, _, eo⟩ := add_fin_inv (e2 ▸ k2)
        have hso : ∃ s o, stageScale st (tmpRange st r nl).2.2.1 (tmpRange st r nl).2.2.2 = .ok (s, o) := by
          cases hc : stageScale st (tmpRange st r nl).2.2.1 (tmpRange st r nl).2.2.2 with
          | ok v => exact ⟨v.1, v.2, rfl⟩
          | error er =>
            obtain ⟨g1, g2⟩ := stageScale_err st _ _ hc
            rcases degenerate_points st _ _ g1 g2 with g | g
            · rw [hsf] at g; exact Bool.noConfusion g
            · rw [eo] at g; exact absurd g (by simp [isFinite])
        obtain ⟨s, o', hso⟩ := hso
        have hs0 : s ≠ 0 := by
          have hpt := hp st (List.mem_cons_self ..)
          unfold stageScale at hso
          cases hsc : st.scale with
          | some v =>
            rw [hsc] at hso hpt
            simp only [Except.ok.injEq, Prod.mk.injEq] at hso
            intro h0
            exact hpt (by rw [hso.1, h0])
          | none =>
            rw [hsc] at hso
            obtain ⟨_, _, hso⟩ := bind_ok' hso
            obtain ⟨_, _, hso⟩ := bind_ok' hso
            obtain ⟨_, _, hso⟩ := bind_ok' hso
            obtain ⟨_, _, hso⟩ := bind_ok' hso
            obtain ⟨s', h5, hso⟩ := bind_ok' hso
            simp only [Except.ok.injEq, Prod.mk.injEq] at hso
            obtain ⟨n5, e5⟩ := fdiv_inv h5
            rw [← hso.1, e5]
            exact div_ne_zero one_ne_zero n5
        rw [e1, ep, stageScale_up _ _ _ hso]
        simp only [mul_fin, ne_eq, XVal.fin.injEq]
        refine mul_ne_zero ?_ hs0
        rintro rfl
        exact hz ep
  have hz := nz sts xstart hp rfl (by simp [xstart]) rfl h
  obtain ⟨a1, a2, a3⟩ := finite_partial dmin dmax rs sts h
  exact ⟨a1, a2, a3, max_finite_partial dmin dmax rs sts h hz, hz⟩

/-- A stage from 0..10 V to -1..1: accepted, with finite numbers. -/
example : (xcalcScale (K := ℚ) (1 / 1000) 1000 [⟨"i", false, 0, 10, -1, 1⟩] [⟨"i", 0, 10, -1, 1, none, 0⟩]).toOption.map (fun x => (x.scale, x.rangeMax)) =
    some (.fin (1 / 5), .fin 10) := by
  decide +kernel

/-- The same input value at both end points: refused. -/
example : (xcalcScale (K := ℚ) (1 / 1000) 1000 [⟨"i", false, 0, 10, -1, 1⟩] [⟨"i", 3, 3, -1, 1, none, 0⟩]).toOption.map (fun x => x.scale) = none := by
  decide +kernel

end Verif.Hal.ScaleFinite
