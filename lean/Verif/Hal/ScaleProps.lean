/-
C42 (scale chains compose to the right map) and C43 (the range is the intersection of the stage
ranges).
-/
import Verif.Hal.Scale
import Mathlib.Tactic.Linarith
import Mathlib.Tactic.NormNum
import Mathlib.Tactic.Ring
import Mathlib.Tactic.FieldSimp
import Mathlib.Tactic.ByContra
import Mathlib.Data.Rat.Floor

set_option linter.unusedSectionVars false

namespace Verif.Hal.Scale

variable {K : Type} [Field K] [LinearOrder K]

/-! ### Specification -/

/-- `f` is the map which stage `st` stands for: given directly, or the straight line through the two
end points. -/
def IsMap (st : Stage K) (f : K → K) : Prop :=
  match st.scale with
  | some s => ∀ x, f x = s * x + st.offset
  | none => (∃ a b, ∀ x, f x = a * x + b) ∧ f st.minIn = st.minOut ∧ f st.maxIn = st.maxOut

/-- Apply the stages one after the other. -/
def applyAll : List (K → K) → K → K
  | [], x => x
  | f :: fs, x => applyAll fs (f x)

/-- The configured output range of an end point stage contains 0 and is not a single point. Without
limit the end points of the stage itself are used. -/
def Straddles (rs : List (RangeObj K)) (st : Stage K) : Prop :=
  ∀ r nl, findRange rs st.id = .ok (r, nl) →
    if nl then st.minOut ≤ 0 ∧ 0 ≤ st.maxOut ∧ st.minOut < st.maxOut
    else r.minOut ≤ 0 ∧ 0 ≤ r.maxOut ∧ r.minOut < r.maxOut

/-- A stage which the parser handles correctly. -/
def Good (rs : List (RangeObj K)) (st : Stage K) : Prop :=
  (∃ r ∈ rs, r.id = st.id) ∧
  match st.scale with
  | some s => s ≠ 0
  | none => st.minIn ≠ st.maxIn ∧ st.minOut ≠ st.maxOut ∧ Straddles rs st

/-! ### Lemmas -/

theorem findRange_ok {rs : List (RangeObj K)} {id : String} (h : ∃ r ∈ rs, r.id = id) :
    ∃ r nl, findRange rs id = .ok (r, nl) := by
  obtain ⟨r, hr, he⟩ := h
  unfold findRange
  have : (rs.filter (fun r => r.id == id)) ≠ [] := by
    intro h0
    have : r ∈ rs.filter (fun r => r.id == id) := by simp [hr, he]
    rw [h0] at this
    simp at this
  rw [List.getLast?_eq_some_getLast this]
  exact ⟨_, _, rfl⟩

theorem fdiv_ok {a b : K} (h : b ≠ 0) : fdiv a b = .ok (a / b) := by simp [fdiv, h]

variable [IsStrictOrderedRing K]

theorem line_unique {a b x₀ y₀ x₁ y₁ : K} (h0 : a * x₀ + b = y₀) (h1 : a * x₁ + b = y₁)
    (hx : x₀ ≠ x₁) : a = (y₁ - y₀) / (x₁ - x₀) ∧ b = y₀ - (y₁ - y₀) / (x₁ - x₀) * x₀ := by
  have hd : x₁ - x₀ ≠ 0 := sub_ne_zero.2 (Ne.symm hx)
  have ha : a = (y₁ - y₀) / (x₁ - x₀) := by
    rw [eq_div_iff hd, ← h0, ← h1]; ring
  refine ⟨ha, ?_⟩
  rw [← ha, ← h0]; ring

/-- Result of the end point formula in general: the slope is off by the factor
`(|lo| + |hi|) / (hi - lo)`. -/
theorem stageScale_points (st : Stage K) (hs : st.scale = none) (h1 : st.minIn ≠ st.maxIn)
    (h2 : st.minOut ≠ st.maxOut) {lo hi : K} (hlt : lo < hi) :
    stageScale st lo hi = .ok
      ((st.maxOut - st.minOut) / (st.maxIn - st.minIn) * ((|lo| + |hi|) / (hi - lo)),
       -(hi + (st.minIn - (st.minOut + hi) / ((st.maxOut - st.minOut) / (st.maxIn - st.minIn))) *
         ((st.maxOut - st.minOut) / (st.maxIn - st.minIn) * ((|lo| + |hi|) / (hi - lo))))) := by
  have hd1 : st.maxIn - st.minIn ≠ 0 := sub_ne_zero.2 (Ne.symm h1)
  have hd2 : st.maxOut - st.minOut ≠ 0 := sub_ne_zero.2 (Ne.symm h2)
  have hl : (st.maxOut - st.minOut) / (st.maxIn - st.minIn) ≠ 0 := div_ne_zero hd2 hd1
  have hr : |lo| + |hi| ≠ 0 := by
    intro h
    have h3 := abs_nonneg lo
    have h4 := abs_nonneg hi
    have h5 : |lo| = 0 := by linarith
    have h6 : |hi| = 0 := by linarith
    rw [abs_eq_zero] at h5 h6
    rw [h5, h6] at hlt
    exact lt_irrefl _ hlt
  have hhl : hi - lo ≠ 0 := ne_of_gt (sub_pos.2 hlt)
  have hm : (st.maxIn - (st.maxOut + lo) / ((st.maxOut - st.minOut) / (st.maxIn - st.minIn)) -
      (st.minIn - (st.minOut + hi) / ((st.maxOut - st.minOut) / (st.maxIn - st.minIn)))) =
      (hi - lo) / ((st.maxOut - st.minOut) / (st.maxIn - st.minIn)) := by
    field_simp
    ring
  have hm0 : (hi - lo) / ((st.maxOut - st.minOut) / (st.maxIn - st.minIn)) / (|lo| + |hi|) ≠ 0 :=
    div_ne_zero (div_ne_zero hhl hl) hr
  unfold stageScale
  rw [hs]
  simp only [fdiv_ok hd1, fdiv_ok hl, fdiv_ok hr, bind, Except.bind]
  rw [hm, fdiv_ok hm0]
  have : 1 / ((hi - lo) / ((st.maxOut - st.minOut) / (st.maxIn - st.minIn)) / (|lo| + |hi|)) =
      (st.maxOut - st.minOut) / (st.maxIn - st.minIn) * ((|lo| + |hi|) / (hi - lo)) := by
    field_simp
  simp only [this]

theorem abs_sum_iff {lo hi : K} (hlt : lo < hi) : |lo| + |hi| = hi - lo ↔ lo ≤ 0 ∧ 0 ≤ hi := by
  constructor
  · intro h
    by_contra hn
    rw [not_and_or, not_le, not_le] at hn
    rcases hn with hn | hn
    · rw [abs_of_pos hn, abs_of_pos (lt_trans hn hlt)] at h; linarith
    · rw [abs_of_neg hn, abs_of_neg (lt_trans hlt hn)] at h; linarith
  · rintro ⟨h1, h2⟩
    rw [abs_of_nonpos h1, abs_of_nonneg h2]; ring

/-- **C42** (one stage, exact condition) For a stage given by end points with distinct inputs and
outputs, and an output range with `lo < hi`, the computed scale and offset describe the line through
the end points if and only if the output range contains 0. -/
theorem stage_right_iff (st : Stage K) (hs : st.scale = none) (h1 : st.minIn ≠ st.maxIn)
    (h2 : st.minOut ≠ st.maxOut) {lo hi : K} (hlt : lo < hi) :
    ∃ s o, stageScale st lo hi = .ok (s, o) ∧
      ((s * st.minIn + o = st.minOut ∧ s * st.maxIn + o = st.maxOut) ↔ lo ≤ 0 ∧ 0 ≤ hi) := by
  refine ⟨_, _, stageScale_points st hs h1 h2 hlt, ?_⟩
  have hd1 : st.maxIn - st.minIn ≠ 0 := sub_ne_zero.2 (Ne.symm h1)
  have hd2 : st.maxOut - st.minOut ≠ 0 := sub_ne_zero.2 (Ne.symm h2)
  have hhl : hi - lo ≠ 0 := ne_of_gt (sub_pos.2 hlt)
  rw [← abs_sum_iff hlt]
  generalize |lo| + |hi| = t
  constructor
  · rintro ⟨ha, hb⟩
    have hl := (line_unique ha hb h1).1
    have hl0 : (st.maxOut - st.minOut) / (st.maxIn - st.minIn) ≠ 0 := div_ne_zero hd2 hd1
    have : t / (hi - lo) = 1 := by
      have := mul_left_cancel₀ hl0 (b := t / (hi - lo)) (c := 1) (by rw [mul_one]; exact hl)
      exact this
    rwa [div_eq_one_iff_eq hhl] at this
  · intro h
    rw [h, div_self hhl]
    constructor <;> (field_simp; ring)


/-- 4 mA to 20 mA as input of a stage for the range from 0 to 100, all within positive limits: the offset is lost. -/
example : (⟨"i", 4, 20, 0, 100, none, 0⟩ : Stage ℚ).scale = none ∧ (4 : ℚ) ≠ 20 ∧ (0 : ℚ) ≠ 100 ∧ (4 : ℚ) < 20 ∧ ¬ ((4 : ℚ) ≤ 0) := by
  norm_num

theorem isMap_none {st : Stage K} {f : K → K} (hs : st.scale = none) (h1 : st.minIn ≠ st.maxIn)
    (hf : IsMap st f) (x : K) : f x = (st.maxOut - st.minOut) / (st.maxIn - st.minIn) * x +
      (st.minOut - (st.maxOut - st.minOut) / (st.maxIn - st.minIn) * st.minIn) := by
  unfold IsMap at hf
  rw [hs] at hf
  obtain ⟨⟨a, b, hab⟩, h3, h4⟩ := hf
  rw [hab] at h3 h4
  have := line_unique h3 h4 h1
  rw [hab, this.2, this.1]

/-- What a good stage contributes: its slope is nonzero and `s`, `o` describe its map. -/
theorem good_stage {rs : List (RangeObj K)} {st : Stage K} (hg : Good rs st) {r : RangeObj K}
    {nl : Bool} (hr : findRange rs st.id = .ok (r, nl)) :
    ∃ s o, stageScale st (tmpRange st r nl).2.2.1 (tmpRange st r nl).2.2.2 = .ok (s, o) ∧ s ≠ 0 ∧
      ∀ f, IsMap st f → ∀ x, f x = s * x + o := by
  unfold Good at hg
  rcases hs : st.scale with _ | s
  · rw [hs] at hg
    obtain ⟨_, h1, h2, h3⟩ := hg
    have h3' := h3 r nl hr
    have key : ∀ lo hi : K, lo ≤ 0 → 0 ≤ hi → lo < hi →
        ∃ s o, stageScale st lo hi = .ok (s, o) ∧ s ≠ 0 ∧
          ∀ f, IsMap st f → ∀ x, f x = s * x + o := by
      intro lo hi ha hb hlt
      refine ⟨_, _, stageScale_points st hs h1 h2 hlt, ?_, ?_⟩
      · have hd1 : st.maxIn - st.minIn ≠ 0 := sub_ne_zero.2 (Ne.symm h1)
        have hd2 : st.maxOut - st.minOut ≠ 0 := sub_ne_zero.2 (Ne.symm h2)
        have hhl : hi - lo ≠ 0 := ne_of_gt (sub_pos.2 hlt)
        rw [(abs_sum_iff hlt).2 ⟨ha, hb⟩, div_self hhl, mul_one]
        exact div_ne_zero hd2 hd1
      · intro f hf x
        have hd1 : st.maxIn - st.minIn ≠ 0 := sub_ne_zero.2 (Ne.symm h1)
        have hd2 : st.maxOut - st.minOut ≠ 0 := sub_ne_zero.2 (Ne.symm h2)
        have hhl : hi - lo ≠ 0 := ne_of_gt (sub_pos.2 hlt)
        rw [isMap_none hs h1 hf, (abs_sum_iff hlt).2 ⟨ha, hb⟩, div_self hhl, mul_one]
        field_simp
        ring
    cases nl with
    | true =>
      simp only [tmpRange, hs, if_true] at h3' ⊢
      exact key _ _ h3'.1 h3'.2.1 h3'.2.2
    | false =>
      simp only [tmpRange, Bool.false_eq_true, if_false] at h3' ⊢
      exact key _ _ h3'.1 h3'.2.1 h3'.2.2
  · rw [hs] at hg
    refine ⟨s, st.offset, ?_, hg.2, ?_⟩
    · simp [stageScale, hs]
    · intro f hf; unfold IsMap at hf; rw [hs] at hf; exact hf

theorem stage_good (dmin dmax : K) {rs : List (RangeObj K)} {st : Stage K} (hg : Good rs st)
    (a : Acc K) (ha : a.scale ≠ 0) :
    ∃ a', stage dmin dmax rs a st = .ok a' ∧ a'.scale ≠ 0 ∧
      ∀ f, IsMap st f → ∀ x, a'.scale * x + a'.offset = f (a.scale * x + a.offset) := by
  obtain ⟨r, nl, hr⟩ := findRange_ok hg.1
  obtain ⟨s, o, hso, hs0, hmap⟩ := good_stage hg hr
  unfold stage
  rw [hr]
  simp only [bind, Except.bind, hso, fdiv_ok ha, fdiv_ok (mul_ne_zero ha hs0)]
  cases nl
  · simp only [Bool.false_eq_true, if_false]
    refine ⟨_, rfl, mul_ne_zero ha hs0, ?_⟩
    intro f hf x
    rw [hmap f hf]; simp only; ring
  · simp only [if_true]
    refine ⟨_, rfl, mul_ne_zero ha hs0, ?_⟩
    intro f hf x
    rw [hmap f hf]; simp only; ring

/-- **C42** For every chain of stages whose end point stages have an output range which contains 0,
`calcScale` succeeds and `scale * x + offset` is the value obtained by sending `x` through the stages
one after the other.  The full statement, without the condition on the ranges, is refuted by
`range_without_zero_wrong`. -/
theorem chain_right_partial (dmin dmax : K) (rs : List (RangeObj K)) (sts : List (Stage K))
    (hg : ∀ st ∈ sts, Good rs st) :
    ∃ a, calcScale dmin dmax rs sts = .ok a ∧
      ∀ fs, List.Forall₂ IsMap sts fs → ∀ x, a.scale * x + a.offset = applyAll fs x := by
  have key : ∀ (sts : List (Stage K)) (a : Acc K), (∀ st ∈ sts, Good rs st) → a.scale ≠ 0 →
      ∃ a', stages dmin dmax rs sts a = .ok a' ∧
        ∀ fs, List.Forall₂ IsMap sts fs → ∀ x,
          a'.scale * x + a'.offset = applyAll fs (a.scale * x + a.offset) := by
    intro sts
    induction sts with
    | nil =>
      intro a _ _
      refine ⟨a, rfl, ?_⟩
      intro fs hfs x
      cases hfs; rfl
    | cons st sts ih =>
      intro a hg ha
      obtain ⟨a1, h1, h2, h3⟩ := stage_good dmin dmax (hg st (List.mem_cons_self ..)) a ha
      obtain ⟨a2, h4, h5⟩ := ih a1 (fun st' h' => hg st' (List.mem_cons_of_mem _ h')) h2
      refine ⟨a2, ?_, ?_⟩
      · simp only [stages, h1, h4]
      · intro fs hfs x
        cases hfs with
        | cons hf hfs => rw [h5 _ hfs, h3 _ hf]; rfl
  obtain ⟨a, h1, h2⟩ := key sts start hg (by simp [start])
  refine ⟨a, h1, ?_⟩
  intro fs hfs x
  rw [h2 fs hfs]
  simp [start]

/-! ### Examples and witnesses over the rationals -/

/-- A +-10 V card (12 bit) followed by a gain. -/
def exStages : List (Stage ℚ) :=
  [⟨"i1", 0, 4095, -10, 10, none, 0⟩, ⟨"i2", 0, 0, 0, 0, some 2, 1⟩]
def exRanges : List (RangeObj ℚ) :=
  [⟨"i1", false, 0, 4095, -10, 10⟩, ⟨"i2", false, -5, 5, -9, 11⟩]

/-- Non-vacuity of `chain_right_partial`. -/
example : ∀ st ∈ exStages, Good exRanges st := by
  intro st hst
  simp only [exStages, List.mem_cons, List.not_mem_nil, or_false] at hst
  rcases hst with rfl | rfl
  · refine ⟨⟨⟨"i1", false, 0, 4095, -10, 10⟩, by simp [exRanges], rfl⟩, ?_⟩
    refine ⟨by norm_num, by norm_num, ?_⟩
    intro r nl h
    have : findRange exRanges "i1" = .ok (⟨"i1", false, 0, 4095, -10, 10⟩, false) := by
      simp [findRange, exRanges]
    rw [this] at h
    simp only [Except.ok.injEq, Prod.mk.injEq] at h
    obtain ⟨rfl, rfl⟩ := h
    norm_num
  · exact ⟨⟨⟨"i2", false, -5, 5, -9, 11⟩, by simp [exRanges], rfl⟩, by norm_num⟩

/-- **C42 violated**: the usual 4..20 mA input.  Raw values 0..16 shall become 4..20, but 0 becomes
16 and 16 becomes 40. -/
theorem range_without_zero_wrong :
    ∃ a, calcScale (K := ℚ) (1/10^300) (10^300) [⟨"i", false, 0, 16, 4, 20⟩]
        [⟨"i", 0, 16, 4, 20, none, 0⟩] = .ok a ∧ a.scale * 0 + a.offset = 16 ∧
      a.scale * 16 + a.offset = 40 := by
  have h := stageScale_points (K := ℚ) ⟨"i", 0, 16, 4, 20, none, 0⟩ rfl (by norm_num) (by norm_num)
    (lo := 4) (hi := 20) (by norm_num)
  norm_num [abs_of_pos] at h
  refine ⟨⟨3/2, 16, 0, 8/3, false⟩, ?_, by norm_num, by norm_num⟩
  simp only [calcScale, stages, stage, findRange, tmpRange, start]
  norm_num [h, fdiv, bind, Except.bind]

/-! ### C43 -/

/-- Specification of the admissible raw values: before every stage the value lies in the input range
of the stage and after it in the output range. -/
def InRanges (rs : List (RangeObj K)) : List (Stage K) → List (K → K) → K → Prop
  | st :: sts, f :: fs, x =>
    (∀ r nl, findRange rs st.id = .ok (r, nl) →
      r.minIn ≤ x ∧ x ≤ r.maxIn ∧ r.minOut ≤ f x ∧ f x ≤ r.maxOut) ∧ InRanges rs sts fs (f x)
  | _, _, _ => True

/-- The stage has a limit and its map is increasing. -/
def Increasing (rs : List (RangeObj K)) (st : Stage K) : Prop :=
  (∀ r nl, findRange rs st.id = .ok (r, nl) → nl = false) ∧
  match st.scale with
  | some s => 0 < s
  | none => st.minIn < st.maxIn ∧ st.minOut < st.maxOut

theorem max_lo {a b x : K} : (if a < b then b else a) ≤ x ↔ a ≤ x ∧ b ≤ x := by
  split
  · rename_i h; constructor
    · intro hx; exact ⟨le_trans (le_of_lt h) hx, hx⟩
    · exact fun hx => hx.2
  · rename_i h; constructor
    · intro hx; exact ⟨hx, le_trans (not_lt.1 h) hx⟩
    · exact fun hx => hx.1

theorem min_hi {a b x : K} : x ≤ (if b < a then b else a) ↔ x ≤ a ∧ x ≤ b := by
  split
  · rename_i h; constructor
    · intro hx; exact ⟨le_trans hx (le_of_lt h), hx⟩
    · exact fun hx => hx.2
  · rename_i h; constructor
    · intro hx; exact ⟨hx, le_trans hx (not_lt.1 h)⟩
    · exact fun hx => hx.1

theorem lo_iff {l s o x : K} (hs : 0 < s) : (l - o) / s ≤ x ↔ l ≤ s * x + o := by
  rw [div_le_iff₀ hs]; constructor <;> intro h <;> linarith

theorem hi_iff {u s o x : K} (hs : 0 < s) : x ≤ (u - o) / s ↔ s * x + o ≤ u := by
  rw [le_div_iff₀ hs]; constructor <;> intro h <;> linarith

theorem slope_pos {rs : List (RangeObj K)} {st : Stage K} (hi : Increasing rs st) {s o : K}
    (h : ∀ f, IsMap st f → ∀ x, f x = s * x + o) : 0 < s := by
  unfold Increasing at hi
  rcases hs : st.scale with _ | t
  · rw [hs] at hi
    obtain ⟨_, h1, h2⟩ := hi
    have hd : 0 < st.maxIn - st.minIn := sub_pos.2 h1
    have hd' : 0 < st.maxOut - st.minOut := sub_pos.2 h2
    let f : K → K := fun x => (st.maxOut - st.minOut) / (st.maxIn - st.minIn) * x +
      (st.minOut - (st.maxOut - st.minOut) / (st.maxIn - st.minIn) * st.minIn)
    have hf : IsMap st f := by
      unfold IsMap
      rw [hs]
      refine ⟨⟨_, _, fun x => rfl⟩, ?_, ?_⟩ <;> simp only [f]
      · ring
      · field_simp; ring
    have e0 := h f hf 0
    have e1 := h f hf 1
    have : s = (st.maxOut - st.minOut) / (st.maxIn - st.minIn) := by
      simp only [f, mul_zero, zero_add, mul_one] at e0 e1
      linarith
    rw [this]
    exact div_pos hd' hd
  · rw [hs] at hi
    have hf : IsMap st (fun x => t * x + st.offset) := by unfold IsMap; rw [hs]; exact fun x => rfl
    have e0 := h _ hf 0
    have e1 := h _ hf 1
    simp only [mul_zero, zero_add, mul_one] at e0 e1
    have : s = t := by linarith
    rw [this]; exact hi.2

theorem stage_range (dmin dmax : K) {rs : List (RangeObj K)} {st : Stage K} (hg : Good rs st)
    (hi : Increasing rs st) (a : Acc K) (ha : 0 < a.scale)
    (hfirst : a.first = true → a.scale = 1 ∧ a.offset = 0) :
    ∃ a', stage dmin dmax rs a st = .ok a' ∧ 0 < a'.scale ∧ a'.first = false ∧
      ∀ f, IsMap st f → ∀ x, a'.scale * x + a'.offset = f (a.scale * x + a.offset) ∧
        ((a'.rangeMin ≤ x ∧ x ≤ a'.rangeMax) ↔
          (a.first = true ∨ (a.rangeMin ≤ x ∧ x ≤ a.rangeMax)) ∧
          ∀ r nl, findRange rs st.id = .ok (r, nl) →
            r.minIn ≤ a.scale * x + a.offset ∧ a.scale * x + a.offset ≤ r.maxIn ∧
            r.minOut ≤ f (a.scale * x + a.offset) ∧ f (a.scale * x + a.offset) ≤ r.maxOut) := by
  obtain ⟨r, nl, hr⟩ := findRange_ok hg.1
  obtain ⟨s, o, hso, hs0, hmap⟩ := good_stage hg hr
  have hsp := slope_pos hi hmap
  have hnl := hi.1 r nl hr
  subst hnl
  have ha0 : a.scale ≠ 0 := ne_of_gt ha
  simp only [tmpRange, Bool.false_eq_true, if_false] at hso
  simp only [stage, hr, bind, Except.bind, tmpRange, Bool.false_eq_true, if_false, hso, fdiv_ok ha0,
    fdiv_ok (mul_ne_zero ha0 hs0)]
  refine ⟨_, rfl, mul_pos ha hsp, rfl, ?_⟩
  intro f hf x
  have hfx : a.scale * s * x + (a.offset * s + o) = f (a.scale * x + a.offset) := by
    rw [hmap f hf]; ring
  refine ⟨hfx, ?_⟩
  simp only
  rw [max_lo, max_lo, min_hi, min_hi, lo_iff ha, hi_iff ha, lo_iff (mul_pos ha hsp),
    hi_iff (mul_pos ha hsp), hfx]
  constructor
  · rintro ⟨⟨⟨h1, h2⟩, h3⟩, ⟨h4, h5⟩, h6⟩
    refine ⟨?_, ?_⟩
    · cases hF : a.first
      · rw [hF] at h1 h4
        exact Or.inr ⟨h1, h4⟩
      · exact Or.inl rfl
    · intro r' nl' hr'
      simp only [Except.ok.injEq, Prod.mk.injEq] at hr'
      rw [← hr'.1]
      exact ⟨h2, h5, h3, h6⟩
  · rintro ⟨h1, h2⟩
    obtain ⟨h3, h4, h5, h6⟩ := h2 r false rfl
    refine ⟨⟨⟨?_, h3⟩, h5⟩, ⟨?_, h4⟩, h6⟩
    · split
      · rename_i hF
        have := hfirst hF
        rw [this.1, this.2] at h3
        simpa using h3
      · rename_i hF
        exact (h1.resolve_left hF).1
    · split
      · rename_i hF
        have := hfirst hF
        rw [this.1, this.2] at h4
        simpa using h4
      · rename_i hF
        exact (h1.resolve_left hF).2

/-- **C43** For every non-empty chain of increasing, limited stages the resulting range contains
exactly the raw values for which every intermediate value is within the configured input and output
range of its stage.  Refuted in general by `decreasing_range_wrong`, `noLimit_drops_limits` and
`noLimit_first_limits`. -/
theorem range_is_intersection_partial (dmin dmax : K) (rs : List (RangeObj K))
    (sts : List (Stage K)) (hne : sts ≠ []) (hg : ∀ st ∈ sts, Good rs st)
    (hi : ∀ st ∈ sts, Increasing rs st) :
    ∃ a, calcScale dmin dmax rs sts = .ok a ∧
      ∀ fs, List.Forall₂ IsMap sts fs → ∀ x,
        (a.rangeMin ≤ x ∧ x ≤ a.rangeMax) ↔ InRanges rs sts fs x := by
  have key : ∀ (sts : List (Stage K)) (a : Acc K), (∀ st ∈ sts, Good rs st) →
      (∀ st ∈ sts, Increasing rs st) → 0 < a.scale → a.first = false →
      ∃ a', stages dmin dmax rs sts a = .ok a' ∧
        ∀ fs, List.Forall₂ IsMap sts fs → ∀ x, (a'.rangeMin ≤ x ∧ x ≤ a'.rangeMax) ↔
          (a.rangeMin ≤ x ∧ x ≤ a.rangeMax) ∧ InRanges rs sts fs (a.scale * x + a.offset) := by
    intro sts
    induction sts with
    | nil =>
      intro a _ _ _ _
      refine ⟨a, rfl, ?_⟩
      intro fs hfs x
      cases hfs
      simp [InRanges]
    | cons st sts ih =>
      intro a hg hi ha hF
      obtain ⟨a1, h1, h2, h3, h4⟩ := stage_range dmin dmax (hg st (List.mem_cons_self ..))
        (hi st (List.mem_cons_self ..)) a ha (by rw [hF]; simp)
      obtain ⟨a2, h5, h6⟩ := ih a1 (fun st' h' => hg st' (List.mem_cons_of_mem _ h'))
        (fun st' h' => hi st' (List.mem_cons_of_mem _ h')) h2 h3
      refine ⟨a2, by simp only [stages, h1, h5], ?_⟩
      intro fs hfs x
      cases hfs with
      | cons hf hfs =>
        obtain ⟨h7, h8⟩ := h4 _ hf x
        rw [h6 _ hfs, h8, h7, hF]
        simp only [Bool.false_eq_true, false_or, InRanges]
        rw [and_assoc]
  cases sts with
  | nil => exact absurd rfl hne
  | cons st sts =>
    obtain ⟨a1, h1, h2, h3, h4⟩ := stage_range dmin dmax (hg st (List.mem_cons_self ..))
      (hi st (List.mem_cons_self ..)) start (by simp [start]) (by simp [start])
    obtain ⟨a2, h5, h6⟩ := key sts a1 (fun st' h' => hg st' (List.mem_cons_of_mem _ h'))
      (fun st' h' => hi st' (List.mem_cons_of_mem _ h')) h2 h3
    refine ⟨a2, ?_, ?_⟩
    · simp only [calcScale, stages, h1, h5]
    · intro fs hfs x
      cases hfs with
      | cons hf hfs =>
        obtain ⟨h7, h8⟩ := h4 _ hf x
        rw [h6 _ hfs, h8, h7]
        simp [start, InRanges]

/-- Non-vacuity of `range_is_intersection_partial` (`Good` was shown above). -/
example : ∀ st ∈ exStages, Increasing exRanges st := by
  intro st hst
  simp only [exStages, List.mem_cons, List.not_mem_nil, or_false] at hst
  rcases hst with rfl | rfl
  · refine ⟨?_, by norm_num⟩
    intro r nl h
    simp [findRange, exRanges] at h
    exact h.2
  · refine ⟨?_, by norm_num⟩
    intro r nl h
    simp [findRange, exRanges] at h
    exact h.2

/-- **C43 violated**: with a decreasing stage (inverting sensor, scale -1, values -5..5 allowed on
both sides) followed by nothing else the range is kept, but with an output range of 0..5 it becomes
[0, -5], which is empty, although all raw values -5..0 are admissible. -/
theorem decreasing_range_wrong :
    ∃ a, calcScale (K := ℚ) (1/10^300) (10^300) [⟨"i", false, -5, 5, 0, 5⟩]
        [⟨"i", 0, 0, 0, 0, some (-1), 0⟩] = .ok a ∧ a.rangeMin = 0 ∧ a.rangeMax = -5 := by
  refine ⟨⟨-1, 0, 0, -5, false⟩, ?_, rfl, rfl⟩
  simp only [calcScale, stages, stage, findRange, tmpRange, start, stageScale]
  norm_num [fdiv, bind, Except.bind]

/-- **C43 violated**: a second stage marked `noLimit` discards the limits 0..10 of the first and
replaces them by [smallest positive double, largest double]; the admissible raw value 0 is
excluded and the inadmissible 11 is included. -/
theorem noLimit_drops_limits (dmin dmax : ℚ) (h0 : 0 < dmin) (h1 : 11 ≤ dmax) (h2 : dmin < 11) :
    ∃ a, calcScale dmin dmax [⟨"i", false, 0, 10, 0, 10⟩, ⟨"j", true, 0, 0, 0, 0⟩]
        [⟨"i", 0, 0, 0, 0, some 1, 0⟩, ⟨"j", 0, 0, 0, 0, some 1, 0⟩] = .ok a ∧
      ¬ (a.rangeMin ≤ 0) ∧ a.rangeMin ≤ 11 ∧ 11 ≤ a.rangeMax := by
  refine ⟨⟨1, 0, dmin, dmax, false⟩, ?_, not_le.2 h0, le_of_lt h2, h1⟩
  have e1 : findRange (K := ℚ) [⟨"i", false, 0, 10, 0, 10⟩, ⟨"j", true, 0, 0, 0, 0⟩] "i" =
      .ok (⟨"i", false, 0, 10, 0, 10⟩, false) := by simp [findRange, List.filter]
  have e2 : findRange (K := ℚ) [⟨"i", false, 0, 10, 0, 10⟩, ⟨"j", true, 0, 0, 0, 0⟩] "j" =
      .ok (⟨"j", true, 0, 0, 0, 0⟩, true) := by simp [findRange, List.filter]
  simp only [calcScale, stages, stage, e1, e2, tmpRange, start, stageScale]
  norm_num [fdiv, bind, Except.bind]

/-- **C43 violated**: a single stage marked `noLimit` with a directly given scale yields the range
[0, 0]. -/
theorem noLimit_first_limits (dmin dmax : ℚ) :
    ∃ a, calcScale dmin dmax [⟨"i", true, 0, 0, 0, 0⟩] [⟨"i", 0, 0, 0, 0, some 1, 0⟩] = .ok a ∧
      a.rangeMin = 0 ∧ a.rangeMax = 0 := by
  refine ⟨⟨1, 0, 0, 0, false⟩, ?_, rfl, rfl⟩
  simp only [calcScale, stages, stage, findRange, tmpRange, start, stageScale]
  norm_num [fdiv, bind, Except.bind]

/-- Case of `noLimit_drops_limits`: limits as those of a double. -/
example : (0 : ℚ) < 1 / 10 ^ 30 ∧ (11 : ℚ) ≤ 10 ^ 30 ∧ (1 / 10 ^ 30 : ℚ) < 11 := by norm_num

end Verif.Hal.Scale
