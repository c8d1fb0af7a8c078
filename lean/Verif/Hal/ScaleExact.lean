import Verif.Hal.ScaleProps
/-!
C43: what the configured range of a channel becomes with decreasing stages and with stages marked `noLimit`, for all chains (model: `Hal/Scale.lean`,
`src/hal/JsonParser.cpp:193-352`).
-/
namespace Verif.Hal.Scale
variable {K : Type} [Field K] [LinearOrder K] [IsStrictOrderedRing K]

/-- The range found for a stage has limits. -/
def Limited (rs : List (RangeObj K)) (st : Stage K) : Prop := ∃ r, findRange rs st.id = .ok (r, false)

/-- The stage is marked `noLimit`. -/
def Unlimited (rs : List (RangeObj K)) (st : Stage K) : Prop := ∃ r, findRange rs st.id = .ok (r, true)

omit [IsStrictOrderedRing K] in
theorem fdiv_inv {a b c : K} (h : fdiv a b = .ok c) : b ≠ 0 ∧ c = a / b := by
  unfold fdiv at h
  split at h
  · simp at h
  · rename_i hb
    simp only [Except.ok.injEq] at h
    exact ⟨hb, h.symm⟩

omit [Field K] [LinearOrder K] [IsStrictOrderedRing K] in
theorem bind_ok' {α β : Type} {m : Except Err α} {f : α → Except Err β} {b : β} (h : (m >>= f) = .ok b) : ∃ a, m = .ok a ∧ f a = .ok b := by
  cases m with
  | error e => simp [bind, Except.bind] at h
  | ok a => exact ⟨a, rfl, h⟩

section
omit [Field K] [IsStrictOrderedRing K]

theorem raise_old (x y : K) : x ≤ if x < y then y else x := by
  split
  · rename_i h; exact le_of_lt h
  · exact le_refl _

theorem raise_new (x y : K) : y ≤ if x < y then y else x := by
  split
  · exact le_refl _
  · rename_i h; exact not_lt.1 h

theorem lower_old (x y : K) : (if y < x then y else x) ≤ x := by
  split
  · rename_i h; exact le_of_lt h
  · exact le_refl _

theorem lower_new (x y : K) : (if y < x then y else x) ≤ y := by
  split
  · exact le_refl _
  · rename_i h; exact not_lt.1 h

end

omit [IsStrictOrderedRing K] in
/-- What a limited stage does to the range. -/
theorem limited_stage {dmin dmax : K} {rs : List (RangeObj K)} {st : Stage K} {r : RangeObj K} (hr : findRange rs st.id = .ok (r, false)) {a a' : Acc K}
    (h : stage dmin dmax rs a st = .ok a') :
    a'.scale ≠ 0 ∧ a'.first = false ∧ (a.first = false → a.rangeMin ≤ a'.rangeMin ∧ a'.rangeMax ≤ a.rangeMax) ∧
      (r.minOut - a'.offset) / a'.scale ≤ a'.rangeMin ∧ a'.rangeMax ≤ (r.maxOut - a'.offset) / a'.scale := by
  unfold stage at h
  rw [hr] at h
  simp only [bind, Except.bind, Bool.false_eq_true, if_false, tmpRange] at h
  split at h
  · simp at h
  rename_i sc _
  obtain ⟨s, o⟩ := sc
  simp only at h
  split at h
  · simp at h
  rename_i lo hlo
  split at h
  · simp at h
  rename_i hi hhi
  split at h
  · simp at h
  rename_i lo' hlo'
  split at h
  · simp at h
  rename_i hi' hhi'
  obtain ⟨hne, e1⟩ := fdiv_inv hlo'
  obtain ⟨-, e2⟩ := fdiv_inv hhi'
  simp only [Except.ok.injEq] at h
  subst h
  refine ⟨hne, rfl, fun hf => ?_, ?_, ?_⟩
  · simp only [hf, Bool.false_eq_true, if_false]
    exact ⟨le_trans (raise_old _ _) (raise_old _ _), le_trans (lower_old _ _) (lower_old _ _)⟩
  · simp only [← e1]
    exact raise_new _ _
  · simp only [← e2]
    exact lower_new _ _

omit [IsStrictOrderedRing K] in
theorem stages_append (dmin dmax : K) (rs : List (RangeObj K)) (xs ys : List (Stage K)) (a : Acc K) :
    stages dmin dmax rs (xs ++ ys) a = match stages dmin dmax rs xs a with
      | .error e => .error e
      | .ok a' => stages dmin dmax rs ys a' := by
  induction xs generalizing a with
  | nil => rfl
  | cons x xs ih =>
    simp only [List.cons_append, stages]
    cases stage dmin dmax rs a x with
    | error e => rfl
    | ok a' => exact ih a'

omit [IsStrictOrderedRing K] in
/-- Limited stages only narrow the range. -/
theorem limited_stages {dmin dmax : K} {rs : List (RangeObj K)} (sts : List (Stage K)) (hl : ∀ st ∈ sts, Limited rs st) {a a' : Acc K} (hf : a.first = false)
    (h : stages dmin dmax rs sts a = .ok a') : a.rangeMin ≤ a'.rangeMin ∧ a'.rangeMax ≤ a.rangeMax := by
  induction sts generalizing a with
  | nil => simp only [stages, Except.ok.injEq] at h; subst h; exact ⟨le_refl _, le_refl _⟩
  | cons st sts ih =>
    simp only [stages] at h
    cases hs : stage dmin dmax rs a st with
    | error e => rw [hs] at h; simp at h
    | ok a1 =>
      rw [hs] at h
      obtain ⟨r, hr⟩ := hl st (by simp)
      obtain ⟨-, hf1, hn, -, -⟩ := limited_stage hr hs
      obtain ⟨h1, h2⟩ := ih (fun x hx => hl x (by simp [hx])) hf1 h
      exact ⟨le_trans (hn hf).1 h1, le_trans h2 (hn hf).2⟩

/-- **C43 violated**, for every chain: if the stages up to one of them together are decreasing and this stage and those behind it have limits, the resulting range
is empty, whichever raw values are admissible. -/
theorem decreasing_empty_violated (dmin dmax : K) (rs : List (RangeObj K)) (pre post : List (Stage K)) (st : Stage K) (r : RangeObj K) (a1 a : Acc K)
    (h1 : calcScale dmin dmax rs (pre ++ [st]) = .ok a1) (hneg : a1.scale < 0) (hr : findRange rs st.id = .ok (r, false)) (hout : r.minOut < r.maxOut)
    (hpost : ∀ st' ∈ post, Limited rs st') (h : calcScale dmin dmax rs (pre ++ st :: post) = .ok a) (x : K) : ¬ (a.rangeMin ≤ x ∧ x ≤ a.rangeMax) := by
  rintro ⟨hx1, hx2⟩
  unfold calcScale at h1 h
  rw [stages_append] at h1
  rw [stages_append] at h
  cases hp : stages dmin dmax rs pre start with
  | error e => rw [hp] at h1; simp at h1
  | ok a0 =>
    rw [hp] at h1 h
    simp only [stages] at h1 h
    cases hs : stage dmin dmax rs a0 st with
    | error e => rw [hs] at h1; simp at h1
    | ok a1' =>
      rw [hs] at h1 h
      simp only [Except.ok.injEq] at h1
      subst h1
      obtain ⟨-, hf, -, hlo, hhi⟩ := limited_stage hr hs
      obtain ⟨g1, g2⟩ := limited_stages post hpost hf h
      have hle : (r.minOut - a1'.offset) / a1'.scale ≤ (r.maxOut - a1'.offset) / a1'.scale :=
        le_trans hlo (le_trans g1 (le_trans hx1 (le_trans hx2 (le_trans g2 hhi))))
      rw [div_le_div_right_of_neg hneg] at hle
      linarith

/-- An inverting sensor (scale -1) with the output range 0..5, followed by a stage which doubles. -/
example : ∃ a1 a : Acc ℚ, calcScale (K := ℚ) (1/10^300) (10^300) [⟨"i", false, -5, 5, 0, 5⟩, ⟨"j", false, -100, 100, -100, 100⟩] ([] ++ [⟨"i", 0, 0, 0, 0, some (-1), 0⟩]) = .ok a1 ∧
    a1.scale < 0 ∧ calcScale (K := ℚ) (1/10^300) (10^300) [⟨"i", false, -5, 5, 0, 5⟩, ⟨"j", false, -100, 100, -100, 100⟩]
      ([] ++ ⟨"i", 0, 0, 0, 0, some (-1), 0⟩ :: [⟨"j", 0, 0, 0, 0, some 2, 1⟩]) = .ok a ∧
    findRange (K := ℚ) [⟨"i", false, -5, 5, 0, 5⟩, ⟨"j", false, -100, 100, -100, 100⟩] "i" = .ok (⟨"i", false, -5, 5, 0, 5⟩, false) := by
  have e1 : findRange (K := ℚ) [⟨"i", false, -5, 5, 0, 5⟩, ⟨"j", false, -100, 100, -100, 100⟩] "i" = .ok (⟨"i", false, -5, 5, 0, 5⟩, false) := by
    simp [findRange, List.filter]
  have e2 : findRange (K := ℚ) [⟨"i", false, -5, 5, 0, 5⟩, ⟨"j", false, -100, 100, -100, 100⟩] "j" = .ok (⟨"j", false, -100, 100, -100, 100⟩, false) := by
    simp [findRange, List.filter]
  refine ⟨⟨-1, 0, 0, -5, false⟩, ⟨-2, 1, 100, -100, false⟩, ?_, by norm_num, ?_, e1⟩
  · simp only [List.nil_append, calcScale, stages, stage, e1, tmpRange, start, stageScale]
    norm_num [fdiv, bind, Except.bind]
  · simp only [List.nil_append, calcScale, stages, stage, e1, e2, tmpRange, start, stageScale]
    norm_num [fdiv, bind, Except.bind]

omit [IsStrictOrderedRing K] in
/-- **C43 violated**, for every chain: a last stage marked `noLimit` discards all limits of the stages before it. -/
theorem noLimit_last_violated (dmin dmax : K) (rs : List (RangeObj K)) (first : Stage K) (mid : List (Stage K)) (st : Stage K) (hu : Unlimited rs st) (a : Acc K)
    (h : calcScale dmin dmax rs (first :: mid ++ [st]) = .ok a) : a.rangeMin = dmin ∧ a.rangeMax = dmax := by
  have hfirst : ∀ {a a' : Acc K} {st : Stage K}, stage dmin dmax rs a st = .ok a' → a'.first = false := by
    intro a a' st h
    unfold stage at h
    obtain ⟨⟨r, nl⟩, -, h⟩ := bind_ok' h
    simp only at h
    obtain ⟨⟨s, o⟩, -, h⟩ := bind_ok' h
    simp only at h
    split at h
    · simp only [Except.ok.injEq] at h; rw [← h]
    · obtain ⟨_, -, h⟩ := bind_ok' h
      obtain ⟨_, -, h⟩ := bind_ok' h
      obtain ⟨_, -, h⟩ := bind_ok' h
      obtain ⟨_, -, h⟩ := bind_ok' h
      simp only [Except.ok.injEq] at h; rw [← h]
  have hkeep : ∀ (sts : List (Stage K)) {a a' : Acc K}, a.first = false → stages dmin dmax rs sts a = .ok a' → a'.first = false := by
    intro sts
    induction sts with
    | nil => intro a a' hf h; simp only [stages, Except.ok.injEq] at h; rw [← h]; exact hf
    | cons st sts ih =>
      intro a a' hf h
      simp only [stages] at h
      cases hs : stage dmin dmax rs a st with
      | error e => rw [hs] at h; simp at h
      | ok a1 => rw [hs] at h; exact ih (hfirst hs) h
  obtain ⟨r, hr⟩ := hu
  unfold calcScale at h
  simp only [List.cons_append, stages] at h
  cases h0 : stage dmin dmax rs start first with
  | error e => rw [h0] at h; simp at h
  | ok a0 =>
    rw [h0] at h
    simp only at h
    rw [stages_append] at h
    cases h1 : stages dmin dmax rs mid a0 with
    | error e => rw [h1] at h; simp at h
    | ok a1 =>
      rw [h1] at h
      have hf := hkeep mid (hfirst h0) h1
      simp only [stages] at h
      cases h2 : stage dmin dmax rs a1 st with
      | error e => rw [h2] at h; simp at h
      | ok a2 =>
        rw [h2] at h
        simp only [Except.ok.injEq] at h
        subst h
        unfold stage at h2
        rw [hr] at h2
        obtain ⟨⟨_, _⟩, he, h2⟩ := bind_ok' h2
        simp only [Except.ok.injEq, Prod.mk.injEq] at he
        obtain ⟨rfl, rfl⟩ := he
        simp only at h2
        obtain ⟨⟨s, o⟩, -, h2⟩ := bind_ok' h2
        simp only [hf, if_true, Bool.false_eq_true, if_false, Except.ok.injEq] at h2
        rw [← h2]
        exact ⟨rfl, rfl⟩

example : Unlimited (K := ℚ) [⟨"i", false, 0, 10, 0, 10⟩, ⟨"j", true, 0, 0, 0, 0⟩] ⟨"j", 0, 0, 0, 0, some 1, 0⟩ ∧
    ∃ a, calcScale (K := ℚ) (1/10^300) (10^300) [⟨"i", false, 0, 10, 0, 10⟩, ⟨"j", true, 0, 0, 0, 0⟩]
      (⟨"i", 0, 0, 0, 0, some 1, 0⟩ :: [] ++ [⟨"j", 0, 0, 0, 0, some 1, 0⟩]) = .ok a := by
  have e1 : findRange (K := ℚ) [⟨"i", false, 0, 10, 0, 10⟩, ⟨"j", true, 0, 0, 0, 0⟩] "i" =
      .ok (⟨"i", false, 0, 10, 0, 10⟩, false) := by simp [findRange, List.filter]
  have e2 : findRange (K := ℚ) [⟨"i", false, 0, 10, 0, 10⟩, ⟨"j", true, 0, 0, 0, 0⟩] "j" =
      .ok (⟨"j", true, 0, 0, 0, 0⟩, true) := by simp [findRange, List.filter]
  refine ⟨⟨_, e2⟩, ⟨1, 0, 1/10^300, 10^300, false⟩, ?_⟩
  simp only [List.cons_append, List.nil_append, calcScale, stages, stage, e1, e2, tmpRange, start, stageScale]
  norm_num [fdiv, bind, Except.bind]

omit [IsStrictOrderedRing K] in
/-- **C43 violated**, for every scale and offset: a single stage marked `noLimit` with a directly given scale allows the raw value 0 only. -/
theorem noLimit_single_violated (dmin dmax s : K) (rs : List (RangeObj K)) (st : Stage K) (hs : st.scale = some s) (hu : Unlimited rs st) :
    ∃ a, calcScale dmin dmax rs [st] = .ok a ∧ ∀ x, (a.rangeMin ≤ x ∧ x ≤ a.rangeMax) ↔ x = 0 := by
  obtain ⟨r, hr⟩ := hu
  refine ⟨⟨s, st.offset, 0, 0, false⟩, ?_, fun x => ⟨fun h => le_antisymm h.2 h.1, fun h => by simp [h]⟩⟩
  simp [calcScale, stages, stage, hr, tmpRange, hs, stageScale, start, bind, Except.bind]

example : Unlimited (K := ℚ) [⟨"j", true, 0, 0, 0, 0⟩] ⟨"j", 0, 0, 0, 0, some 7, 3⟩ := ⟨⟨"j", true, 0, 0, 0, 0⟩, by simp [findRange, List.filter]⟩

end Verif.Hal.Scale
