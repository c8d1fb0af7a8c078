import Verif.Hal.PixyCam
import Mathlib.Tactic.Linarith
import Mathlib.Tactic.NormNum
import Mathlib.Tactic.FinCases
namespace Verif.Hal.PixyCam
open Verif

/-! ### C94: validity and position of the marker camera -/

theorem argmin_le (f : Fin 4 → ℝ) (i : Fin 4) : f (argmin f) ≤ f i := by
  unfold argmin
  simp only [List.foldl_cons, List.foldl_nil, lt_irrefl, if_false]
  fin_cases i <;> simp only [Fin.zero_eta, Fin.mk_one, Fin.reduceFinMk] <;> split_ifs <;> linarith

theorem le_argmax (f : Fin 4 → ℝ) (i : Fin 4) : f i ≤ f (argmax f) := by
  unfold argmax
  simp only [List.foldl_cons, List.foldl_nil, lt_irrefl, if_false]
  fin_cases i <;> simp only [Fin.zero_eta, Fin.mk_one, Fin.reduceFinMk] <;> split_ifs <;> linarith

/-- The check of the four extreme dots covers all dots. -/
theorem markersInRange_iff (d : Dots) : markersInRange d ↔ ∀ i, inRegion (d i) := by
  constructor
  · rintro ⟨h1, h2, h3, h4⟩ i
    have a1 : (d (ixMin d)).1 ≤ (d i).1 := argmin_le (fun i => (d i).1) i
    have a2 : (d i).1 ≤ (d (ixMax d)).1 := le_argmax (fun i => (d i).1) i
    have a3 : (d (iyMin d)).2 ≤ (d i).2 := argmin_le (fun i => (d i).2) i
    have a4 : (d i).2 ≤ (d (iyMax d)).2 := le_argmax (fun i => (d i).2) i
    exact ⟨lt_of_lt_of_le h1.1 a1, lt_of_le_of_lt a2 h2.2.1, lt_of_lt_of_le h3.2.2.1 a3, lt_of_le_of_lt a4 h4.2.2.2⟩
  · intro h
    exact ⟨h _, h _, h _, h _⟩

/-- The mean of the horizontal and the vertical extent of the pattern, in pixels: `l`, `r`, `t`, `b` are its leftmost, rightmost, lowest
and highest dots. -/
def Extent (d : Dots) (e : ℝ) : Prop :=
  ∃ l r t b : Fin 4, (∀ i, (d l).1 ≤ (d i).1 ∧ (d i).1 ≤ (d r).1 ∧ (d t).2 ≤ (d i).2 ∧ (d i).2 ≤ (d b).2) ∧
    2 * e = Real.sqrt (((d r).1 - (d l).1) ^ 2 + ((d r).2 - (d l).2) ^ 2) + Real.sqrt (((d b).1 - (d t).1) ^ 2 + ((d b).2 - (d t).2) ^ 2)

/-- **C94.** `distCam` is the mean extent of the pattern. -/
theorem distCam_extent (d : Dots) : Extent d (distCam d) := by
  refine ⟨ixMin d, ixMax d, iyMin d, iyMax d, fun i => ⟨argmin_le (fun i => (d i).1) i, le_argmax (fun i => (d i).1) i,
    argmin_le (fun i => (d i).2) i, le_argmax (fun i => (d i).2) i⟩, ?_⟩
  simp only [distCam, dist, pow_two]
  ring

theorem distCam_nonneg (d : Dots) : 0 ≤ distCam d := by
  unfold distCam dist
  have := Real.sqrt_nonneg
  positivity

/-- **C94 (partial).** The flag is set exactly if all four markers are in the central region of the picture and the pattern is large
enough (93 * 0.915 / 1.2 pixels, that is the camera is lower than 1.2 m; `distCam_extent` says what `distCam` is).  Missing: that the buffer holds the markers of this picture,
see `stale_violated`. -/
theorem valid_iff_partial (s : St) (p : Picture) :
    (step s p).valid ↔ (∀ i, 10 < (p.dots i).1 ∧ (p.dots i).1 < 306 ∧ 10 < (p.dots i).2 ∧ (p.dots i).2 < 198) ∧
      93 * 0.915 / 1.2 < distCam p.dots := by
  have hr : (∀ i, 10 < (p.dots i).1 ∧ (p.dots i).1 < 306 ∧ 10 < (p.dots i).2 ∧ (p.dots i).2 < 198) ↔ markersInRange p.dots := by
    rw [markersInRange_iff]
    unfold inRegion
    norm_num
  rw [hr]
  have hh : (height p.dots).lt (.fin 1.2) = true ↔ 93 * 0.915 / 1.2 < distCam p.dots := by
    have h0 := distCam_nonneg p.dots
    unfold height div
    split_ifs with h h1 h1
    · rw [h]; simp only [XVal.lt]; norm_num
    · norm_num at h1
    · rename_i h2; exact absurd (by norm_num) h2
    · have hp : 0 < distCam p.dots := lt_of_le_of_ne h0 (Ne.symm h)
      simp only [XVal.lt, decide_eq_true_eq]
      rw [div_lt_iff₀ hp, div_lt_iff₀ (by norm_num)]
      constructor <;> intro h <;> linarith
  constructor
  · rintro ⟨h1, h2⟩
    exact ⟨h2, hh.1 h1⟩
  · rintro ⟨h2, h1⟩
    exact ⟨hh.2 h1, h2⟩

/-- **C94, violated.** The number of markers seen is ignored: if the camera sees nothing, the buffer of the last picture still makes the
data valid. -/
theorem stale_violated (s : St) (p : Picture) (h : (step s p).valid) (n : Nat) :
    (step (step s p) { p with numBlocks := n }).valid ∧ (step (step s p) { p with numBlocks := n }).nofBlocks = n := ⟨h, rfl⟩

/-- A valid picture: a square of 100 pixels. -/
noncomputable def square : Picture := ⟨4, ![(100, 50), (200, 50), (200, 150), (100, 150)], .fin 0⟩

theorem square_valid : (step init square).valid := by
  rw [valid_iff_partial]
  constructor
  · intro i
    fin_cases i <;> simp [square] <;> norm_num
  · have e : distCam square.dots = (100 + Real.sqrt (100 * 100 + 100 * 100)) / 2 := by
      have d0 : square.dots 0 = (100, 50) := rfl
      have d1 : square.dots 1 = (200, 50) := rfl
      have d2 : square.dots 2 = (200, 150) := rfl
      have d3 : square.dots 3 = (100, 150) := rfl
      have a1 : ixMin square.dots = 0 := by
        simp only [ixMin, argmin, List.foldl_cons, List.foldl_nil, d0, d1, d2, d3, lt_irrefl, if_false, show ¬ (200 : ℝ) < 100 by norm_num]
      have a2 : ixMax square.dots = 1 := by
        simp only [ixMax, argmax, List.foldl_cons, List.foldl_nil, d0, d1, d2, d3, lt_irrefl, if_false, if_true,
          show (100 : ℝ) < 200 by norm_num, show ¬ (200 : ℝ) < 100 by norm_num]
      have a3 : iyMin square.dots = 0 := by
        simp only [iyMin, argmin, List.foldl_cons, List.foldl_nil, d0, d1, d2, d3, lt_irrefl, if_false, show ¬ (150 : ℝ) < 50 by norm_num]
      have a4 : iyMax square.dots = 2 := by
        simp only [iyMax, argmax, List.foldl_cons, List.foldl_nil, d0, d1, d2, d3, lt_irrefl, if_false, if_true,
          show (50 : ℝ) < 150 by norm_num]
      unfold distCam
      rw [a1, a2, a3, a4]
      simp only [dist, d0, d1, d2]
      rw [show ((200 : ℝ) - 100) * (200 - 100) + (50 - 50) * (50 - 50) = 100 * 100 by norm_num, Real.sqrt_mul_self (by norm_num)]
      norm_num
    rw [e]
    have : (100 : ℝ) ≤ Real.sqrt (100 * 100 + 100 * 100) := Real.le_sqrt_of_sq_le (by norm_num)
    norm_num at this ⊢
    linarith

/-- **C94.** The raw position is the offset of the centre of the four markers from the centre of the picture, scaled such that the extent
of the pattern has its known size. -/
theorem raw_position (s : St) (p : Picture) (h : 0 < distCam p.dots) :
    ∃ x y, (step s p).raw = (.fin x, .fin y, p.phi) ∧
      x * distCam p.dots = (((p.dots 0).1 + (p.dots 1).1 + (p.dots 2).1 + (p.dots 3).1) / 4 - 158) * (0.335 * 3.02 / 4.45) ∧
      y * distCam p.dots = (((p.dots 0).2 + (p.dots 1).2 + (p.dots 2).2 + (p.dots 3).2) / 4 - 104) * (0.335 * 3.02 / 4.45) := by
  refine ⟨xO p.dots * distWorld / distCam p.dots, yO p.dots * distWorld / distCam p.dots, ?_, ?_, ?_⟩
  · simp [step, xS, yS, div, h.ne']
  · rw [div_mul_cancel₀ _ h.ne']; unfold xO distWorld; ring
  · rw [div_mul_cancel₀ _ h.ne']; unfold yO distWorld; ring

theorem square_pos : 0 < distCam square.dots := by
  obtain ⟨_, h⟩ := (valid_iff_partial _ _).1 square_valid
  exact lt_trans (by norm_num) h

/-- The position of the square: its first two components are finite and differ. -/
theorem square_position : ∃ x y : ℝ, xS square.dots = .fin x ∧ yS square.dots = .fin y ∧ x < y ∧ y < 0 := by
  have h := square_pos
  refine ⟨xO square.dots * distWorld / distCam square.dots, yO square.dots * distWorld / distCam square.dots, ?_, ?_, ?_, ?_⟩
  · simp [xS, div, h.ne']
  · simp [yS, div, h.ne']
  · apply div_lt_div_of_pos_right _ h
    simp only [xO, yO, distWorld, square, Matrix.cons_val]
    norm_num
  · apply div_neg_of_neg_of_pos _ h
    simp only [yO, distWorld, square, Matrix.cons_val]
    norm_num

theorem lowpass_between (a lo hi x y : ℝ) (ha : 0 ≤ a) (ha1 : a ≤ 1) (hx : lo ≤ x ∧ x ≤ hi) (hy : lo ≤ y ∧ y ≤ hi) :
    ∃ z, lowpass a (.fin x) (.fin y) = .fin z ∧ lo ≤ z ∧ z ≤ hi := by
  refine ⟨x * a + y * (1 - a), rfl, ?_, ?_⟩ <;> nlinarith [mul_nonneg ha (sub_nonneg.2 hx.1), mul_nonneg ha (sub_nonneg.2 hx.2),
    mul_nonneg (sub_nonneg.2 ha1) (sub_nonneg.2 hy.1), mul_nonneg (sub_nonneg.2 ha1) (sub_nonneg.2 hy.2)]

/-- Finite and between `lo` and `hi`. -/
def Within (lo hi : ℝ) (v : XVal ℝ) : Prop := ∃ z, v = .fin z ∧ lo ≤ z ∧ z ≤ hi

/-- **C94.** The filtered values stay within the bounds of the raw values of all pictures so far (but see
`swapped_violated` for their order). -/
theorem filter_bounds (lo hi : ℝ) (l : List Picture) (p : Picture)
    (hx : ∀ q ∈ l ++ [p], Within lo hi (xS q.dots) ∧ Within lo hi (yS q.dots) ∧ Within lo hi q.phi) :
    Within lo hi (run (l ++ [p])).out.1 ∧ Within lo hi (run (l ++ [p])).out.2.1 ∧ Within lo hi (run (l ++ [p])).out.2.2 := by
  have key : ∀ (l : List Picture) (s : St),
      (s.first = false → Within lo hi s.xPrev ∧ Within lo hi s.yPrev ∧ Within lo hi s.phiPrev) →
      (∀ q ∈ l, Within lo hi (xS q.dots) ∧ Within lo hi (yS q.dots) ∧ Within lo hi q.phi) →
      ((l.foldl step s).first = false → Within lo hi (l.foldl step s).xPrev ∧ Within lo hi (l.foldl step s).yPrev ∧
        Within lo hi (l.foldl step s).phiPrev) := by
    intro l
    induction l with
    | nil => intro s h _; exact h
    | cons q l ih =>
      intro s h hq
      refine ih (step s q) ?_ (fun q' h' => hq q' (by simp [h']))
      intro _
      obtain ⟨⟨x, hx, hx'⟩, ⟨y, hy, hy'⟩, ⟨f, hf, hf'⟩⟩ := hq q (by simp)
      by_cases h1 : s.first = true
      · simp only [step, h1, if_true]
        exact ⟨⟨x, hx, hx'⟩, ⟨y, hy, hy'⟩, ⟨f, hf, hf'⟩⟩
      · obtain ⟨⟨a, ha, ha'⟩, ⟨b, hb, hb'⟩, ⟨c, hc, hc'⟩⟩ := h (by simpa using h1)
        simp only [step, h1, hx, hy, hf, ha, hb, hc]
        exact ⟨lowpass_between _ lo hi x a (by norm_num) (by norm_num) hx' ha', lowpass_between _ lo hi y b (by norm_num) (by norm_num) hy' hb',
          lowpass_between _ lo hi f c (by norm_num) (by norm_num) hf' hc'⟩
  have hk := key (l ++ [p]) init (by simp [init]) hx (by simp [step])
  have ho : (run (l ++ [p])).out = ((run (l ++ [p])).yPrev, (run (l ++ [p])).xPrev, (run (l ++ [p])).phiPrev) := by
    simp [run, step]
  rw [ho]
  exact ⟨hk.2.1, hk.1, hk.2.2⟩

/-- The hypothesis of `filter_bounds` is met by the square. -/
example : ∃ lo hi : ℝ, ∀ q ∈ [square] ++ [square], Within lo hi (xS q.dots) ∧ Within lo hi (yS q.dots) ∧ Within lo hi q.phi := by
  obtain ⟨x, y, hx, hy, h1, h2⟩ := square_position
  refine ⟨x, 0, fun q hq => ?_⟩
  have : q = square := by simpa using hq
  subst this
  exact ⟨⟨x, hx, by linarith, by linarith⟩, ⟨y, hy, by linarith, by linarith⟩, ⟨0, rfl, by linarith, by linarith⟩⟩

/-- **C94, violated.** "The position with low pass filter" has its first two components exchanged with respect to the raw position: for a
camera at rest the filtered position is not the position. -/
theorem swapped_violated (p : Picture) (x y f : ℝ) (hx : xS p.dots = .fin x) (hy : yS p.dots = .fin y) (hf : p.phi = .fin f) (n : Nat) :
    (run (List.replicate (n + 1) p)).raw = (.fin x, .fin y, .fin f) ∧ (run (List.replicate (n + 1) p)).out = (.fin y, .fin x, .fin f) := by
  have key : ∀ n, let s := run (List.replicate (n + 1) p)
      s.first = false ∧ s.xPrev = .fin x ∧ s.yPrev = .fin y ∧ s.phiPrev = .fin f ∧ s.raw = (.fin x, .fin y, .fin f) ∧
      s.out = (.fin y, .fin x, .fin f) := by
    intro n
    induction n with
    | zero => simp [run, step, init, hx, hy, hf]
    | succ n ih =>
      have e : run (List.replicate (n + 1 + 1) p) = step (run (List.replicate (n + 1) p)) p := by
        rw [List.replicate_succ', run, List.foldl_append]; rfl
      obtain ⟨h1, h2, h3, h4, -, -⟩ := ih
      rw [e]
      have hl : ∀ a v : ℝ, lowpass a (.fin v) (.fin v) = .fin v := by
        intro a v; simp only [lowpass, scale, add, XVal.fin.injEq]; ring
      simp [step, h1, h2, h3, h4, hx, hy, hf, hl]
  exact (key n).2.2.2.2

/-- **C94.** The filter: after one picture at `x₀, y₀, φ₀`, each further picture at `x, y, φ` brings the filtered values nearer by 5 % for the position and by
10 % for the angle, whatever their number. -/
theorem filter_step (q p : Picture) (x0 y0 f0 x y f : ℝ) (hx0 : xS q.dots = .fin x0) (hy0 : yS q.dots = .fin y0) (hf0 : q.phi = .fin f0)
    (hx : xS p.dots = .fin x) (hy : yS p.dots = .fin y) (hf : p.phi = .fin f) (n : Nat) :
    (run (q :: List.replicate n p)).out =
      (.fin (y + (y0 - y) * 0.95 ^ n), .fin (x + (x0 - x) * 0.95 ^ n), .fin (f + (f0 - f) * 0.9 ^ n)) := by
  have key : ∀ n, let s := run (q :: List.replicate n p)
      s.first = false ∧ s.xPrev = .fin (x + (x0 - x) * 0.95 ^ n) ∧ s.yPrev = .fin (y + (y0 - y) * 0.95 ^ n) ∧ s.phiPrev = .fin (f + (f0 - f) * 0.9 ^ n) ∧
      s.out = (s.yPrev, s.xPrev, s.phiPrev) := by
    intro n
    induction n with
    | zero => simp [run, step, init, hx0, hy0, hf0]
    | succ n ih =>
      have e : run (q :: List.replicate (n + 1) p) = step (run (q :: List.replicate n p)) p := by
        rw [List.replicate_succ', ← List.cons_append, run, List.foldl_append]; rfl
      obtain ⟨h1, h2, h3, h4, -⟩ := ih
      rw [e]
      simp only [step, h1, h2, h3, h4, hx, hy, hf, lowpass, scale, add, XVal.fin.injEq, true_and, and_true, Bool.false_eq_true, if_false]
      refine ⟨?_, ?_, ?_⟩ <;> ring
  obtain ⟨-, h2, h3, h4, h5⟩ := key n
  rw [h5, h2, h3, h4]

/-- The angle turns from 0 to 1 at once; after three pictures 27.1 % of it are seen. -/
example : (run (square :: List.replicate 3 { square with phi := .fin 1 })).out.2.2 = .fin 0.271 := by
  obtain ⟨x, y, hx, hy, -, -⟩ := square_position
  rw [filter_step square { square with phi := .fin 1 } x y 0 x y 1 hx hy rfl hx hy rfl 3]
  norm_num

/-- The square at rest: raw and filtered position differ. -/
example (n : Nat) : (run (List.replicate (n + 1) square)).out ≠ (run (List.replicate (n + 1) square)).raw := by
  obtain ⟨x, y, hx, hy, h1, -⟩ := square_position
  obtain ⟨e1, e2⟩ := swapped_violated square x y 0 hx hy rfl n
  rw [e1, e2]
  intro h
  simp only [Prod.mk.injEq, XVal.fin.injEq] at h
  linarith [h.1]

/-- **C94, violated.** A single picture in which the four blocks coincide (for instance an empty buffer) makes the filtered position
infinite or not a number for ever: no later picture repairs it. -/
theorem poisoned_violated (l m : List Picture) (p : Picture) (h : ∀ i, p.dots i = p.dots 0) :
    (run (l ++ p :: m)).out.1.isFinite = false ∧ (run (l ++ p :: m)).out.2.1.isFinite = false := by
  have h0 : distCam p.dots = 0 := by
    unfold distCam
    rw [h (ixMax _), h (ixMin _), h (iyMax _), h (iyMin _)]
    simp [dist]
  have hd : ∀ a, (div a (distCam p.dots)).isFinite = false := by
    intro a
    rw [h0]
    unfold div
    rw [if_pos rfl]
    split_ifs <;> rfl
  have hl1 : ∀ a x y, XVal.isFinite x = false → XVal.isFinite (lowpass a x y) = false := by
    intro a x y hx
    cases x <;> cases y <;> simp_all [lowpass, scale, add, XVal.isFinite]
  have hl2 : ∀ a x y, XVal.isFinite y = false → XVal.isFinite (lowpass a x y) = false := by
    intro a x y hx
    cases x <;> cases y <;> simp_all [lowpass, scale, add, XVal.isFinite]
  have key : ∀ (m : List Picture) (s : St), s.first = false → s.xPrev.isFinite = false → s.yPrev.isFinite = false →
      s.out.1 = s.yPrev → s.out.2.1 = s.xPrev →
      (m.foldl step s).out.1.isFinite = false ∧ (m.foldl step s).out.2.1.isFinite = false := by
    intro m
    induction m with
    | nil => intro s _ h2 h3 h4 h5; exact ⟨by rw [List.foldl_nil, h4]; exact h3, by rw [List.foldl_nil, h5]; exact h2⟩
    | cons q m ih =>
      intro s h1 h2 h3 _ _
      refine ih (step s q) rfl ?_ ?_ rfl rfl
      · simp only [step, h1]; exact hl2 _ _ _ h2
      · simp only [step, h1]; exact hl2 _ _ _ h3
  rw [run, List.foldl_append, List.foldl_cons]
  refine key m _ rfl ?_ ?_ rfl rfl
  · simp only [step]
    split
    · exact hd _
    · exact hl1 _ _ _ (hd _)
  · simp only [step]
    split
    · exact hd _
    · exact hl1 _ _ _ (hd _)

example : ∀ i, (⟨0, fun _ => (0, 0), .fin 0⟩ : Picture).dots i = (⟨0, fun _ => (0, 0), .fin 0⟩ : Picture).dots 0 := fun _ => rfl

end Verif.Hal.PixyCam
