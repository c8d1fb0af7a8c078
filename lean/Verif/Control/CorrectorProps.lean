/-
C53: the vector corrector.
-/
import Verif.Control.Corrector
import Verif.Math.InverseProps
import Mathlib.Tactic.Linarith
import Mathlib.Tactic.FieldSimp
import Mathlib.Tactic.LinearCombination
import Mathlib.Tactic.NormNum

set_option linter.unusedSectionVars false

namespace Verif.Control.Corrector
open Verif.Math
variable {K : Type} [Field K] [LinearOrder K] [IsStrictOrderedRing K]

/-! ### Specification -/

/-- The point `a + u (b - a) + v (c - a)`. -/
def bary (a b c : V K) (u v : K) : V K :=
  ⟨a.x + u * (b.x - a.x) + v * (c.x - a.x), a.y + u * (b.y - a.y) + v * (c.y - a.y)⟩

/-- The reference triangle is not degenerate. -/
def Proper (t : Tri K) : Prop :=
  (t.b.1.x - t.a.1.x) * (t.c.1.y - t.a.1.y) - (t.c.1.x - t.a.1.x) * (t.b.1.y - t.a.1.y) ≠ 0

/-- `p` lies in the reference triangle (including its border) and `q` is the point of the mapped triangle with the same position. -/
def Maps (t : Tri K) (p q : V K) : Prop :=
  ∃ u v : K, 0 ≤ u ∧ 0 ≤ v ∧ u + v ≤ 1 ∧ p = bary t.a.1 t.b.1 t.c.1 u v ∧ q = bary t.a.2 t.b.2 t.c.2 u v

/-- Sum of points. -/
def total (l : List (V K)) : V K := ⟨(l.map V.x).sum, (l.map V.y).sum⟩

/-! ### One triangle -/

theorem sides_at (p q r : V K) (g : Mat 2 2 K) :
    (sides p q r g).at' 0 0 = q.x - p.x ∧ (sides p q r g).at' 1 0 = q.y - p.y ∧
    (sides p q r g).at' 0 1 = r.x - p.x ∧ (sides p q r g).at' 1 1 = r.y - p.y := by
  simp [sides, Mat.at_set]

theorem entry_spec (g : (k : Nat) → Mat k k K) (t : Tri K) :
    (¬ Proper t → entry g t = none) ∧
    (Proper t → ∃ e, entry g t = some e ∧ (∀ u v, coords e (bary t.a.1 t.b.1 t.c.1 u v) = ⟨u, v⟩) ∧
      (∀ p, bary t.a.1 t.b.1 t.c.1 (coords e p).x (coords e p).y = p) ∧
      ∀ u v, image e ⟨u, v⟩ = bary t.a.2 t.b.2 t.c.2 u v) := by
  obtain ⟨s1, s2, s3, s4⟩ := sides_at t.a.1 t.b.1 t.c.1 (g 2)
  have hdet : Mat.det g 2 (sides t.a.1 t.b.1 t.c.1 (g 2)) =
      (t.b.1.x - t.a.1.x) * (t.c.1.y - t.a.1.y) - (t.c.1.x - t.a.1.x) * (t.b.1.y - t.a.1.y) := by
    show _ * _ - _ * _ = _
    rw [s1, s2, s3, s4]
  constructor
  · intro h
    have h0 := not_not.1 h
    unfold entry
    simp only
    rw [if_neg (by rw [hdet, h0]; simp)]
  · intro h
    have hd : (Mat.toM (sides t.a.1 t.b.1 t.c.1 (g 2))).det ≠ 0 := by
      rw [← Mat.det_eq g 1, hdet]; exact h
    obtain ⟨B, hB, h1, h2⟩ := (Mat.inverse_right_partial g 2 (sides t.a.1 t.b.1 t.c.1 (g 2)) (Or.inr ⟨1, le_rfl, rfl⟩)).1 hd
    refine ⟨{ aref := t.a.1, tiref := B, amapped := t.a.2, tmapped := sides t.a.2 t.b.2 t.c.2 (g 2) }, ?_, ?_, ?_, ?_⟩
    · unfold entry
      simp only
      rw [if_pos (by rw [hdet]; exact h), hB]
    · intro u v
      have e := fun i j => congrFun (congrFun h2 i) j
      have e00 := e 0 0; have e01 := e 0 1; have e10 := e 1 0; have e11 := e 1 1
      simp only [Matrix.mul_apply, Fin.sum_univ_two, Mat.toM, Fin.val_zero, Fin.val_one, s1, s2, s3, s4,
        Matrix.one_apply_eq, ne_eq, zero_ne_one, one_ne_zero, not_false_eq_true, Matrix.one_apply_ne] at e00 e01 e10 e11
      simp only [coords, app, bary, V.mk.injEq]
      constructor
      · linear_combination u * e00 + v * e01
      · linear_combination u * e10 + v * e11
    · intro p
      have e := fun i j => congrFun (congrFun h1 i) j
      have e00 := e 0 0; have e01 := e 0 1; have e10 := e 1 0; have e11 := e 1 1
      simp only [Matrix.mul_apply, Fin.sum_univ_two, Mat.toM, Fin.val_zero, Fin.val_one, s1, s2, s3, s4,
        Matrix.one_apply_eq, ne_eq, zero_ne_one, one_ne_zero, not_false_eq_true, Matrix.one_apply_ne] at e00 e01 e10 e11
      obtain ⟨px, py⟩ := p
      simp only [coords, app, bary, V.mk.injEq]
      constructor
      · linear_combination (px - t.a.1.x) * e00 + (py - t.a.1.y) * e01
      · linear_combination (px - t.a.1.x) * e10 + (py - t.a.1.y) * e11
    · intro u v
      obtain ⟨m1, m2, m3, m4⟩ := sides_at t.a.2 t.b.2 t.c.2 (g 2)
      simp only [image, app, bary, m1, m2, m3, m4, V.mk.injEq]
      constructor <;> ring

/-- The tests 72-74. -/
def inside (l : V K) : Prop := ¬ (l.x < 0 ∨ l.x > 1) ∧ ¬ (l.y < 0 ∨ l.y > 1) ∧ ¬ l.x + l.y > 1

theorem inside_iff (l : V K) : inside l ↔ 0 ≤ l.x ∧ 0 ≤ l.y ∧ l.x + l.y ≤ 1 := by
  unfold inside
  simp only [not_or, not_lt]
  constructor
  · rintro ⟨⟨a, b⟩, ⟨c, d⟩, e⟩; exact ⟨a, c, e⟩
  · rintro ⟨a, c, e⟩; exact ⟨⟨a, by linarith⟩, ⟨c, by linarith⟩, e⟩

theorem collect_cons (legal : Nat) (p : V K) (e : Entry K) (es : List (Entry K)) (buf : List (V K)) :
    (¬ inside (coords e p) → collect legal p (e :: es) buf = collect legal p es buf) ∧
    (inside (coords e p) → collect legal p (e :: es) buf =
      if buf.length < legal then collect legal p es (buf ++ [image e (coords e p)]) else none) := by
  constructor
  · intro h
    rw [collect]
    by_cases h1 : (coords e p).x < 0 ∨ (coords e p).x > 1
    · rw [if_pos h1]
    · by_cases h2 : (coords e p).y < 0 ∨ (coords e p).y > 1
      · rw [if_neg h1, if_pos h2]
      · by_cases h3 : (coords e p).x + (coords e p).y > 1
        · rw [if_neg h1, if_neg h2, if_pos h3]
        · exact absurd ⟨h1, h2, h3⟩ h
  · rintro ⟨h1, h2, h3⟩
    rw [collect]
    rw [if_neg h1, if_neg h2, if_neg h3]

/-- The points found are the images of `p` under the proper triangles which contain it, in the order of the file. -/
inductive Images (p : V K) : List (Tri K) → List (V K) → Prop
  | nil : Images p [] []
  | hit {t ts q qs} : Proper t → Maps t p q → Images p ts qs → Images p (t :: ts) (q :: qs)
  | skip {t ts qs} : (¬ Proper t ∨ ∀ q, ¬ Maps t p q) → Images p ts qs → Images p (t :: ts) qs

theorem collect_spec (g : (k : Nat) → Mat k k K) (legal : Nat) (p : V K) (ts : List (Tri K)) (buf : List (V K)) :
    ∃ qs, Images p ts qs ∧ qs.length ≤ (ts.filterMap (entry g)).length ∧
      (buf.length + qs.length ≤ legal → collect legal p (ts.filterMap (entry g)) buf = some (buf ++ qs)) ∧
      (legal < buf.length + qs.length → buf.length ≤ legal → collect legal p (ts.filterMap (entry g)) buf = none) := by
  induction ts generalizing buf with
  | nil => exact ⟨[], .nil, by simp, fun _ => by simp [collect], fun h h2 => by simp at h; omega⟩
  | cons t ts ih =>
    by_cases hp : Proper t
    · obtain ⟨e, he, h1, h2, h3⟩ := (entry_spec g t).2 hp
      have hf : (t :: ts).filterMap (entry g) = e :: ts.filterMap (entry g) := by rw [List.filterMap_cons, he]
      rw [hf]
      obtain ⟨c1, c2⟩ := collect_cons legal p e (ts.filterMap (entry g)) buf
      by_cases hi : inside (coords e p)
      · obtain ⟨qs, i1, i2, i3, i4⟩ := ih (buf ++ [image e (coords e p)])
        have hi' := (inside_iff _).1 hi
        refine ⟨image e (coords e p) :: qs, .hit hp ⟨_, _, hi'.1, hi'.2.1, hi'.2.2, (h2 p).symm, h3 _ _⟩ i1, ?_, ?_, ?_⟩
        · simpa using i2
        · intro hl
          simp only [List.length_cons, List.length_append, List.length_nil] at *
          rw [c2 hi, if_pos (by omega), i3 (by omega)]
          simp
        · intro hl hb
          simp only [List.length_cons, List.length_append, List.length_nil] at *
          rw [c2 hi]
          by_cases hb' : buf.length < legal
          · rw [if_pos hb', i4 (by omega) (by omega)]
          · rw [if_neg hb']
      · obtain ⟨qs, i1, i2, i3, i4⟩ := ih buf
        refine ⟨qs, .skip (Or.inr ?_) i1, ?_, ?_, ?_⟩
        · rintro q ⟨u, v, hu, hv, huv, rfl, rfl⟩
          rw [h1] at hi
          exact hi ((inside_iff _).2 ⟨hu, hv, huv⟩)
        · simp only [List.length_cons]; omega
        · intro hl; rw [c1 hi]; exact i3 hl
        · intro hl hb; rw [c1 hi]; exact i4 hl hb
    · have hf : (t :: ts).filterMap (entry g) = ts.filterMap (entry g) := by
        rw [List.filterMap_cons, (entry_spec g t).1 hp]
      rw [hf]
      obtain ⟨qs, i1, i2, i3, i4⟩ := ih buf
      exact ⟨qs, .skip (Or.inl hp) i1, i2, i3, i4⟩

theorem average_eq (l : List (V K)) : average l = ⟨(total l).x / l.length, (total l).y / l.length⟩ := by
  have h : ∀ (l : List (V K)) (o : V K), l.foldl (fun (o v : V K) => ⟨o.x + v.x, o.y + v.y⟩) o =
      ⟨o.x + (total l).x, o.y + (total l).y⟩ := by
    intro l
    induction l with
    | nil => intro o; simp [total]
    | cons a l ih => intro o; rw [List.foldl_cons, ih]; simp [total, add_assoc]
  unfold average
  simp only [h, zero_add]

/-! ### The property -/

/-- **C53 (partial)** If the elements up to the reserved capacity may be used: after a successful `load`, every point is returned unchanged if it lies in no proper triangle of the
file, and otherwise becomes the average of its images under the proper triangles in which it lies.
Missing: the standard does not allow these elements to be used, see `get_undefined`. -/
theorem corrects_partial (g : (k : Nat) → Mat k k K) (s s' : St K) (lines : List (Line K)) (h : load g s lines = (s', true)) (p : V K) :
    ∃ qs, Images p (triangles lines) qs ∧
      (qs = [] → get s'.capacity s' p = some p) ∧
      (qs ≠ [] → get s'.capacity s' p = some ⟨(total qs).x / qs.length, (total qs).y / qs.length⟩) := by
  have hs : s'.maps = (triangles lines).filterMap (entry g) ∧ s'.maps.length ≤ s'.capacity := by
    unfold load at h
    simp only at h
    split at h
    · simp only [Prod.mk.injEq, and_true] at h
      rw [← h]
      exact ⟨rfl, le_max_right _ _⟩
    · simp at h
  obtain ⟨qs, h1, h2, h3, _⟩ := collect_spec g s'.capacity p (triangles lines) []
  rw [← hs.1] at h2 h3
  have hc := h3 (by simp; omega)
  refine ⟨qs, h1, ?_, ?_⟩
  · rintro rfl
    simp [get, hc]
  · intro hq
    simp only [get, hc, List.nil_append, Option.map_some]
    rw [if_neg (by simpa using hq), average_eq]

/-- **C53** (failed load) A file without a proper triangle is rejected and changes nothing. -/
theorem load_rejects (g : (k : Nat) → Mat k k K) (s : St K) (lines : List (Line K)) :
    ((load g s lines).2 = false ↔ ∀ t ∈ triangles lines, ¬ Proper t) ∧ ((load g s lines).2 = false → (load g s lines).1 = s) := by
  have hm : ((triangles lines).filterMap (entry g)).length = 0 ↔ ∀ t ∈ triangles lines, ¬ Proper t := by
    rw [List.length_eq_zero_iff, List.filterMap_eq_nil_iff]
    constructor
    · intro h t ht hp
      obtain ⟨e, he, _⟩ := (entry_spec g t).2 hp
      rw [h t ht] at he
      exact absurd he (by simp)
    · intro h t ht
      exact (entry_spec g t).1 (h t ht)
  unfold load
  simp only
  by_cases h0 : ((triangles lines).filterMap (entry g)).length = 0
  · rw [if_neg (by omega)]
    exact ⟨⟨fun _ => hm.1 h0, fun _ => rfl⟩, fun _ => rfl⟩
  · rw [if_pos (by omega)]
    exact ⟨⟨fun h => absurd h (by simp), fun h => absurd (hm.2 h) h0⟩, fun h => absurd h (by simp)⟩

/-- **C53 violated**: the buffer of a new corrector has size 0 and `load` only reserves memory, so `get` for a point in a triangle accesses an
element which does not exist. -/
theorem get_undefined (g : (k : Nat) → Mat k k K) (s' : St K) (lines : List (Line K)) (h : load g new lines = (s', true)) (p q : V K)
    (t : Tri K) (ht : t ∈ triangles lines) (hp : Proper t) (hq : Maps t p q) : get s'.size s' p = none := by
  have hs : s'.maps = (triangles lines).filterMap (entry g) ∧ s'.size = 0 := by
    unfold load at h
    simp only at h
    split at h
    · simp only [Prod.mk.injEq, and_true] at h
      rw [← h]
      exact ⟨rfl, rfl⟩
    · simp at h
  obtain ⟨qs, h1, h2, h3, h4⟩ := collect_spec g 0 p (triangles lines) []
  have hne : 0 < qs.length := by
    clear h4 hs h h2 h3
    generalize triangles lines = ts at ht h1
    induction h1 with
    | nil => simp at ht
    | hit _ _ _ _ => simp
    | skip hn _ ih =>
      rcases List.mem_cons.1 ht with rfl | ht
      · rcases hn with hn | hn
        · exact absurd hp hn
        · exact absurd hq (hn q)
      · exact ih ht
  rw [get, hs.2, hs.1, h4 (by simpa using hne) (by simp)]
  rfl


/-- A triangle and a point in it. -/
example : Proper (⟨(⟨0, 0⟩, ⟨0, 0⟩), (⟨1, 0⟩, ⟨3, 0⟩), (⟨0, 1⟩, ⟨0, 3⟩)⟩ : Tri ℚ) ∧
    Maps (⟨(⟨0, 0⟩, ⟨0, 0⟩), (⟨1, 0⟩, ⟨3, 0⟩), (⟨0, 1⟩, ⟨0, 3⟩)⟩ : Tri ℚ) ⟨1 / 4, 1 / 2⟩ ⟨3 / 4, 3 / 2⟩ := by
  refine ⟨by norm_num [Proper], 1 / 4, 1 / 2, by norm_num, by norm_num, by norm_num, ?_, ?_⟩ <;> norm_num [bary]

/-- A point has at most one image under a proper triangle. -/
theorem maps_unique (t : Tri K) (hp : Proper t) (p q q' : V K) (h : Maps t p q) (h' : Maps t p q') : q = q' := by
  obtain ⟨u, v, _, _, _, rfl, rfl⟩ := h
  obtain ⟨u', v', _, _, _, e, rfl⟩ := h'
  have hg : (k : Nat) → Mat k k K := fun _ => ⟨fun _ => 0⟩
  obtain ⟨c, _, h1, _⟩ := (entry_spec hg t).2 hp
  have := congrArg (coords c) e
  rw [h1, h1, V.mk.injEq] at this
  rw [this.1, this.2]

example (q : V ℚ) (h : Maps ⟨(⟨0, 0⟩, ⟨0, 0⟩), (⟨1, 0⟩, ⟨3, 0⟩), (⟨0, 1⟩, ⟨0, 3⟩)⟩ ⟨1 / 4, 1 / 2⟩ q) : q = ⟨3 / 4, 3 / 2⟩ :=
  maps_unique _ (by norm_num [Proper]) _ _ _ h
    ⟨1 / 4, 1 / 2, by norm_num, by norm_num, by norm_num, by norm_num [bary], by norm_num [bary]⟩

/-- **C53** (vertices) The vertices of a triangle are mapped to their counterparts. -/
theorem maps_vertices (t : Tri K) : Maps t t.a.1 t.a.2 ∧ Maps t t.b.1 t.b.2 ∧ Maps t t.c.1 t.c.2 := by
  refine ⟨⟨0, 0, le_rfl, le_rfl, by simp, ?_, ?_⟩, ⟨1, 0, by simp, le_rfl, by simp, ?_, ?_⟩, ⟨0, 1, le_rfl, by simp, by simp, ?_, ?_⟩⟩ <;>
  simp [bary]

theorem images_none (p : V K) (ts : List (Tri K)) (qs : List (V K)) (h : ∀ t ∈ ts, Proper t → ∀ q, ¬ Maps t p q) (hi : Images p ts qs) : qs = [] := by
  induction hi with
  | nil => rfl
  | hit h1 h2 _ _ => exact absurd h2 (h _ (List.mem_cons_self ..) h1 _)
  | skip _ _ ih => exact ih fun t ht => h t (List.mem_cons_of_mem _ ht)

theorem images_one (p q : V K) (pre post : List (Tri K)) (t : Tri K) (hp : Proper t) (hq : Maps t p q)
    (h : ∀ t ∈ pre ++ post, Proper t → ∀ q, ¬ Maps t p q) (qs : List (V K)) (hi : Images p (pre ++ t :: post) qs) : qs = [q] := by
  induction pre with
  | nil =>
    cases hi with
    | hit _ h2 h3 => rw [images_none p post _ h h3, maps_unique t hp _ _ _ h2 hq]
    | skip h1 _ =>
      rcases h1 with h1 | h1
      · exact absurd hp h1
      · exact absurd hq (h1 q)
  | cons t' pre ih =>
    cases hi with
    | hit h1 h2 _ => exact absurd h2 (h t' (List.mem_cons_self ..) h1 _)
    | skip _ h2 => exact ih (fun t ht => h t (List.mem_cons_of_mem _ ht)) h2

/-- **C53 (partial)** (one triangle) A point which lies in exactly one proper triangle, for instance (`maps_vertices`) a vertex of only one, becomes its image under it.  Missing: see `corrects_partial`. -/
theorem corrects_one_partial (g : (k : Nat) → Mat k k K) (s s' : St K) (lines : List (Line K)) (h : load g s lines = (s', true)) (p q : V K)
    (pre post : List (Tri K)) (t : Tri K) (hl : triangles lines = pre ++ t :: post) (hp : Proper t) (hq : Maps t p q)
    (ho : ∀ t ∈ pre ++ post, Proper t → ∀ q, ¬ Maps t p q) : get s'.capacity s' p = some q := by
  obtain ⟨qs, h1, _, h3⟩ := corrects_partial g s s' lines h p
  rw [hl] at h1
  obtain rfl := images_one p q pre post t hp hq ho qs h1
  rw [h3 (by simp)]
  simp [total]


/-- The second triangle of two contains the point, the first does not. -/
example : let t : Tri ℚ := ⟨(⟨1, 0⟩, ⟨3, 0⟩), (⟨1, 1⟩, ⟨5, 5⟩), (⟨0, 1⟩, ⟨0, 3⟩)⟩
    let t0 : Tri ℚ := ⟨(⟨0, 0⟩, ⟨0, 0⟩), (⟨1, 0⟩, ⟨3, 0⟩), (⟨0, 1⟩, ⟨0, 3⟩)⟩
    Proper t ∧ Maps t ⟨1, 1⟩ ⟨5, 5⟩ ∧ ∀ q, ¬ Maps t0 ⟨1, 1⟩ q := by
  refine ⟨by norm_num [Proper], ⟨1, 0, by norm_num, by norm_num, by norm_num, ?_, ?_⟩, ?_⟩
  · norm_num [bary]
  · norm_num [bary]
  · rintro q ⟨u, v, hu, hv, huv, hp, -⟩
    simp only [bary, V.mk.injEq] at hp
    obtain ⟨h1, h2⟩ := hp
    norm_num at h1 h2
    linarith

/-- The vertices of a triangle, in a given order. -/
def verts (t : Tri K) : List (Line K) := [t.a, t.b, t.c]

/-- **C53** (shared edges) If two proper triangles of the file share two lines (reference and mapped points), then every point of the common edge has the same image under both. -/
theorem shared_edge (t t' : Tri K) (hp : Proper t) (hp' : Proper t') (l m : Line K) (hl : l ∈ verts t) (hm : m ∈ verts t)
    (hl' : l ∈ verts t') (hm' : m ∈ verts t') (w : K) (h0 : 0 ≤ w) (h1 : w ≤ 1) (q q' : V K)
    (h : Maps t (bary l.1 m.1 m.1 w 0) q) (h' : Maps t' (bary l.1 m.1 m.1 w 0) q') : q = q' ∧ q = bary l.2 m.2 m.2 w 0 := by
  have key : ∀ (t : Tri K), Proper t → l ∈ verts t → m ∈ verts t → ∀ q, Maps t (bary l.1 m.1 m.1 w 0) q → q = bary l.2 m.2 m.2 w 0 := by
    intro t hp hl hm q hq
    refine maps_unique t hp _ _ _ hq ?_
    have hw : 0 ≤ 1 - w := by linarith
    simp only [verts, List.mem_cons, List.not_mem_nil, or_false] at hl hm
    rcases hl with rfl | rfl | rfl <;> rcases hm with rfl | rfl | rfl
    · exact ⟨0, 0, le_rfl, le_rfl, by simp, by simp [bary], by simp [bary]⟩
    · exact ⟨w, 0, h0, le_rfl, by simpa using h1, by simp [bary], by simp [bary]⟩
    · exact ⟨0, w, le_rfl, h0, by simpa using h1, by simp [bary], by simp [bary]⟩
    · exact ⟨1 - w, 0, hw, le_rfl, by linarith, by simp only [bary, V.mk.injEq]; constructor <;> ring, by simp only [bary, V.mk.injEq]; constructor <;> ring⟩
    · exact ⟨1, 0, by simp, le_rfl, by simp, by simp [bary], by simp [bary]⟩
    · exact ⟨1 - w, w, hw, h0, by linarith, by simp only [bary, V.mk.injEq]; constructor <;> ring, by simp only [bary, V.mk.injEq]; constructor <;> ring⟩
    · exact ⟨0, 1 - w, le_rfl, hw, by linarith, by simp only [bary, V.mk.injEq]; constructor <;> ring, by simp only [bary, V.mk.injEq]; constructor <;> ring⟩
    · exact ⟨w, 1 - w, h0, hw, by linarith, by simp only [bary, V.mk.injEq]; constructor <;> ring, by simp only [bary, V.mk.injEq]; constructor <;> ring⟩
    · exact ⟨0, 1, le_rfl, by simp, by simp, by simp [bary], by simp [bary]⟩
  have e := key t hp hl hm q h
  have e' := key t' hp' hl' hm' q' h'
  exact ⟨e.trans e'.symm, e⟩

/-- Non-vacuity: two triangles sharing an edge; the point (1/2, 1/2) lies on it and is mapped to (3/2, 3/2); the point (2, 2) is outside. -/
example : let lines : List (Line ℚ) := [(⟨0, 0⟩, ⟨0, 0⟩), (⟨1, 0⟩, ⟨3, 0⟩), (⟨0, 1⟩, ⟨0, 3⟩), (⟨1, 0⟩, ⟨3, 0⟩), (⟨1, 1⟩, ⟨5, 5⟩), (⟨0, 1⟩, ⟨0, 3⟩)]
    let s := (load (fun _ => ⟨fun _ => 7⟩) new lines).1
    (load (fun _ => ⟨fun _ => 7⟩) new lines).2 = true ∧ get s.capacity s ⟨1 / 2, 1 / 2⟩ = some ⟨3 / 2, 3 / 2⟩ ∧
    get s.capacity s ⟨2, 2⟩ = some ⟨2, 2⟩ ∧ get s.size s ⟨1 / 2, 1 / 2⟩ = none := by
  decide +kernel

end Verif.Control.Corrector
