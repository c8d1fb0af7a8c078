/-
C38: the constant-acceleration planner ends exactly at the target and respects its limits.
-/
import Mathlib.Tactic.ByContra
import Verif.Planner.ConstAcc
import Mathlib.Tactic.Linarith
import Mathlib.Tactic.FieldSimp
import Mathlib.Tactic.Ring
import Mathlib.Tactic.Positivity
import Mathlib.Tactic.NormNum

set_option linter.unusedSectionVars false

namespace Verif.Planner.ConstAcc
variable {n : Nat}

/-! ### One run -/

/-- A fold in which every element only writes its own row. -/
theorem fold_put (f : Fin (n + 1) → Y) (g : St n → Fin (n + 1) → St n) (s : St n)
    (l : List (Fin (n + 1))) (hg : ∀ (L : Fin (n + 1) → Y), ∀ i ∈ l, g { s with last := L } i = { s with last := Function.update L i (f i) }) :
    l.foldl g s = { s with last := fun i => if i ∈ l then f i else s.last i } := by
  suffices h : ∀ (L : Fin (n + 1) → Y), l.foldl g { s with last := L } =
      { s with last := fun i => if i ∈ l then f i else L i } by exact h s.last
  induction l with
  | nil => intro L; simp
  | cons a l ih =>
    intro L
    rw [List.foldl_cons, hg L a (List.mem_cons_self ..), ih (fun L i hi => hg L i (List.mem_cons_of_mem _ hi))]
    congr 1
    funext i
    by_cases hi : i ∈ l
    · simp [hi]
    · by_cases ha : i = a
      · subst ha; simp [hi]
      · simp [hi, ha]

theorem finRange_split : List.finRange (n + 1) = (List.finRange n).map Fin.castSucc ++ [Fin.last n] := by
  rw [List.finRange_succ_last]

theorem mem_front (i : Fin (n + 1)) : i ∈ (List.finRange n).map Fin.castSucc ↔ i.val ≠ n := by
  simp only [List.mem_map, List.mem_finRange, true_and]
  constructor
  · rintro ⟨j, rfl⟩
    have := j.2
    simp only [Fin.val_castSucc]
    omega
  · intro h
    exact ⟨⟨i.val, by have := i.2; omega⟩, rfl⟩

/-- A fold in which all elements except the last only write their rows, and the last one possibly also switches. -/
theorem fold_all (f : Fin (n + 1) → Y) (h : St n → St n) (s : St n)
    (hg : ∀ (L : Fin (n + 1) → Y) (i : Fin (n + 1)), i.val ≠ n → elem { s with last := L } i = { s with last := Function.update L i (f i) })
    (hl : ∀ L : Fin (n + 1) → Y, elem { s with last := L } (Fin.last n) = h { s with last := Function.update L (Fin.last n) (f (Fin.last n)) }) :
    (List.finRange (n + 1)).foldl elem s = h { s with last := f } := by
  rw [finRange_split, List.foldl_append, fold_put f elem s _ (fun L i hi => hg L i ((mem_front i).1 hi)),
    List.foldl_cons, List.foldl_nil, hl]
  congr 2
  funext i
  by_cases hi : i = Fin.last n
  · subst hi; simp
  · rw [Function.update_of_ne hi, if_pos]
    rw [mem_front]
    intro hc
    exact hi (Fin.ext hc)

/-- Values of the three phases. -/
def ph1 (c : Coef n) (t : ℝ) (i : Fin (n + 1)) : Y := ⟨c.a1p i * t ^ 2 + c.c1p i, c.b1v i * t, c.c1a i⟩
def ph2 (c : Coef n) (t : ℝ) (i : Fin (n + 1)) : Y := ⟨c.b2p i * t + c.c2p i, c.c2v i, c.c2a i⟩
def ph3 (c : Coef n) (t : ℝ) (i : Fin (n + 1)) : Y :=
  ⟨c.a3p i * t ^ 2 + c.b3p i * t + c.c3p i, c.b3v i * t + c.c3v i, c.c3a i⟩

theorem run1 (dt : ℝ) (s : St n) (hf : s.finished = false) (hr : s.range = 1) (ht : s.t + dt ≤ s.c.dT1) :
    run dt s = if |s.t + dt - s.c.dT1| < eps then
        { s with last := ph1 s.c (s.t + dt), range := 2, t := 0 }
      else { s with last := ph1 s.c (s.t + dt), t := s.t + dt } := by
  unfold run
  simp only [hf, Bool.false_eq_true, if_false]
  by_cases he : |s.t + dt - s.c.dT1| < eps
  · rw [fold_all (ph1 s.c (s.t + dt)) (fun s => { s with range := 2, t := 0 }), if_pos he]
    · intro L i hi
      simp [elem, hr, ht, hi, St.put, ph1]
    · intro L
      simp [elem, hr, ht, he, St.put, ph1]
  · rw [fold_all (ph1 s.c (s.t + dt)) (fun s => s), if_neg he]
    · intro L i hi
      simp [elem, hr, ht, hi, St.put, ph1]
    · intro L
      simp [elem, hr, ht, he, St.put, ph1]

theorem run2 (dt : ℝ) (s : St n) (hf : s.finished = false) (hr : s.range = 2) (ht : s.t + dt ≤ s.c.dT2)
    (h2 : eps ≤ s.c.dT2) :
    run dt s = if |s.t + dt - s.c.dT2| < eps then
        { s with last := ph2 s.c (s.t + dt), range := 3, t := 0 }
      else { s with last := ph2 s.c (s.t + dt), t := s.t + dt } := by
  unfold run
  simp only [hf, Bool.false_eq_true, if_false]
  have h2' : ¬ s.c.dT2 < eps := not_lt.2 h2
  by_cases he : |s.t + dt - s.c.dT2| < eps
  · rw [fold_all (ph2 s.c (s.t + dt)) (fun s => { s with range := 3, t := 0 }), if_pos he]
    · intro L i hi
      simp [elem, hr, ht, hi, St.put, ph2, h2']
    · intro L
      simp [elem, hr, ht, he, St.put, ph2]
  · rw [fold_all (ph2 s.c (s.t + dt)) (fun s => s), if_neg he]
    · intro L i hi
      simp [elem, hr, ht, hi, St.put, ph2, h2']
    · intro L
      simp [elem, hr, ht, he, St.put, ph2, h2']

theorem run3 (dt : ℝ) (s : St n) (hf : s.finished = false) (hr : s.range = 3) (ht : s.t + dt ≤ s.c.dT3) :
    run dt s = if |s.t + dt - s.c.dT3| < eps then
        { s with last := ph3 s.c (s.t + dt), range := 4, t := 0 }
      else { s with last := ph3 s.c (s.t + dt), t := s.t + dt } := by
  unfold run
  simp only [hf, Bool.false_eq_true, if_false]
  by_cases he : |s.t + dt - s.c.dT3| < eps
  · rw [fold_all (ph3 s.c (s.t + dt)) (fun s => { s with range := 4, t := 0 }), if_pos he]
    · intro L i hi
      simp [elem, hr, ht, hi, St.put, ph3]
    · intro L
      simp [elem, hr, ht, he, St.put, ph3]
  · rw [fold_all (ph3 s.c (s.t + dt)) (fun s => s), if_neg he]
    · intro L i hi
      simp [elem, hr, ht, hi, St.put, ph3]
    · intro L
      simp [elem, hr, ht, he, St.put, ph3]

/-- The last run. -/
theorem run4 (dt : ℝ) (s : St n) (hf : s.finished = false) (hr : s.range = 4) :
    run dt s = { s with last := fun i => ⟨s.endPos i, 0, 0⟩, t := s.t + dt, finished := true } := by
  unfold run
  simp only [hf, Bool.false_eq_true, if_false]
  rw [List.finRange_succ, List.foldl_cons]
  have h0 : elem { s with t := s.t + dt } (0 : Fin (n + 1)) =
      { s with last := Function.update s.last 0 ⟨s.endPos 0, 0, 0⟩, t := s.t + dt, finished := true } := by
    simp [elem, hr, St.put, hf]
  rw [show ({ finished := false, range := s.range, t := s.t + dt, c := s.c, endPos := s.endPos, last := s.last } : St n) =
    { s with t := s.t + dt } by rw [← hf], h0, fold_put (fun i => (⟨s.endPos i, 0, 0⟩ : Y))]
  · congr 1
    funext i
    by_cases hi : i = 0
    · subst hi; simp
    · rw [if_pos]
      simp only [List.mem_map, List.mem_finRange, true_and]
      exact ⟨i.pred hi, Fin.succ_pred i hi⟩
  · intro L i _
    simp [elem, hr, St.put]

/-- The run of an empty middle phase: the first element keeps its values, the others are those of the third phase at time
zero. -/
theorem run2_hold (dt : ℝ) (s : St n) (hf : s.finished = false) (hr : s.range = 2) (ht : s.c.dT2 < s.t + dt)
    (h2 : s.c.dT2 < eps) (h3 : eps ≤ s.c.dT3) (he : 0 < eps) :
    run dt s = { s with last := fun i => if i = 0 then s.last i else ph3 s.c 0 i, range := 3, t := 0 } := by
  unfold run
  simp only [hf, Bool.false_eq_true, if_false]
  rw [List.finRange_succ, List.foldl_cons]
  have h0 : elem { s with t := s.t + dt } (0 : Fin (n + 1)) = { s with range := 3, t := 0 } := by
    simp [elem, hr, h2, not_le.2 ht]
  rw [show ({ finished := false, range := s.range, t := s.t + dt, c := s.c, endPos := s.endPos, last := s.last } : St n) =
    { s with t := s.t + dt } by rw [← hf], h0, fold_put (fun i => ph3 s.c 0 i)]
  · rw [← hf]
    congr 1
    funext i
    by_cases hi : i = 0
    · subst hi; simp
    · rw [if_pos, if_neg hi]
      simp only [List.mem_map, List.mem_finRange, true_and]
      exact ⟨i.pred hi, Fin.succ_pred i hi⟩
  · intro L i _
    have h3' : ¬ |(0:ℝ) - s.c.dT3| < eps := by
      rw [zero_sub, abs_neg, abs_of_nonneg (le_trans he.le h3)]
      exact not_lt.2 h3
    have h3'' : (0:ℝ) ≤ s.c.dT3 := le_trans he.le h3
    simp only [elem, St.put, h3'', if_true, h3', false_and, if_false]
    simp [ph3]

theorem run_finished (dt : ℝ) (s : St n) (hf : s.finished = true) : run dt s = { s with t := s.t + dt } := by
  unfold run
  simp [hf]

/-! ### Whole phases -/

theorem eps_pos : (0:ℝ) < eps := by unfold eps; norm_num

theorem runs_add (dt : ℝ) (k m : Nat) (s : St n) : runs dt (k + m) s = runs dt k (runs dt m s) := by
  induction k with
  | zero => simp [runs]
  | succ k ih => rw [Nat.succ_add, runs, ih, runs]

/-- The end of a phase of `m` samples is met exactly at sample `m`. -/
theorem tick {dt : ℝ} (hdt : eps ≤ dt) (k m : Nat) (hk : k + 1 ≤ m) :
    (|(k:ℝ) * dt + dt - m * dt| < eps ↔ k + 1 = m) ∧ (k:ℝ) * dt + dt ≤ m * dt := by
  have he := eps_pos
  have hpos : 0 < dt := lt_of_lt_of_le he hdt
  have e : (k:ℝ) * dt + dt - m * dt = -(((m:ℝ) - ((k:ℝ) + 1)) * dt) := by ring
  have hm : ((k:ℝ) + 1) ≤ m := by exact_mod_cast hk
  constructor
  · rw [e, abs_neg, abs_of_nonneg (mul_nonneg (by linarith) hpos.le)]
    constructor
    · intro h
      by_contra hne
      have : (k:ℝ) + 1 + 1 ≤ m := by exact_mod_cast (by omega : k + 1 + 1 ≤ m)
      nlinarith
    · intro h
      rw [← h]
      push_cast
      simpa using he
  · nlinarith

theorem phase1 (dt : ℝ) (hdt : eps ≤ dt) (s : St n) (m : Nat) (hf : s.finished = false) (hr : s.range = 1)
    (ht : s.t = 0) (hm : s.c.dT1 = m * dt) (k : Nat) (hk : k + 1 ≤ m) :
    runs dt (k + 1) s = { s with last := ph1 s.c (((k + 1 : Nat) : ℝ) * dt), range := if k + 1 = m then 2 else 1,
                                  t := if k + 1 = m then 0 else ((k + 1 : Nat) : ℝ) * dt } := by
  induction k with
  | zero =>
    obtain ⟨h1, h2⟩ := tick hdt 0 m hk
    simp only [Nat.cast_zero, zero_mul, zero_add] at h1 h2
    rw [runs, runs, run1 dt s hf hr (by rw [ht, hm, zero_add]; exact h2), ht, hm, zero_add]
    by_cases h : 1 = m
    · subst h; rw [if_pos (h1.2 rfl)]; simp
    · rw [if_neg (fun hc => h (h1.1 hc))]; simp [h, hr]
  | succ k ih =>
    have hk' : k + 1 ≤ m := by omega
    have hne : k + 1 ≠ m := by omega
    obtain ⟨h1, h2⟩ := tick hdt (k + 1) m hk
    rw [runs, ih hk', if_neg hne, if_neg hne]
    have e : ((k + 1 + 1 : Nat) : ℝ) * dt = ((k + 1 : Nat) : ℝ) * dt + dt := by push_cast; ring
    have hrun := run1 dt { s with last := ph1 s.c (((k + 1 : Nat) : ℝ) * dt), range := 1, t := ((k + 1 : Nat) : ℝ) * dt }
      hf rfl (by simpa only [hm] using h2)
    rw [hrun, e]
    simp only [hm]
    by_cases h : k + 1 + 1 = m
    · rw [if_pos (h1.2 h)]; simp [h]
    · rw [if_neg (fun hc => h (h1.1 hc))]; simp [h]

theorem phase2 (dt : ℝ) (hdt : eps ≤ dt) (s : St n) (m : Nat) (hf : s.finished = false) (hr : s.range = 2)
    (ht : s.t = 0) (hm : s.c.dT2 = m * dt) (k : Nat) (hk : k + 1 ≤ m) :
    runs dt (k + 1) s = { s with last := ph2 s.c (((k + 1 : Nat) : ℝ) * dt), range := if k + 1 = m then 3 else 2,
                                  t := if k + 1 = m then 0 else ((k + 1 : Nat) : ℝ) * dt } := by
  have hdT : eps ≤ s.c.dT2 := by
    rw [hm]
    have : (1:ℝ) ≤ m := by exact_mod_cast (by omega : 1 ≤ m)
    have he := eps_pos
    nlinarith
  induction k with
  | zero =>
    obtain ⟨h1, h2⟩ := tick hdt 0 m hk
    simp only [Nat.cast_zero, zero_mul, zero_add] at h1 h2
    rw [runs, runs, run2 dt s hf hr (by rw [ht, hm, zero_add]; exact h2) hdT, ht, hm, zero_add]
    by_cases h : 1 = m
    · subst h; rw [if_pos (h1.2 rfl)]; simp
    · rw [if_neg (fun hc => h (h1.1 hc))]; simp [h, hr]
  | succ k ih =>
    have hk' : k + 1 ≤ m := by omega
    have hne : k + 1 ≠ m := by omega
    obtain ⟨h1, h2⟩ := tick hdt (k + 1) m hk
    rw [runs, ih hk', if_neg hne, if_neg hne]
    have e : ((k + 1 + 1 : Nat) : ℝ) * dt = ((k + 1 : Nat) : ℝ) * dt + dt := by push_cast; ring
    have hrun := run2 dt { s with last := ph2 s.c (((k + 1 : Nat) : ℝ) * dt), range := 2, t := ((k + 1 : Nat) : ℝ) * dt }
      hf rfl (by simpa only [hm] using h2) hdT
    rw [hrun, e]
    simp only [hm]
    by_cases h : k + 1 + 1 = m
    · rw [if_pos (h1.2 h)]; simp [h]
    · rw [if_neg (fun hc => h (h1.1 hc))]; simp [h]

theorem phase3 (dt : ℝ) (hdt : eps ≤ dt) (s : St n) (m : Nat) (hf : s.finished = false) (hr : s.range = 3)
    (ht : s.t = 0) (hm : s.c.dT3 = m * dt) (k : Nat) (hk : k + 1 ≤ m) :
    runs dt (k + 1) s = { s with last := ph3 s.c (((k + 1 : Nat) : ℝ) * dt), range := if k + 1 = m then 4 else 3,
                                  t := if k + 1 = m then 0 else ((k + 1 : Nat) : ℝ) * dt } := by
  induction k with
  | zero =>
    obtain ⟨h1, h2⟩ := tick hdt 0 m hk
    simp only [Nat.cast_zero, zero_mul, zero_add] at h1 h2
    rw [runs, runs, run3 dt s hf hr (by rw [ht, hm, zero_add]; exact h2), ht, hm, zero_add]
    by_cases h : 1 = m
    · subst h; rw [if_pos (h1.2 rfl)]; simp
    · rw [if_neg (fun hc => h (h1.1 hc))]; simp [h, hr]
  | succ k ih =>
    have hk' : k + 1 ≤ m := by omega
    have hne : k + 1 ≠ m := by omega
    obtain ⟨h1, h2⟩ := tick hdt (k + 1) m hk
    rw [runs, ih hk', if_neg hne, if_neg hne]
    have e : ((k + 1 + 1 : Nat) : ℝ) * dt = ((k + 1 : Nat) : ℝ) * dt + dt := by push_cast; ring
    have hrun := run3 dt { s with last := ph3 s.c (((k + 1 : Nat) : ℝ) * dt), range := 3, t := ((k + 1 : Nat) : ℝ) * dt }
      hf rfl (by simpa only [hm] using h2)
    rw [hrun, e]
    simp only [hm]
    by_cases h : k + 1 + 1 = m
    · rw [if_pos (h1.2 h)]; simp [h]
    · rw [if_neg (fun hc => h (h1.1 hc))]; simp [h]

/-! ### The normalised limits -/

theorem minNorm_le (lim d : Vec n) (i : Fin (n + 1)) : minNorm lim d ≤ norm1 (lim i) (d i) := by
  unfold minNorm
  have h : ∀ (l : List (Fin (n + 1))) (m : WithTop ℝ),
      l.foldl (fun m i => if norm1 (lim i) (d i) < m then norm1 (lim i) (d i) else m) m ≤ m ∧
      ∀ i ∈ l, l.foldl (fun m i => if norm1 (lim i) (d i) < m then norm1 (lim i) (d i) else m) m ≤ norm1 (lim i) (d i) := by
    intro l
    induction l with
    | nil => intro m; simp
    | cons a l ih =>
      intro m
      rw [List.foldl_cons]
      obtain ⟨h1, h2⟩ := ih (if norm1 (lim a) (d a) < m then norm1 (lim a) (d a) else m)
      have h3 : (if norm1 (lim a) (d a) < m then norm1 (lim a) (d a) else m) ≤ m := by
        split
        · rename_i h; exact h.le
        · exact le_refl _
      have h4 : (if norm1 (lim a) (d a) < m then norm1 (lim a) (d a) else m) ≤ norm1 (lim a) (d a) := by
        split
        · exact le_refl _
        · rename_i h; exact not_lt.1 h
      refine ⟨h1.trans h3, ?_⟩
      intro i hi
      rcases List.mem_cons.1 hi with rfl | hi
      · exact h1.trans h4
      · exact h2 i hi
  exact (h _ _).2 i (List.mem_finRange i)

theorem minNorm_mem (lim d : Vec n) : ∃ i, minNorm lim d = norm1 (lim i) (d i) := by
  unfold minNorm
  have h : ∀ (l : List (Fin (n + 1))) (m : WithTop ℝ), (∃ i, m = norm1 (lim i) (d i)) →
      ∃ i, l.foldl (fun m i => if norm1 (lim i) (d i) < m then norm1 (lim i) (d i) else m) m = norm1 (lim i) (d i) := by
    intro l
    induction l with
    | nil => intro m hm; exact hm
    | cons a l ih =>
      intro m hm
      rw [List.foldl_cons]
      apply ih
      split
      · exact ⟨a, rfl⟩
      · exact hm
  exact h _ _ ⟨0, rfl⟩

/-- For positive limits and a distance which is not zero the normalised limit is positive, and no element exceeds its
limit when its distance is multiplied with it. -/
theorem minNorm_spec (lim d : Vec n) (hl : ∀ i, 0 < lim i) (hd : ∃ i, d i ≠ 0) :
    0 < (minNorm lim d).untopD 0 ∧ ∀ i, (minNorm lim d).untopD 0 * |d i| ≤ lim i := by
  obtain ⟨j, hj⟩ := hd
  obtain ⟨i0, h0⟩ := minNorm_mem lim d
  have hne : d i0 ≠ 0 := by
    intro hc
    have := minNorm_le lim d j
    rw [h0] at this
    simp [norm1, hc, hj] at this
  have hv : minNorm lim d = ((|lim i0 / d i0| : ℝ) : WithTop ℝ) := by rw [h0, norm1, if_neg hne]
  rw [hv, WithTop.untopD_coe]
  refine ⟨abs_pos.2 (div_ne_zero (hl i0).ne' hne), ?_⟩
  intro i
  by_cases hi : d i = 0
  · rw [hi]; simpa using (hl i).le
  · have := minNorm_le lim d i
    rw [hv, norm1, if_neg hi, WithTop.coe_le_coe] at this
    have hp : 0 < |d i| := abs_pos.2 hi
    calc |lim i0 / d i0| * |d i| ≤ |lim i / d i| * |d i| := by nlinarith
      _ = lim i := by rw [abs_div, abs_of_pos (hl i)]; field_simp

/-! ### Times and velocities -/

theorem ceilTo_spec {dt x : ℝ} (hdt : 0 < dt) (hx : 0 ≤ x) : ∃ m : Nat, ceilTo dt x = m * dt ∧ x ≤ m * dt ∧
    (0 < x → 1 ≤ m) ∧ (x = 0 → m = 0) ∧ (m : ℝ) * dt < x + dt := by
  have h0 : 0 ≤ x / dt := div_nonneg hx hdt.le
  have hc : 0 ≤ ⌈x / dt⌉ := Int.ceil_nonneg h0
  obtain ⟨m, hm⟩ := Int.eq_ofNat_of_zero_le hc
  refine ⟨m, ?_, ?_, ?_, ?_, ?_⟩
  · unfold ceilTo; rw [hm]; simp
  · have := Int.le_ceil (x / dt)
    rw [hm] at this
    rw [div_le_iff₀ hdt] at this
    simpa using this
  · intro hp
    have : 0 < ⌈x / dt⌉ := Int.ceil_pos.2 (div_pos hp hdt)
    omega
  · intro h
    rw [h] at hm
    simp at hm
    omega
  · have := Int.ceil_lt_add_one (x / dt)
    rw [hm] at this
    have h2 : (m : ℝ) < x / dt + 1 := by simpa using this
    calc (m : ℝ) * dt < (x / dt + 1) * dt := by nlinarith
      _ = x + dt := by field_simp

/-- What the rounded times guarantee: the total distance is covered with a normalised velocity below its limit and
accelerations below theirs. -/
theorem times_spec {v a d : ℝ} (hv : 0 < v) (ha : 0 < a) (hd : 0 < d) :
    0 < (times v a d).1 ∧ 0 ≤ (times v a d).2.1 ∧ 0 < (times v a d).2.2 ∧
    ∀ x1 x2 x3 : ℝ, (times v a d).1 ≤ x1 → (times v a d).2.1 ≤ x2 → (times v a d).2.2 ≤ x3 →
      0 < 1 / (x2 + (x1 + x3) / 2) ∧ 1 / (x2 + (x1 + x3) / 2) ≤ v ∧
      1 / (x2 + (x1 + x3) / 2) / x1 ≤ a ∧ 1 / (x2 + (x1 + x3) / 2) / x3 ≤ d := by
  set w := if v > Real.sqrt (2 * (a * d) / (a + d)) then Real.sqrt (2 * (a * d) / (a + d)) else v with hw
  have hs : 0 < Real.sqrt (2 * (a * d) / (a + d)) := Real.sqrt_pos.2 (by positivity)
  have hwp : 0 < w := by rw [hw]; split <;> assumption
  have hwv : w ≤ v := by
    rw [hw]; split
    · rename_i h; exact h.le
    · exact le_refl _
  have e1 : (times v a d).1 = w / a := rfl
  have e3 : (times v a d).2.2 = w / d := rfl
  have e2 : (times v a d).2.1 = if 1 / w - (w / a + w / d) * 0.5 < 0 then 0 else 1 / w - (w / a + w / d) * 0.5 := rfl
  have h2 : 0 ≤ (times v a d).2.1 := by
    rw [e2]; split
    · exact le_refl _
    · rename_i h; exact not_lt.1 h
  have h2' : 1 / w ≤ (times v a d).2.1 + (w / a + w / d) / 2 := by
    rw [e2]; split
    · rename_i h; linarith
    · linarith
  have p1 : 0 < w / a := div_pos hwp ha
  have p3 : 0 < w / d := div_pos hwp hd
  refine ⟨e1 ▸ p1, h2, e3 ▸ p3, ?_⟩
  intro x1 x2 x3 h1 hx2 h3
  rw [e1] at h1
  rw [e3] at h3
  have hx1 : 0 < x1 := lt_of_lt_of_le p1 h1
  have hx3 : 0 < x3 := lt_of_lt_of_le p3 h3
  have hden : 1 / w ≤ x2 + (x1 + x3) / 2 := by linarith
  have hw1 : 0 < 1 / w := by positivity
  have hpos : 0 < x2 + (x1 + x3) / 2 := lt_of_lt_of_le hw1 hden
  have hle : 1 / (x2 + (x1 + x3) / 2) ≤ w := by
    rw [div_le_iff₀ hpos]
    have := mul_le_mul_of_nonneg_left hden hwp.le
    rwa [mul_one_div_cancel hwp.ne'] at this
  have hq : 0 < 1 / (x2 + (x1 + x3) / 2) := by positivity
  refine ⟨hq, hle.trans hwv, ?_, ?_⟩
  · rw [div_le_iff₀ hx1]
    rw [div_le_iff₀ ha] at h1
    linarith
  · rw [div_le_iff₀ hx3]
    rw [div_le_iff₀ hd] at h3
    linarith

/-! ### The motion after `move` -/

/-- A motion of `m1`, `m2`, `m3` samples has just been started. -/
structure Started (g : Cfg n) (s : St n) (start end_ : Vec n) (m1 m2 m3 : Nat) : Prop where
  dt : eps ≤ g.dt
  one1 : 1 ≤ m1
  one3 : 1 ≤ m3
  fin : s.finished = false
  range : s.range = 1
  t : s.t = 0
  endPos : s.endPos = end_
  c : s.c = coef (m1 * g.dt) (m2 * g.dt) (m3 * g.dt) start (fun i => end_ i - start i)

/-- Normalised velocity of the constant phase. -/
noncomputable def W (dt : ℝ) (m1 m2 m3 : Nat) : ℝ := 1 / (m2 * dt + (m1 * dt + m3 * dt) / 2)

theorem move_started (g : Cfg n) (s : St n) (start end_ : Vec n) (hdt : eps ≤ g.dt)
    (hv : ∀ i, 0 < g.velMax i) (ha : ∀ i, 0 < g.acc i) (hd : ∀ i, 0 < g.dec i)
    (hf : s.finished = true) (hne : ∃ i, end_ i ≠ start i) :
    (move g s start end_).2 = true ∧ (move g s start end_).1.last = s.last ∧
    ∃ m1 m2 m3, Started g (move g s start end_).1 start end_ m1 m2 m3 ∧
      ∀ i, W g.dt m1 m2 m3 * |end_ i - start i| ≤ g.velMax i ∧
        W g.dt m1 m2 m3 / (m1 * g.dt) * |end_ i - start i| ≤ g.acc i ∧
        W g.dt m1 m2 m3 / (m3 * g.dt) * |end_ i - start i| ≤ g.dec i := by
  have hpos : 0 < g.dt := lt_of_lt_of_le eps_pos hdt
  have hne' : ∃ i, (fun i => end_ i - start i) i ≠ 0 := by
    obtain ⟨i, hi⟩ := hne
    exact ⟨i, sub_ne_zero.2 hi⟩
  have hnz : ¬ ∀ i, end_ i - start i = 0 := by
    intro h
    obtain ⟨i, hi⟩ := hne'
    exact hi (h i)
  obtain ⟨pv, bv⟩ := minNorm_spec g.velMax (fun i => end_ i - start i) hv hne'
  obtain ⟨pa, ba⟩ := minNorm_spec g.acc (fun i => end_ i - start i) ha hne'
  obtain ⟨pd, bd⟩ := minNorm_spec g.dec (fun i => end_ i - start i) hd hne'
  obtain ⟨t1, t2, t3, tb⟩ := times_spec pv pa pd
  obtain ⟨m1, e1, l1, o1, _, _⟩ := ceilTo_spec hpos t1.le
  obtain ⟨m2, e2, l2, _, _, _⟩ := ceilTo_spec hpos t2
  obtain ⟨m3, e3, l3, o3, _, _⟩ := ceilTo_spec hpos t3.le
  obtain ⟨_, w1, w2, w3⟩ := tb _ _ _ l1 l2 l3
  have hm : move g s start end_ = ({ s with
      endPos := end_, finished := false, range := 1, t := 0,
      c := coef (m1 * g.dt) (m2 * g.dt) (m3 * g.dt) start (fun i => end_ i - start i) }, true) := by
    unfold move
    simp only [hf, Bool.not_true, Bool.false_eq_true, if_false, hnz]
    rw [← e1, ← e2, ← e3]
  rw [hm]
  refine ⟨rfl, rfl, m1, m2, m3, ⟨hdt, o1 t1, o3 t3, rfl, rfl, rfl, rfl, rfl⟩, ?_⟩
  intro i
  have habs : 0 ≤ |end_ i - start i| := abs_nonneg _
  exact ⟨(mul_le_mul_of_nonneg_right w1 habs).trans (bv i), (mul_le_mul_of_nonneg_right w2 habs).trans (ba i),
    (mul_le_mul_of_nonneg_right w3 habs).trans (bd i)⟩

section
variable {g : Cfg n} {s : St n} {start end_ : Vec n} {m1 m2 m3 : Nat}

theorem Started.after1 (h : Started g s start end_ m1 m2 m3) :
    runs g.dt m1 s = { s with last := ph1 s.c (m1 * g.dt), range := 2, t := 0 } := by
  obtain ⟨k, rfl⟩ : ∃ k, m1 = k + 1 := ⟨m1 - 1, by have := h.one1; omega⟩
  rw [phase1 g.dt h.dt s (k + 1) h.fin h.range h.t (by rw [h.c]; rfl) k (le_refl _)]
  simp

/-- Outputs in phase 1. -/
theorem Started.out1 (h : Started g s start end_ m1 m2 m3) (k : Nat) (h1 : 1 ≤ k) (hk : k ≤ m1) :
    (runs g.dt k s).finished = false ∧ (runs g.dt k s).last = ph1 s.c (k * g.dt) := by
  obtain ⟨k, rfl⟩ : ∃ j, k = j + 1 := ⟨k - 1, by omega⟩
  rw [phase1 g.dt h.dt s m1 h.fin h.range h.t (by rw [h.c]; rfl) k hk]
  exact ⟨h.fin, rfl⟩

theorem Started.out2 (h : Started g s start end_ m1 m2 m3) (k : Nat) (h1 : 1 ≤ k) (hk : k ≤ m2) :
    (runs g.dt (k + m1) s).finished = false ∧ (runs g.dt (k + m1) s).last = ph2 s.c (k * g.dt) := by
  obtain ⟨k, rfl⟩ : ∃ j, k = j + 1 := ⟨k - 1, by omega⟩
  rw [runs_add, h.after1, phase2 g.dt h.dt { s with last := ph1 s.c (m1 * g.dt), range := 2, t := 0 } m2 h.fin rfl rfl (by simp only [h.c]; rfl) k hk]
  exact ⟨h.fin, rfl⟩

theorem Started.dT3 (h : Started g s start end_ m1 m2 m3) : eps ≤ s.c.dT3 := by
  have h1 : s.c.dT3 = m3 * g.dt := by rw [h.c]; rfl
  have h2 : (1:ℝ) ≤ m3 := by exact_mod_cast h.one3
  rw [h1]
  have := h.dt
  have := eps_pos
  nlinarith

/-- With an empty middle phase one run is spent nevertheless. -/
theorem Started.hold (h : Started g s start end_ m1 0 m3) :
    runs g.dt (1 + m1) s = { s with last := fun i => if i = 0 then ph1 s.c (m1 * g.dt) i else ph3 s.c 0 i,
                                    range := 3, t := 0 } := by
  have h2 : s.c.dT2 = 0 := by rw [h.c]; simp [coef]
  have hp := lt_of_lt_of_le eps_pos h.dt
  rw [runs_add, h.after1, runs, runs]
  rw [run2_hold g.dt { s with last := ph1 s.c (m1 * g.dt), range := 2, t := 0 } h.fin rfl
    (by simp only [h2]; linarith) (by simp only [h2]; exact eps_pos) h.dT3 eps_pos]

/-- The state at the beginning of phase 3, `max m2 1` runs after phase 1. -/
theorem Started.after2 (h : Started g s start end_ m1 m2 m3) :
    ∃ L, runs g.dt (max m2 1 + m1) s = { s with last := L, range := 3, t := 0 } := by
  by_cases h0 : m2 = 0
  · subst h0
    exact ⟨_, h.hold⟩
  · obtain ⟨k, rfl⟩ : ∃ k, m2 = k + 1 := ⟨m2 - 1, by omega⟩
    refine ⟨ph2 s.c ((k + 1 : Nat) * g.dt), ?_⟩
    rw [Nat.max_eq_left (by omega), runs_add, h.after1,
      phase2 g.dt h.dt { s with last := ph1 s.c (m1 * g.dt), range := 2, t := 0 } (k + 1) h.fin rfl rfl (by simp only [h.c]; rfl) k (le_refl _)]
    simp

theorem Started.out3 (h : Started g s start end_ m1 m2 m3) (k : Nat) (h1 : 1 ≤ k) (hk : k ≤ m3) :
    (runs g.dt (k + (max m2 1 + m1)) s).finished = false ∧
    (runs g.dt (k + (max m2 1 + m1)) s).last = ph3 s.c (k * g.dt) := by
  obtain ⟨k, rfl⟩ : ∃ j, k = j + 1 := ⟨k - 1, by omega⟩
  obtain ⟨L, hL⟩ := h.after2
  rw [runs_add, hL, phase3 g.dt h.dt { s with last := L, range := 3, t := 0 } m3 h.fin rfl rfl (by simp only [h.c]; rfl) k hk]
  exact ⟨h.fin, rfl⟩

/-- Number of runs of a motion. -/
def total (m1 m2 m3 : Nat) : Nat := 1 + (m3 + (max m2 1 + m1))

theorem Started.done (h : Started g s start end_ m1 m2 m3) (k : Nat) :
    (runs g.dt (k + total m1 m2 m3) s).finished = true ∧
    (runs g.dt (k + total m1 m2 m3) s).last = fun i => ⟨end_ i, 0, 0⟩ := by
  induction k with
  | zero =>
    obtain ⟨L, hL⟩ := h.after2
    obtain ⟨k, rfl⟩ : ∃ j, m3 = j + 1 := ⟨m3 - 1, by have := h.one3; omega⟩
    rw [Nat.zero_add, total, runs_add, runs_add, hL,
      phase3 g.dt h.dt { s with last := L, range := 3, t := 0 } (k + 1) h.fin rfl rfl (by simp only [h.c]; rfl) k (le_refl _)]
    simp only [if_true]
    rw [runs, runs]
    have h4 := run4 g.dt { s with last := ph3 s.c (((k + 1 : Nat) : ℝ) * g.dt), range := 4, t := 0 } h.fin rfl
    rw [h4]
    exact ⟨rfl, by simp only [h.endPos]⟩
  | succ k ih =>
    rw [Nat.succ_add, runs, run_finished _ _ ih.1]
    exact ih

/-- While the motion lasts `finished` is false. -/
theorem Started.busy (h : Started g s start end_ m1 m2 m3) (k : Nat) (hk : k < total m1 m2 m3) :
    (runs g.dt k s).finished = false := by
  unfold total at hk
  by_cases h0 : k = 0
  · subst h0; exact h.fin
  by_cases h1 : k ≤ m1
  · exact (h.out1 k (by omega) h1).1
  by_cases h2 : k ≤ max m2 1 + m1
  · by_cases hm : m2 = 0
    · subst hm
      have : k = 1 + m1 := by omega
      subst this
      rw [h.hold]
      exact h.fin
    · have := (h.out2 (k - m1) (by omega) (by omega)).1
      rwa [show k - m1 + m1 = k by omega] at this
  · have := (h.out3 (k - (max m2 1 + m1)) (by omega) (by omega)).1
    rwa [show k - (max m2 1 + m1) + (max m2 1 + m1) = k by omega] at this

end

/-- **C38** (end) After a successful `move` the planner is busy for a finite number of runs, then it has finished with
position exactly `end`, velocity and acceleration zero, and keeps these outputs.  While it is busy a further `move` is
refused and has no effect. -/
theorem reaches_end (g : Cfg n) (s : St n) (start end_ : Vec n) (hdt : eps ≤ g.dt)
    (hv : ∀ i, 0 < g.velMax i) (ha : ∀ i, 0 < g.acc i) (hd : ∀ i, 0 < g.dec i)
    (hf : s.finished = true) (hne : ∃ i, end_ i ≠ start i) :
    (move g s start end_).2 = true ∧ ∃ N, 0 < N ∧
      (∀ k < N, (runs g.dt k (move g s start end_).1).finished = false ∧
        ∀ start' end', move g (runs g.dt k (move g s start end_).1) start' end' =
          (runs g.dt k (move g s start end_).1, false)) ∧
      ∀ k ≥ N, (runs g.dt k (move g s start end_).1).finished = true ∧
        (runs g.dt k (move g s start end_).1).last = fun i => ⟨end_ i, 0, 0⟩ := by
  obtain ⟨h1, _, m1, m2, m3, hs, _⟩ := move_started g s start end_ hdt hv ha hd hf hne
  refine ⟨h1, total m1 m2 m3, by unfold total; omega, ?_, ?_⟩
  · intro k hk
    refine ⟨hs.busy k hk, fun _ _ => ?_⟩
    unfold move
    rw [if_pos]
    simpa [move] using hs.busy k hk
  · intro k hk
    have := hs.done (k - total m1 m2 m3)
    rwa [show k - total m1 m2 m3 + total m1 m2 m3 = k by omega] at this

/-- A `move` to the start position is refused. -/
theorem move_nowhere (g : Cfg n) (s : St n) (start end_ : Vec n) (h : ∀ i, end_ i = start i) :
    (move g s start end_).2 = false ∧ (move g s start end_).1.finished = s.finished := by
  unfold move
  by_cases hf : s.finished = true
  · simp [hf, h]
  · simp only [Bool.not_eq_true] at hf
    simp [hf]

/-- `setStart` ends whatever motion there is, keeps the given outputs however often `run` is called, and the next `move(end)` is a motion from
the given position, accepted exactly if it leads somewhere. -/
theorem setStart_spec (g : Cfg n) (s : St n) (p : Fin (n + 1) → Y) (k : Nat) (end_ : Vec n) :
    (runs g.dt k (setStart s p)).finished = true ∧ (runs g.dt k (setStart s p)).last = p ∧
    moveTo g (runs g.dt k (setStart s p)) end_ = move g (runs g.dt k (setStart s p)) (fun i => (p i).pos) end_ ∧
    ((moveTo g (runs g.dt k (setStart s p)) end_).2 = true ↔ ∃ i, end_ i ≠ (p i).pos) := by
  have h : ∀ k, (runs g.dt k (setStart s p)).finished = true ∧ (runs g.dt k (setStart s p)).last = p := by
    intro k
    induction k with
    | zero => exact ⟨rfl, rfl⟩
    | succ k ih => simp only [runs]; rw [run_finished _ _ ih.1]; exact ih
  have hm : moveTo g (runs g.dt k (setStart s p)) end_ = move g (runs g.dt k (setStart s p)) (fun i => (p i).pos) end_ := by
    unfold moveTo; rw [(h k).2]
  refine ⟨(h k).1, (h k).2, hm, ?_⟩
  rw [hm]
  constructor
  · intro ht
    by_contra hc
    push Not at hc
    rw [(move_nowhere g _ _ end_ hc).1] at ht
    cases ht
  · rintro ⟨i, hi⟩
    unfold move
    rw [if_neg (by simp [(h k).1]), if_neg (fun hc => hi (sub_eq_zero.1 (hc i)))]

/-- One axis, in the middle of a motion: placed at 3 and moved to 5. -/
example (s : St 0) : (moveTo ⟨fun _ => 1, fun _ => 1, fun _ => 1, 1/10⟩ (runs (1/10) 2 (setStart { s with finished := false } fun _ => ⟨3, 0, 0⟩)) fun _ => 5).2 = true :=
  (setStart_spec ⟨fun _ => 1, fun _ => 1, fun _ => 1, 1/10⟩ { s with finished := false } (fun _ => ⟨3, 0, 0⟩) 2 fun _ => 5).2.2.2.2 ⟨0, by norm_num⟩

/-! ### The profile -/

section
variable {g : Cfg n} {s : St n} {start end_ : Vec n} {m1 m2 m3 : Nat}

theorem Started.W_pos (h : Started g s start end_ m1 m2 m3) : 0 < W g.dt m1 m2 m3 ∧
    W g.dt m1 m2 m3 * (m2 * g.dt + (m1 * g.dt + m3 * g.dt) / 2) = 1 ∧ 0 < m1 * g.dt ∧ 0 ≤ m2 * g.dt ∧ 0 < m3 * g.dt := by
  have hp := lt_of_lt_of_le eps_pos h.dt
  have o1 : (1:ℝ) ≤ m1 := by exact_mod_cast h.one1
  have o3 : (1:ℝ) ≤ m3 := by exact_mod_cast h.one3
  have o2 : (0:ℝ) ≤ m2 := by positivity
  have p1 : 0 < m1 * g.dt := by positivity
  have p3 : 0 < m3 * g.dt := by positivity
  have p2 : 0 ≤ m2 * g.dt := by positivity
  have hs : 0 < m2 * g.dt + (m1 * g.dt + m3 * g.dt) / 2 := by positivity
  refine ⟨by unfold W; positivity, by unfold W; field_simp, p1, p2, p3⟩

theorem Started.val1 (h : Started g s start end_ m1 m2 m3) (t : ℝ) (i : Fin (n + 1)) :
    ph1 s.c t i = ⟨start i + (end_ i - start i) * (W g.dt m1 m2 m3 / (m1 * g.dt) / 2 * t ^ 2),
      (end_ i - start i) * (W g.dt m1 m2 m3 / (m1 * g.dt) * t), (end_ i - start i) * (W g.dt m1 m2 m3 / (m1 * g.dt))⟩ := by
  rw [h.c]
  simp only [ph1, coef, W, Y.mk.injEq]
  refine ⟨by ring, by ring, by ring⟩

theorem Started.val2 (h : Started g s start end_ m1 m2 m3) (t : ℝ) (i : Fin (n + 1)) :
    ph2 s.c t i = ⟨start i + (end_ i - start i) * (W g.dt m1 m2 m3 * (t + m1 * g.dt / 2)),
      (end_ i - start i) * W g.dt m1 m2 m3, (end_ i - start i) * 0⟩ := by
  obtain ⟨_, _, p1, _, _⟩ := h.W_pos
  rw [h.c]
  simp only [ph2, coef, W, Y.mk.injEq]
  refine ⟨?_, by ring, by ring⟩
  field_simp
  ring

theorem Started.val3 (h : Started g s start end_ m1 m2 m3) (t : ℝ) (i : Fin (n + 1)) :
    ph3 s.c t i = ⟨start i + (end_ i - start i) * (1 - W g.dt m1 m2 m3 / (m3 * g.dt) / 2 * (m3 * g.dt - t) ^ 2),
      (end_ i - start i) * (W g.dt m1 m2 m3 / (m3 * g.dt) * (m3 * g.dt - t)),
      (end_ i - start i) * -(W g.dt m1 m2 m3 / (m3 * g.dt))⟩ := by
  obtain ⟨_, hW, p1, _, p3⟩ := h.W_pos
  have e1 : (1 : ℝ) - W g.dt m1 m2 m3 / (m3 * g.dt) / 2 * (m3 * g.dt - t) ^ 2 =
      W g.dt m1 m2 m3 * (m2 * g.dt + m1 * g.dt / 2) + W g.dt m1 m2 m3 * t - W g.dt m1 m2 m3 / (m3 * g.dt) / 2 * t ^ 2 := by
    rw [← hW]
    generalize W g.dt m1 m2 m3 = w at *
    generalize (m3:ℝ) * g.dt = x at *
    field_simp
    ring
  rw [e1, h.c]
  have e3 : W g.dt m1 m2 m3 / (m3 * g.dt) * (m3 * g.dt - t) = W g.dt m1 m2 m3 - W g.dt m1 m2 m3 / (m3 * g.dt) * t := by
    generalize (m3:ℝ) * g.dt = x at *
    field_simp
  rw [e3]
  generalize hw : W g.dt m1 m2 m3 = w
  have hw' : 1 / (m2 * g.dt + (m1 * g.dt + m3 * g.dt) / 2) = w := hw
  simp only [ph3, coef, hw', Y.mk.injEq]
  refine ⟨?_, by ring, by ring⟩
  field_simp
  ring

/-- All outputs of a motion are multiples of the distance: `L` of the way, with bounded velocity and acceleration. -/
theorem Started.profile (h : Started g s start end_ m1 m2 m3) (k : Nat) (hk : 1 ≤ k) :
    ∃ L V : ℝ, 0 ≤ L ∧ L ≤ 1 ∧ 0 ≤ V ∧ V ≤ W g.dt m1 m2 m3 ∧ ∀ i, ∃ A : ℝ,
      -(W g.dt m1 m2 m3 / (m3 * g.dt)) ≤ A ∧ A ≤ W g.dt m1 m2 m3 / (m1 * g.dt) ∧
      (runs g.dt k s).last i = ⟨start i + (end_ i - start i) * L, (end_ i - start i) * V, (end_ i - start i) * A⟩ := by
  obtain ⟨hW, hWs, p1, p2, p3⟩ := h.W_pos
  have hp := lt_of_lt_of_le eps_pos h.dt
  have q1 : 0 < W g.dt m1 m2 m3 / (m1 * g.dt) := by positivity
  have q3 : 0 < W g.dt m1 m2 m3 / (m3 * g.dt) := by positivity
  have c1 : W g.dt m1 m2 m3 / (m1 * g.dt) * (m1 * g.dt) = W g.dt m1 m2 m3 := div_mul_cancel₀ _ (ne_of_gt (by assumption))
  have c3 : W g.dt m1 m2 m3 / (m3 * g.dt) * (m3 * g.dt) = W g.dt m1 m2 m3 := div_mul_cancel₀ _ (ne_of_gt (by assumption))
  -- phase 1 at time t
  have f1 : ∀ t, 0 ≤ t → t ≤ m1 * g.dt →
      0 ≤ W g.dt m1 m2 m3 / (m1 * g.dt) / 2 * t ^ 2 ∧ W g.dt m1 m2 m3 / (m1 * g.dt) / 2 * t ^ 2 ≤ 1 ∧
      0 ≤ W g.dt m1 m2 m3 / (m1 * g.dt) * t ∧ W g.dt m1 m2 m3 / (m1 * g.dt) * t ≤ W g.dt m1 m2 m3 := by
    intro t ht0 ht
    have b : W g.dt m1 m2 m3 / (m1 * g.dt) * t ≤ W g.dt m1 m2 m3 := by
      rw [← c1]
      have := mul_le_mul_of_nonneg_left ht q1.le
      rwa [c1] at this ⊢
    refine ⟨by positivity, ?_, by positivity, b⟩
    have b2 : W g.dt m1 m2 m3 / (m1 * g.dt) * t * t ≤ W g.dt m1 m2 m3 * (m1 * g.dt) :=
      mul_le_mul b ht ht0 hW.le
    nlinarith
  have f3 : ∀ t, 0 ≤ t → t ≤ m3 * g.dt →
      0 ≤ W g.dt m1 m2 m3 / (m3 * g.dt) / 2 * t ^ 2 ∧ W g.dt m1 m2 m3 / (m3 * g.dt) / 2 * t ^ 2 ≤ 1 ∧
      0 ≤ W g.dt m1 m2 m3 / (m3 * g.dt) * t ∧ W g.dt m1 m2 m3 / (m3 * g.dt) * t ≤ W g.dt m1 m2 m3 := by
    intro t ht0 ht
    have b : W g.dt m1 m2 m3 / (m3 * g.dt) * t ≤ W g.dt m1 m2 m3 := by
      rw [← c3]
      have := mul_le_mul_of_nonneg_left ht q3.le
      rwa [c3] at this ⊢
    refine ⟨by positivity, ?_, by positivity, b⟩
    have b2 : W g.dt m1 m2 m3 / (m3 * g.dt) * t * t ≤ W g.dt m1 m2 m3 * (m3 * g.dt) :=
      mul_le_mul b ht ht0 hW.le
    nlinarith
  by_cases h1 : k ≤ m1
  · have hk1 : (k : ℝ) * g.dt ≤ m1 * g.dt := mul_le_mul_of_nonneg_right (by exact_mod_cast h1) hp.le
    obtain ⟨a, b, c, d⟩ := f1 (k * g.dt) (by positivity) hk1
    refine ⟨_, _, a, b, c, d, fun i => ⟨_, ?_, le_refl _, ?_⟩⟩
    · linarith
    · rw [(h.out1 k hk h1).2, h.val1]
  by_cases h2 : k ≤ max m2 1 + m1
  · by_cases hm : m2 = 0
    · subst hm
      have : k = 1 + m1 := by omega
      subst this
      obtain ⟨a, b, c, d⟩ := f1 (m1 * g.dt) (by positivity) (le_refl _)
      refine ⟨_, _, a, b, c, d, fun i => ?_⟩
      rw [h.hold]
      by_cases hi : i = 0
      · subst hi
        refine ⟨_, ?_, le_refl _, ?_⟩
        · linarith
        · simp only [if_true]
          rw [h.val1]
      · refine ⟨_, le_refl _, ?_, ?_⟩
        · linarith
        · simp only [hi, if_false]
          rw [h.val3]
          have e1 : (1:ℝ) - W g.dt m1 0 m3 / (m3 * g.dt) / 2 * (m3 * g.dt - 0) ^ 2 =
              W g.dt m1 0 m3 / (m1 * g.dt) / 2 * (m1 * g.dt) ^ 2 := by
            have u3 : W g.dt m1 0 m3 / (m3 * g.dt) / 2 * (m3 * g.dt - 0) ^ 2 = W g.dt m1 0 m3 * (m3 * g.dt) / 2 := by
              generalize (m3:ℝ) * g.dt = x at *
              field_simp
              simp
            have u1 : W g.dt m1 0 m3 / (m1 * g.dt) / 2 * (m1 * g.dt) ^ 2 = W g.dt m1 0 m3 * (m1 * g.dt) / 2 := by
              generalize (m1:ℝ) * g.dt = x at *
              field_simp
            rw [u3, u1]
            simp only [Nat.cast_zero, zero_mul, zero_add] at hWs
            linarith
          have e2 : W g.dt m1 0 m3 / (m3 * g.dt) * (m3 * g.dt - 0) = W g.dt m1 0 m3 / (m1 * g.dt) * (m1 * g.dt) := by
            rw [sub_zero, c1, c3]
          rw [e1, e2]
    · have ho := (h.out2 (k - m1) (by omega) (by omega)).2
      rw [show k - m1 + m1 = k by omega] at ho
      have hk1 : ((k - m1 : Nat) : ℝ) * g.dt ≤ m2 * g.dt := mul_le_mul_of_nonneg_right (by exact_mod_cast (by omega)) hp.le
      have hk0 : (0:ℝ) ≤ ((k - m1 : Nat) : ℝ) * g.dt := by positivity
      refine ⟨W g.dt m1 m2 m3 * (((k - m1 : Nat) : ℝ) * g.dt + m1 * g.dt / 2), W g.dt m1 m2 m3, by positivity, ?_, hW.le,
        le_refl _, fun i => ⟨0, by linarith, by linarith, ?_⟩⟩
      · rw [← hWs]
        exact mul_le_mul_of_nonneg_left (by linarith) hW.le
      · rw [ho, h.val2]
  by_cases h3 : k ≤ m3 + (max m2 1 + m1)
  · have ho := (h.out3 (k - (max m2 1 + m1)) (by omega) (by omega)).2
    rw [show k - (max m2 1 + m1) + (max m2 1 + m1) = k by omega] at ho
    have hk1 : ((k - (max m2 1 + m1) : Nat) : ℝ) * g.dt ≤ m3 * g.dt :=
      mul_le_mul_of_nonneg_right (by exact_mod_cast (by omega)) hp.le
    have hk0 : (0:ℝ) ≤ ((k - (max m2 1 + m1) : Nat) : ℝ) * g.dt := by positivity
    obtain ⟨a, b, c, d⟩ := f3 (m3 * g.dt - ((k - (max m2 1 + m1) : Nat) : ℝ) * g.dt) (by linarith) (by linarith)
    refine ⟨1 - _, _, sub_nonneg.2 b, sub_le_self _ a, c, d, fun i => ⟨_, le_refl _, by linarith, ?_⟩⟩
    rw [ho, h.val3]
  · have hd := (h.done (k - total m1 m2 m3)).2
    rw [show k - total m1 m2 m3 + total m1 m2 m3 = k by unfold total; omega] at hd
    refine ⟨1, 0, by norm_num, le_refl _, le_refl _, hW.le, fun i => ⟨0, by linarith, by linarith, ?_⟩⟩
    rw [hd]
    simp

end

/-- **C38** (limits) At every run after a successful `move` the position is on the straight line from `start` to `end`,
the velocity does not exceed its maximum, and the acceleration is bounded by `acc` in the direction of the motion and by `dec` against it. -/
theorem within_limits (g : Cfg n) (s : St n) (start end_ : Vec n) (hdt : eps ≤ g.dt)
    (hv : ∀ i, 0 < g.velMax i) (ha : ∀ i, 0 < g.acc i) (hd : ∀ i, 0 < g.dec i)
    (hf : s.finished = true) (hne : ∃ i, end_ i ≠ start i) (k : Nat) (hk : 1 ≤ k) :
    (∃ L : ℝ, 0 ≤ L ∧ L ≤ 1 ∧ ∀ i, ((runs g.dt k (move g s start end_).1).last i).pos = start i + L * (end_ i - start i)) ∧
    ∀ i, |((runs g.dt k (move g s start end_).1).last i).vel| ≤ g.velMax i ∧
      (start i ≤ end_ i → -g.dec i ≤ ((runs g.dt k (move g s start end_).1).last i).acc ∧
        ((runs g.dt k (move g s start end_).1).last i).acc ≤ g.acc i) ∧
      (end_ i ≤ start i → -g.acc i ≤ ((runs g.dt k (move g s start end_).1).last i).acc ∧
        ((runs g.dt k (move g s start end_).1).last i).acc ≤ g.dec i) := by
  obtain ⟨_, _, m1, m2, m3, hs, hb⟩ := move_started g s start end_ hdt hv ha hd hf hne
  obtain ⟨L, V, l0, l1, v0, v1, hall⟩ := hs.profile k hk
  refine ⟨⟨L, l0, l1, fun i => ?_⟩, fun i => ?_⟩
  · obtain ⟨A, _, _, he⟩ := hall i
    rw [he]
    ring
  · obtain ⟨A, a0, a1, he⟩ := hall i
    obtain ⟨b1, b2, b3⟩ := hb i
    rw [he]
    refine ⟨?_, ?_, ?_⟩
    · rw [abs_mul, abs_of_nonneg v0]
      have := mul_le_mul_of_nonneg_right v1 (abs_nonneg (end_ i - start i))
      linarith
    · intro hle
      have hx : 0 ≤ end_ i - start i := by linarith
      rw [abs_of_nonneg hx] at b2 b3
      have u1 := mul_le_mul_of_nonneg_right a0 hx
      have u2 := mul_le_mul_of_nonneg_right a1 hx
      constructor
      · show -g.dec i ≤ (end_ i - start i) * A
        linarith
      · show (end_ i - start i) * A ≤ g.acc i
        linarith
    · intro hle
      have hx : 0 ≤ -(end_ i - start i) := by linarith
      rw [abs_of_nonpos (by linarith)] at b2 b3
      have u1 := mul_le_mul_of_nonneg_right a0 hx
      have u2 := mul_le_mul_of_nonneg_right a1 hx
      constructor
      · show -g.acc i ≤ (end_ i - start i) * A
        linarith
      · show (end_ i - start i) * A ≤ g.dec i
        linarith

/-! ### Position, velocity and acceleration belong together -/

/-- The outputs of a motion from `start` at rest: before the first run, and after `k` runs. -/
noncomputable def outs (dt : ℝ) (s : St n) (start : Vec n) (k : Nat) (i : Fin (n + 1)) : Y :=
  if k = 0 then ⟨start i, 0, 0⟩ else (runs dt k s).last i

/-- From `y` to `y'` the motion has the constant acceleration `y'.acc` for a time `dt`. -/
def Integrates (dt : ℝ) (y y' : Y) : Prop :=
  y'.vel = y.vel + y'.acc * dt ∧ y'.pos = y.pos + y.vel * dt + y'.acc * dt ^ 2 / 2

section
variable {g : Cfg n} {s : St n} {start end_ : Vec n} {m1 m2 m3 : Nat}

/-- Outputs `y` have position and velocity of `z`. -/
def SamePV (y z : Y) : Prop := y.pos = z.pos ∧ y.vel = z.vel

theorem Started.pv1 (h : Started g s start end_ m1 m2 m3) (k : Nat) (hk : k ≤ m1) (i : Fin (n + 1)) :
    SamePV (outs g.dt s start k i) (ph1 s.c (k * g.dt) i) := by
  by_cases h0 : k = 0
  · subst h0
    rw [h.val1]
    simp [outs, SamePV]
  · rw [outs, if_neg h0, (h.out1 k (by omega) hk).2]
    exact ⟨rfl, rfl⟩

theorem Started.pv2 (h : Started g s start end_ m1 m2 m3) (_h2 : 1 ≤ m2) (k : Nat) (hk : k ≤ m2) (i : Fin (n + 1)) :
    SamePV (outs g.dt s start (k + m1) i) (ph2 s.c (k * g.dt) i) := by
  by_cases h0 : k = 0
  · subst h0
    obtain ⟨a, b⟩ := h.pv1 m1 (le_refl _) i
    obtain ⟨_, _, p1, _, _⟩ := h.W_pos
    rw [Nat.zero_add]
    refine ⟨a.trans ?_, b.trans ?_⟩
    · rw [h.val1, h.val2]
      generalize (m1:ℝ) * g.dt = x at *
      simp only [Nat.cast_zero, zero_mul, zero_add]
      field_simp
    · rw [h.val1, h.val2]
      generalize (m1:ℝ) * g.dt = x at *
      simp only
      field_simp
  · rw [outs, if_neg (by omega), (h.out2 k (by omega) hk).2]
    exact ⟨rfl, rfl⟩

theorem Started.pv3 (h : Started g s start end_ m1 m2 m3) (k : Nat) (hk : k ≤ m3) (i : Fin (n + 1)) :
    SamePV (outs g.dt s start (k + (max m2 1 + m1)) i) (ph3 s.c (k * g.dt) i) := by
  obtain ⟨hW, hWs, p1, _, p3⟩ := h.W_pos
  by_cases h0 : k = 0
  · subst h0
    rw [Nat.zero_add]
    by_cases hm : m2 = 0
    · subst hm
      rw [outs, if_neg (by omega), show max 0 1 + m1 = 1 + m1 from rfl, h.hold]
      by_cases hi : i = 0
      · subst hi
        simp only [if_true, Nat.cast_zero, zero_mul]
        rw [h.val1, h.val3]
        have hW' := hWs
        simp only [Nat.cast_zero, zero_mul, zero_add] at hW'
        constructor
        · have u3 : W g.dt m1 0 m3 / (m3 * g.dt) / 2 * (m3 * g.dt - 0) ^ 2 = W g.dt m1 0 m3 * (m3 * g.dt) / 2 := by
            generalize (m3:ℝ) * g.dt = x at *
            field_simp
            simp
          have u1 : W g.dt m1 0 m3 / (m1 * g.dt) / 2 * (m1 * g.dt) ^ 2 = W g.dt m1 0 m3 * (m1 * g.dt) / 2 := by
            generalize (m1:ℝ) * g.dt = x at *
            field_simp
          simp only
          rw [u3, u1]
          congr 2
          linarith
        · simp only [sub_zero]
          rw [div_mul_cancel₀ _ p1.ne', div_mul_cancel₀ _ p3.ne']
      · simp only [hi, if_false, Nat.cast_zero, zero_mul]
        exact ⟨rfl, rfl⟩
    · rw [Nat.max_eq_left (by omega)]
      obtain ⟨a, b⟩ := h.pv2 (by omega) m2 (le_refl _) i
      refine ⟨a.trans ?_, b.trans ?_⟩
      · rw [h.val2, h.val3, ← hWs]
        generalize (m3:ℝ) * g.dt = x at *
        simp only [Nat.cast_zero, zero_mul, sub_zero]
        congr 2
        field_simp
        ring
      · rw [h.val2, h.val3]
        simp only [Nat.cast_zero, zero_mul, sub_zero]
        rw [div_mul_cancel₀ _ p3.ne']
  · rw [outs, if_neg (by omega), (h.out3 k (by omega) hk).2]
    exact ⟨rfl, rfl⟩

theorem integrates_of {dt : ℝ} {y z y' : Y} (h : SamePV y z) (hz : Integrates dt z y') : Integrates dt y y' := by
  unfold Integrates at *
  rw [h.1, h.2]
  exact hz

end

section
variable {g : Cfg n} {s : St n} {start end_ : Vec n} {m1 m2 m3 : Nat}

/-- Except for the run spent in an empty middle phase the outputs integrate from each run to the next. -/
theorem Started.integrates (h : Started g s start end_ m1 m2 m3) (k : Nat) (hk : ¬ (k = m1 ∧ m2 = 0)) (i : Fin (n + 1)) :
    Integrates g.dt (outs g.dt s start k i) (outs g.dt s start (k + 1) i) := by
  have e1 : (((k + 1 : Nat) : ℝ)) = k + 1 := by push_cast; ring
  by_cases h1 : k + 1 ≤ m1
  · refine integrates_of (h.pv1 k (by omega) i) ?_
    rw [outs, if_neg (by omega), (h.out1 (k + 1) (by omega) h1).2, h.val1, h.val1]
    rw [e1]
    constructor <;> simp only <;> ring
  by_cases h2 : k + 1 ≤ m2 + m1
  · obtain ⟨j, rfl⟩ : ∃ j, k = j + m1 := ⟨k - m1, by omega⟩
    have hj : (((j + 1 : Nat) : ℝ)) = j + 1 := by push_cast; ring
    refine integrates_of (h.pv2 (by omega) j (by omega) i) ?_
    rw [outs, if_neg (by omega), show j + m1 + 1 = (j + 1) + m1 by omega, (h.out2 (j + 1) (by omega) (by omega)).2, h.val2, h.val2, hj]
    constructor <;> simp only <;> ring
  by_cases h3 : k + 1 ≤ m3 + (max m2 1 + m1)
  · obtain ⟨j, rfl⟩ : ∃ j, k = j + (max m2 1 + m1) := ⟨k - (max m2 1 + m1), by omega⟩
    have hj : (((j + 1 : Nat) : ℝ)) = j + 1 := by push_cast; ring
    refine integrates_of (h.pv3 j (by omega) i) ?_
    rw [outs, if_neg (by omega), show j + (max m2 1 + m1) + 1 = (j + 1) + (max m2 1 + m1) by omega,
      (h.out3 (j + 1) (by omega) (by omega)).2, h.val3, h.val3, hj]
    constructor <;> simp only <;> ring
  · have hdone : outs g.dt s start (k + 1) i = ⟨end_ i, 0, 0⟩ := by
      have := (h.done (k + 1 - total m1 m2 m3)).2
      rw [show k + 1 - total m1 m2 m3 + total m1 m2 m3 = k + 1 by unfold total; omega] at this
      rw [outs, if_neg (by omega), this]
    by_cases h4 : k = m3 + (max m2 1 + m1)
    · subst h4
      refine integrates_of (h.pv3 m3 (le_refl _) i) ?_
      rw [hdone, h.val3]
      constructor <;> simp
    · have := (h.done (k - total m1 m2 m3)).2
      rw [show k - total m1 m2 m3 + total m1 m2 m3 = k by unfold total; omega] at this
      rw [hdone, outs, if_neg (by omega), this]
      constructor <;> simp

/-- In the run spent in an empty middle phase they stand still. -/
theorem Started.stands (h : Started g s start end_ k 0 m3) (i : Fin (n + 1)) :
    SamePV (outs g.dt s start (k + 1) i) (outs g.dt s start k i) := by
  have a := h.pv3 0 (Nat.zero_le _) i
  have b := h.pv1 k (le_refl _) i
  have : 0 + (max 0 1 + k) = k + 1 := by omega
  rw [this] at a
  -- both equal the end of phase 1
  have hh : SamePV (ph3 s.c ((0 : Nat) * g.dt) i) (ph1 s.c (k * g.dt) i) := by
    obtain ⟨hW, hWs, p1, _, p3⟩ := h.W_pos
    rw [h.val1, h.val3]
    simp only [Nat.cast_zero, zero_mul, zero_add] at hWs
    have u3 : W g.dt k 0 m3 / (m3 * g.dt) / 2 * (m3 * g.dt - 0) ^ 2 = W g.dt k 0 m3 * (m3 * g.dt) / 2 := by
      generalize (m3:ℝ) * g.dt = x at *
      field_simp
      simp
    have u1 : W g.dt k 0 m3 / (k * g.dt) / 2 * (k * g.dt) ^ 2 = W g.dt k 0 m3 * (k * g.dt) / 2 := by
      generalize (k:ℝ) * g.dt = x at *
      field_simp
    constructor
    · simp only [Nat.cast_zero, zero_mul]
      rw [u3, u1]
      congr 2
      linarith
    · simp only [Nat.cast_zero, zero_mul, sub_zero]
      rw [div_mul_cancel₀ _ p1.ne', div_mul_cancel₀ _ p3.ne']
  exact ⟨a.1.trans (hh.1.trans b.1.symm), a.2.trans (hh.2.trans b.2.symm)⟩

end

/-- **C38** (consistency) With the possible exception of a single run, from each run to the next the velocity is the
integral of the acceleration and the position that of the velocity; in the exceptional run position and velocity both stand still. -/
theorem consistent_partial (g : Cfg n) (s : St n) (start end_ : Vec n) (hdt : eps ≤ g.dt)
    (hv : ∀ i, 0 < g.velMax i) (ha : ∀ i, 0 < g.acc i) (hd : ∀ i, 0 < g.dec i)
    (hf : s.finished = true) (hne : ∃ i, end_ i ≠ start i) :
    ∃ hold, ∀ k i,
      (k ≠ hold → Integrates g.dt (outs g.dt (move g s start end_).1 start k i) (outs g.dt (move g s start end_).1 start (k + 1) i)) ∧
      (k = hold → Integrates g.dt (outs g.dt (move g s start end_).1 start k i) (outs g.dt (move g s start end_).1 start (k + 1) i) ∨
        SamePV (outs g.dt (move g s start end_).1 start (k + 1) i) (outs g.dt (move g s start end_).1 start k i)) := by
  obtain ⟨_, _, m1, m2, m3, h, _⟩ := move_started g s start end_ hdt hv ha hd hf hne
  generalize (move g s start end_).1 = s0 at *
  refine ⟨m1, fun k i => ⟨fun hk => h.integrates k (fun hc => hk hc.1) i, fun hk => ?_⟩⟩
  by_cases hm : m2 = 0
  · subst hm hk; exact .inr (h.stands i)
  · exact .inl (h.integrates k (fun hc => hm hc.2) i)

/-! ### The exceptional run exists -/

/-- One axis, maximum velocity 10, acceleration and deceleration 1, sampling time 1. -/
noncomputable def cfgEx : Cfg 0 := ⟨fun _ => 10, fun _ => 1, fun _ => 1, 1⟩

noncomputable def stEx : St 0 :=
  ⟨true, 0, 0, coef 1 0 1 (fun _ => 0) (fun _ => 0), fun _ => 0, fun _ => ⟨0, 0, 0⟩⟩

theorem ex_move : Started cfgEx (move cfgEx stEx (fun _ => 0) (fun _ => 1)).1 (fun _ => 0) (fun _ => 1) 1 0 1 := by
  have hn : ∀ l : ℝ, minNorm (n := 0) (fun _ => l) (fun _ => 1 - 0) = ((|l| : ℝ) : WithTop ℝ) := by
    intro l
    obtain ⟨i, hi⟩ := minNorm_mem (n := 0) (fun _ => l) (fun _ => 1 - 0)
    rw [hi]
    simp [norm1]
  have ht : times 10 1 1 = (1, 0, 1) := by
    have : Real.sqrt (2 * (1 * 1) / (1 + 1)) = 1 := by norm_num
    simp only [times, this]
    norm_num
  have hc : ceilTo 1 1 = 1 ∧ ceilTo 1 0 = 0 := by simp [ceilTo]
  refine ⟨by simp only [cfgEx, eps]; norm_num, le_refl _, le_refl _, ?_, ?_, ?_, ?_, ?_⟩ <;>
    simp only [move, stEx, cfgEx, Bool.not_true, Bool.false_eq_true, if_false, sub_zero, one_ne_zero, forall_const]
  have h1 : |(1:ℝ)| = 1 := abs_one
  have h10 : |(10:ℝ)| = 10 := by norm_num
  have hn' : ∀ l : ℝ, minNorm (n := 0) (fun _ => l) (fun _ => 1) = ((|l| : ℝ) : WithTop ℝ) := by
    intro l; simpa using hn l
  rw [hn', hn', h1, h10, WithTop.untopD_coe, WithTop.untopD_coe, ht, hc.1, hc.2]
  simp

/-- Non-vacuity of the hypotheses of C38. -/
example : eps ≤ cfgEx.dt ∧ (∀ i, 0 < cfgEx.velMax i) ∧ (∀ i, 0 < cfgEx.acc i) ∧ (∀ i, 0 < cfgEx.dec i) ∧
    stEx.finished = true ∧ ∃ i : Fin 1, (fun _ => (1:ℝ)) i ≠ (fun _ => 0) i :=
  ⟨ex_move.dt, fun _ => by norm_num [cfgEx], fun _ => by norm_num [cfgEx], fun _ => by norm_num [cfgEx], rfl, 0, by norm_num⟩

/-- **C38 violated** (consistency): moving from 0 to 1 with these parameters the outputs are position 0.5 and velocity 1 at
the first run and again position 0.5 and velocity 1 at the second one: the position output stands still for one sampling period while the
velocity output is at its maximum.  (This run is spent whenever the planned constant-velocity phase has length zero.) -/
theorem stands_still_at_speed :
    let s0 := (move cfgEx stEx (fun _ => 0) (fun _ => 1)).1
    (∀ i, SamePV ((runs 1 1 s0).last i) ⟨1 / 2, 1, 1⟩ ∧ SamePV ((runs 1 2 s0).last i) ⟨1 / 2, 1, 1⟩) ∧
    ¬ Integrates 1 ((runs 1 1 s0).last 0) ((runs 1 2 s0).last 0) := by
  intro s0
  have h : Started cfgEx s0 (fun _ => 0) (fun _ => 1) 1 0 1 := ex_move
  have hW : W 1 1 0 1 = 1 := by norm_num [W]
  have a : (runs 1 1 s0).last 0 = ⟨1 / 2, 1, 1⟩ := by
    have := (h.out1 1 (le_refl _) (le_refl _)).2
    change (runs 1 1 s0).last = _ at this
    rw [this, h.val1]
    simp only [cfgEx, hW]
    norm_num
  have b : (runs 1 2 s0).last 0 = ⟨1 / 2, 1, 1⟩ := by
    have := h.hold
    change runs 1 2 s0 = _ at this
    rw [this]
    simp only [if_true]
    rw [h.val1]
    simp only [cfgEx, hW]
    norm_num
  refine ⟨fun i => ?_, ?_⟩
  · have hi : i = 0 := Fin.ext (by omega)
    subst hi
    rw [a, b]
    exact ⟨⟨rfl, rfl⟩, ⟨rfl, rfl⟩⟩
  · rw [a, b]
    intro hc
    have := hc.1
    norm_num at this

end Verif.Planner.ConstAcc
