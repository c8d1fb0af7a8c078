/-
C39: the constant-jerk planner.
-/
import Verif.Planner.ConstJerk
import Verif.Planner.ConstAccProps

set_option linter.unusedSectionVars false
set_option linter.unusedSimpArgs false

namespace Verif.Planner.ConstJerk
open ConstAcc (Vec eps minNorm ceilTo eps_pos tick mem_front finRange_split minNorm_spec ceilTo_spec)
variable {n : Nat}

/-! ### One run -/

theorem fold_put (f : Fin (n + 1) → Y) (g : St n → Fin (n + 1) → St n) (s : St n)
    (l : List (Fin (n + 1))) (hg : ∀ (L : Fin (n + 1) → Y), ∀ i ∈ l, g { s with last := L } i = { s with last := Function.update L i (f i) }) :
    l.foldl g s = { s with last := fun i => if i ∈ l then f i else s.last i } := by
  suffices h : ∀ (L : Fin (n + 1) → Y), l.foldl g { s with last := L } =
      { s with last := fun i => if i ∈ l then f i else L i } by exact h s.last
  induction l with
  | nil => intro L; simp
  | cons a l ih =>
    intro L
    rw [List.foldl_cons, hg L a (List.mem_cons_self ..), ih (fun L i hi => hg L i (List.mem_cons_of_mem _ hi))]
    congr 1
    funext i
    by_cases hi : i ∈ l
    · simp [hi]
    · by_cases ha : i = a
      · subst ha; simp [hi]
      · simp [hi, ha]

theorem fold_all (f : Fin (n + 1) → Y) (h : St n → St n) (s : St n)
    (hg : ∀ (L : Fin (n + 1) → Y) (i : Fin (n + 1)), i.val ≠ n → elem { s with last := L } i = { s with last := Function.update L i (f i) })
    (hl : ∀ L : Fin (n + 1) → Y, elem { s with last := L } (Fin.last n) = h { s with last := Function.update L (Fin.last n) (f (Fin.last n)) }) :
    (List.finRange (n + 1)).foldl elem s = h { s with last := f } := by
  rw [finRange_split, List.foldl_append, fold_put f elem s _ (fun L i hi => hg L i ((mem_front i).1 hi)),
    List.foldl_cons, List.foldl_nil, hl]
  congr 2
  funext i
  by_cases hi : i = Fin.last n
  · subst hi; simp
  · rw [Function.update_of_ne hi, if_pos]
    rw [mem_front]
    intro hc
    exact hi (Fin.ext hc)

/-- A run inside a phase. -/
theorem run_phase (dt : ℝ) (s : St n) (hf : s.finished = false) (hr : 1 ≤ s.range ∧ s.range ≤ 5)
    (ht : s.t + dt ≤ dur s.c s.range) :
    run dt s = if |s.t + dt - dur s.c s.range| < eps then
        { s with last := ph s.c s.range (s.t + dt), range := s.range + 1, t := 0 }
      else { s with last := ph s.c s.range (s.t + dt), t := s.t + dt } := by
  unfold run
  simp only [hf, Bool.false_eq_true, if_false]
  by_cases he : |s.t + dt - dur s.c s.range| < eps
  · rw [fold_all (ph s.c s.range (s.t + dt)) (fun x => { x with range := s.range + 1, t := 0 }), if_pos he]
    · intro L i hi
      simp [elem, hr, ht, hi, St.put]
    · intro L
      simp [elem, hr, ht, he, St.put]
  · rw [fold_all (ph s.c s.range (s.t + dt)) (fun s => s), if_neg he]
    · intro L i hi
      simp [elem, hr, ht, hi, St.put]
    · intro L
      simp [elem, hr, ht, he, St.put]

/-- A run past the end of a phase which was missed. -/
theorem run_past (dt : ℝ) (s : St n) (hf : s.finished = false) (hr : 1 ≤ s.range ∧ s.range ≤ 5)
    (ht : dur s.c s.range + eps ≤ s.t + dt) : run dt s = { s with t := s.t + dt } := by
  unfold run
  simp only [hf, Bool.false_eq_true, if_false]
  have he := eps_pos
  have h1 : ¬ s.t + dt ≤ dur s.c s.range := not_le.2 (by linarith)
  have h2 : ¬ |s.t + dt - dur s.c s.range| < eps := by
    rw [abs_of_nonneg (by linarith)]; exact not_lt.2 (by linarith)
  have : ∀ l : List (Fin (n + 1)), l.foldl elem { s with t := s.t + dt } = { s with t := s.t + dt } := by
    intro l
    induction l with
    | nil => rfl
    | cons a l ih =>
      rw [List.foldl_cons]
      have : elem { s with t := s.t + dt } a = { s with t := s.t + dt } := by simp [elem, hr, h1, h2]
      rw [this, ih]
  have h3 := this (List.finRange (n + 1))
  rw [hf] at h3
  exact h3

/-- The last run. -/
theorem run_end (dt : ℝ) (s : St n) (hf : s.finished = false) (hr : s.range = 6) :
    run dt s = { s with last := fun i => ⟨s.endPos i, 0, 0, 0⟩, t := s.t + dt, finished := true } := by
  unfold run
  simp only [hf, Bool.false_eq_true, if_false]
  rw [List.finRange_succ, List.foldl_cons]
  have h0 : elem { s with t := s.t + dt } (0 : Fin (n + 1)) =
      { s with last := Function.update s.last 0 ⟨s.endPos 0, 0, 0, 0⟩, t := s.t + dt, finished := true } := by
    simp [elem, hr, St.put, hf]
  rw [show ({ finished := false, range := s.range, t := s.t + dt, c := s.c, endPos := s.endPos, last := s.last } : St n) =
    { s with t := s.t + dt } by rw [← hf], h0, fold_put (fun i => (⟨s.endPos i, 0, 0, 0⟩ : Y))]
  · congr 1
    funext i
    by_cases hi : i = 0
    · subst hi; simp
    · rw [if_pos]
      simp only [List.mem_map, List.mem_finRange, true_and]
      exact ⟨i.pred hi, Fin.succ_pred i hi⟩
  · intro L i _
    simp [elem, hr, St.put]

theorem run_finished (dt : ℝ) (s : St n) (hf : s.finished = true) : run dt s = { s with t := s.t + dt } := by
  unfold run
  simp [hf]

theorem runs_add (dt : ℝ) (k m : Nat) (s : St n) : runs dt (k + m) s = runs dt k (runs dt m s) := by
  induction k with
  | zero => simp [runs]
  | succ k ih => rw [Nat.succ_add, runs, ih, runs]

theorem phase (dt : ℝ) (hdt : eps ≤ dt) (s : St n) (m : Nat) (hf : s.finished = false) (hr : 1 ≤ s.range ∧ s.range ≤ 5)
    (ht : s.t = 0) (hm : dur s.c s.range = m * dt) (k : Nat) (hk : k + 1 ≤ m) :
    runs dt (k + 1) s = { s with last := ph s.c s.range (((k + 1 : Nat) : ℝ) * dt),
                                  range := if k + 1 = m then s.range + 1 else s.range,
                                  t := if k + 1 = m then 0 else ((k + 1 : Nat) : ℝ) * dt } := by
  induction k with
  | zero =>
    obtain ⟨h1, h2⟩ := tick hdt 0 m hk
    simp only [Nat.cast_zero, zero_mul, zero_add] at h1 h2
    rw [runs, runs, run_phase dt s hf hr (by rw [ht, hm, zero_add]; exact h2), ht, hm, zero_add]
    by_cases h : 1 = m
    · subst h; rw [if_pos (h1.2 rfl)]; simp
    · rw [if_neg (fun hc => h (h1.1 hc))]; simp [h]
  | succ k ih =>
    have hk' : k + 1 ≤ m := by omega
    have hne : k + 1 ≠ m := by omega
    obtain ⟨h1, h2⟩ := tick hdt (k + 1) m hk
    rw [runs, ih hk', if_neg hne, if_neg hne]
    have e : ((k + 1 + 1 : Nat) : ℝ) * dt = ((k + 1 : Nat) : ℝ) * dt + dt := by push_cast; ring
    have hrun := run_phase dt { s with last := ph s.c s.range (((k + 1 : Nat) : ℝ) * dt), t := ((k + 1 : Nat) : ℝ) * dt }
      hf hr (by simpa only [hm] using h2)
    rw [hrun, e]
    simp only [hm]
    by_cases h : k + 1 + 1 = m
    · rw [if_pos (h1.2 h)]; simp [h]
    · rw [if_neg (fun hc => h (h1.1 hc))]; simp [h]

/-! ### The planned times -/

theorem velNormMax_spec {j : ℝ} (hj : 0 < j) :
    0 < 1 / (2 * cbrt (1 / (2 * j))) ∧ 4 * (1 / (2 * cbrt (1 / (2 * j)))) ^ 3 = j := by
  have hp : 0 < 1 / (2 * j) := by positivity
  have hc : 0 < cbrt (1 / (2 * j)) := Real.rpow_pos_of_pos hp _
  have h3 : cbrt (1 / (2 * j)) ^ 3 = 1 / (2 * j) := by
    unfold cbrt
    rw [← Real.rpow_natCast, ← Real.rpow_mul hp.le]
    norm_num
  refine ⟨by positivity, ?_⟩
  have e : (1 / (2 * cbrt (1 / (2 * j)))) ^ 3 = 1 / (8 * cbrt (1 / (2 * j)) ^ 3) := by
    rw [div_pow, mul_pow, one_pow]; norm_num
  rw [e, h3]
  field_simp
  norm_num

/-- The two cases: the maximum velocity is reached, or not. -/
theorem times_spec {v j : ℝ} (hv : 0 < v) (hj : 0 < j) :
    0 < (times v j).1 ∧ 0 ≤ (times v j).2 ∧
    (4 * v ^ 3 < j → 0 < (times v j).2) ∧ (j ≤ 4 * v ^ 3 → (times v j).2 = 0) ∧
    ∀ x1 x2 : ℝ, (times v j).1 ≤ x1 → (times v j).2 ≤ x2 →
      0 < 1 / (x2 + 4 * x1 * 0.5) ∧ 1 / (x2 + 4 * x1 * 0.5) ≤ v ∧ 1 / (x2 + 4 * x1 * 0.5) / x1 ^ 2 ≤ j := by
  obtain ⟨hmp, hm3⟩ := velNormMax_spec hj
  set M := 1 / (2 * cbrt (1 / (2 * j))) with hM
  set w := if v > M then M else v with hw
  have hwp : 0 < w := by rw [hw]; split <;> assumption
  have hwv : w ≤ v := by
    rw [hw]; split
    · rename_i h; exact h.le
    · exact le_refl _
  have hwM : w ≤ M := by
    rw [hw]; split
    · exact le_refl _
    · rename_i h; exact not_lt.1 h
  have e1 : (times v j).1 = Real.sqrt (w / j) := rfl
  have e2 : (times v j).2 = if 1 / w - 4 * Real.sqrt (w / j) * 0.5 < 0 then 0 else 1 / w - 4 * Real.sqrt (w / j) * 0.5 := rfl
  have hwj : 0 < w / j := div_pos hwp hj
  have hs : 0 < Real.sqrt (w / j) := Real.sqrt_pos.2 hwj
  have hsq : Real.sqrt (w / j) ^ 2 = w / j := Real.sq_sqrt hwj.le
  have h2 : 0 ≤ (times v j).2 := by
    rw [e2]; split
    · exact le_refl _
    · rename_i h; exact not_lt.1 h
  have h2' : 1 / w ≤ (times v j).2 + 4 * Real.sqrt (w / j) * 0.5 := by
    rw [e2]; split
    · rename_i h; linarith
    · linarith
  have hw3 : 4 * w ^ 3 ≤ j := by
    rw [← hm3]
    have : w ^ 3 ≤ M ^ 3 := pow_le_pow_left₀ hwp.le hwM 3
    linarith
  -- `2 sqrt (w / j)` against `1 / w`
  have key : (4 * w ^ 3 < j → 4 * Real.sqrt (w / j) * 0.5 < 1 / w) ∧ (4 * w ^ 3 = j → 4 * Real.sqrt (w / j) * 0.5 = 1 / w) := by
    have hsq2 : (4 * Real.sqrt (w / j) * 0.5) ^ 2 = 4 * (w / j) := by
      have : (4 * Real.sqrt (w / j) * 0.5) ^ 2 = 4 * Real.sqrt (w / j) ^ 2 := by ring
      rw [this, hsq]
    have hw2 : (1 / w) ^ 2 = 1 / w ^ 2 := by rw [div_pow, one_pow]
    constructor
    · intro h
      refine lt_of_pow_lt_pow_left₀ 2 (by positivity) ?_
      rw [hsq2, hw2, lt_div_iff₀ (by positivity)]
      have : 4 * (w / j) * w ^ 2 = 4 * w ^ 3 / j := by ring
      rw [this, div_lt_one hj]
      exact h
    · intro h
      have hnn : 0 ≤ 4 * Real.sqrt (w / j) * 0.5 := by positivity
      refine (pow_left_inj₀ hnn (by positivity) (two_ne_zero)).1 ?_
      rw [hsq2, hw2, eq_div_iff (by positivity)]
      have : 4 * (w / j) * w ^ 2 = 4 * w ^ 3 / j := by ring
      rw [this, h, div_self hj.ne']
  refine ⟨e1 ▸ hs, h2, ?_, ?_, ?_⟩
  · intro h
    have hvM : v < M := by
      refine lt_of_pow_lt_pow_left₀ 3 hmp.le ?_
      linarith
    have hwv' : w = v := by rw [hw, if_neg (not_lt.2 hvM.le)]
    have := key.1 (by rw [hwv']; exact h)
    rw [e2, if_neg (not_lt.2 (by linarith))]
    linarith
  · intro h
    have hMv : M ≤ v := by
      refine le_of_pow_le_pow_left₀ three_ne_zero hv.le ?_
      linarith
    have hwM' : w = M := by
      rw [hw]; split
      · rfl
      · rename_i hc; exact le_antisymm (not_lt.1 hc) hMv
    have := key.2 (by rw [hwM']; exact hm3)
    rw [e2, this]
    simp
  · intro x1 x2 h1 hx2
    rw [e1] at h1
    have hx1 : 0 < x1 := lt_of_lt_of_le hs h1
    have hden : 1 / w ≤ x2 + 4 * x1 * 0.5 := by linarith
    have hw1 : 0 < 1 / w := by positivity
    have hpos : 0 < x2 + 4 * x1 * 0.5 := lt_of_lt_of_le hw1 hden
    have hle : 1 / (x2 + 4 * x1 * 0.5) ≤ w := by
      rw [div_le_iff₀ hpos]
      have := mul_le_mul_of_nonneg_left hden hwp.le
      rwa [mul_one_div_cancel hwp.ne'] at this
    refine ⟨by positivity, hle.trans hwv, ?_⟩
    rw [div_le_iff₀ (by positivity)]
    have : w / j ≤ x1 ^ 2 := by
      rw [← hsq]; exact pow_le_pow_left₀ hs.le h1 2
    rw [div_le_iff₀ hj] at this
    linarith

/-! ### The motion after `move` -/

/-- A motion with phases of `m1`, `m1`, `m2`, `m1`, `m1` samples has just been started. -/
structure Started (g : Cfg n) (s : St n) (start end_ : Vec n) (m1 m2 : Nat) : Prop where
  dt : eps ≤ g.dt
  one : 1 ≤ m1
  fin : s.finished = false
  range : s.range = 1
  t : s.t = 0
  endPos : s.endPos = end_
  c : s.c = coef (m1 * g.dt) (m2 * g.dt) start (fun i => end_ i - start i)

/-- Normalised velocity of the constant phase. -/
noncomputable def W (dt : ℝ) (m1 m2 : Nat) : ℝ := 1 / (m2 * dt + 4 * (m1 * dt) * 0.5)

/-- The normalised limits of a motion. -/
noncomputable def vn (g : Cfg n) (start end_ : Vec n) : ℝ := (minNorm g.velMax (fun i => end_ i - start i)).untopD 0
noncomputable def jn (g : Cfg n) (start end_ : Vec n) : ℝ := (minNorm g.jerk (fun i => end_ i - start i)).untopD 0

theorem move_started (g : Cfg n) (s : St n) (start end_ : Vec n) (hdt : eps ≤ g.dt)
    (hv : ∀ i, 0 < g.velMax i) (hj : ∀ i, 0 < g.jerk i)
    (hf : s.finished = true) (hne : ∃ i, end_ i ≠ start i) :
    (move g s start end_).2 = true ∧ (move g s start end_).1.last = s.last ∧ ∃ m1 m2,
      Started g (move g s start end_).1 start end_ m1 m2 ∧
      (4 * vn g start end_ ^ 3 < jn g start end_ → 1 ≤ m2) ∧ (jn g start end_ ≤ 4 * vn g start end_ ^ 3 → m2 = 0) ∧
      ∀ i, W g.dt m1 m2 * |end_ i - start i| ≤ g.velMax i ∧
        W g.dt m1 m2 / (m1 * g.dt) ^ 2 * |end_ i - start i| ≤ g.jerk i := by
  have hp : 0 < g.dt := lt_of_lt_of_le eps_pos hdt
  have hd : ∃ i, (fun i => end_ i - start i) i ≠ 0 := by
    obtain ⟨i, hi⟩ := hne; exact ⟨i, sub_ne_zero.2 hi⟩
  obtain ⟨pv, bv⟩ := minNorm_spec g.velMax (fun i => end_ i - start i) hv hd
  obtain ⟨pj, bj⟩ := minNorm_spec g.jerk (fun i => end_ i - start i) hj hd
  obtain ⟨t1, t2, t3, t4, t5⟩ := times_spec pv pj
  obtain ⟨m1, e1, l1, o1, _⟩ := ceilTo_spec hp t1.le
  obtain ⟨m2, e2, l2, o2, z2, _⟩ := ceilTo_spec hp t2
  obtain ⟨w0, w1, w2⟩ := t5 _ _ l1 l2
  have hnz : ¬ ∀ i, end_ i - start i = 0 := by
    obtain ⟨i, hi⟩ := hd; exact fun hc => hi (hc i)
  have hmv : move g s start end_ = ({ s with c := coef (m1 * g.dt) (m2 * g.dt) start (fun i => end_ i - start i), finished := false, range := 1, t := 0, endPos := end_ }, true) := by
    unfold move
    rw [if_neg (by simp [hf])]
    simp only
    rw [if_neg hnz, e1, e2]
  rw [hmv]
  refine ⟨rfl, rfl, m1, m2, ⟨hdt, o1 t1, rfl, rfl, rfl, rfl, rfl⟩, fun h => o2 (t3 h), fun h => z2 (t4 h), fun i => ?_⟩
  have habs := abs_nonneg (end_ i - start i)
  exact ⟨(mul_le_mul_of_nonneg_right w1 habs).trans (bv i), (mul_le_mul_of_nonneg_right w2 habs).trans (bj i)⟩

/-- Number of samples of phase `r + 1`. -/
def len (m1 m2 r : Nat) : Nat := if r = 2 then m2 else m1

/-- Runs before phase `r + 1`. -/
def off (m1 m2 : Nat) : Nat → Nat
  | 0 => 0
  | r + 1 => len m1 m2 r + off m1 m2 r

section
variable {g : Cfg n} {s : St n} {start end_ : Vec n} {m1 m2 : Nat}

theorem Started.dur (h : Started g s start end_ m1 m2) (r : Nat) : dur s.c (r + 1) = len m1 m2 r * g.dt := by
  unfold ConstJerk.dur len
  rw [h.c]
  by_cases hr : r = 2
  · simp [hr, coef]
  · rw [if_neg (by omega), if_neg hr]; rfl

theorem Started.len_pos (h : Started g s start end_ m1 m2) {r : Nat} (hr : r ≠ 2 ∨ 1 ≤ m2) : 1 ≤ len m1 m2 r := by
  unfold len
  have := h.one
  split
  · rcases hr with hr | hr
    · contradiction
    · exact hr
  · exact this

/-- The state at the beginning of phase `r + 1`, provided the phases before it are not empty. -/
theorem Started.after (h : Started g s start end_ m1 m2) : ∀ r, r ≤ 5 → (r ≤ 2 ∨ 1 ≤ m2) →
    ∃ L, runs g.dt (off m1 m2 r) s = { s with last := L, range := r + 1, t := 0 }
  | 0, _, _ => ⟨s.last, by
      have h1 := h.range
      have h2 := h.t
      rw [off, runs]
      cases s
      simp_all⟩
  | r + 1, hr, hm => by
    obtain ⟨L, hL⟩ := h.after r (by omega) (by omega)
    have hl : 1 ≤ len m1 m2 r := h.len_pos (by omega)
    obtain ⟨k, hk⟩ : ∃ k, len m1 m2 r = k + 1 := ⟨len m1 m2 r - 1, by omega⟩
    have := phase g.dt h.dt { s with last := L, range := r + 1, t := 0 } (len m1 m2 r) h.fin ⟨by simp, by simpa using hr⟩ rfl
      (h.dur r) k (by omega)
    refine ⟨ph s.c (r + 1) (((k + 1 : Nat) : ℝ) * g.dt), ?_⟩
    rw [off, runs_add, hL, hk, this, hk]
    simp

/-- Outputs in phase `r + 1`. -/
theorem Started.out (h : Started g s start end_ m1 m2) (r : Nat) (hr : r ≤ 4) (hm : r ≤ 2 ∨ 1 ≤ m2) (k : Nat) (h1 : 1 ≤ k)
    (hk : k ≤ len m1 m2 r) :
    (runs g.dt (k + off m1 m2 r) s).finished = false ∧
    (runs g.dt (k + off m1 m2 r) s).last = ph s.c (r + 1) (k * g.dt) := by
  obtain ⟨L, hL⟩ := h.after r (by omega) hm
  obtain ⟨k, rfl⟩ : ∃ j, k = j + 1 := ⟨k - 1, by omega⟩
  rw [runs_add, hL, phase g.dt h.dt { s with last := L, range := r + 1, t := 0 } (len m1 m2 r) h.fin ⟨by simp, by simp only; omega⟩ rfl
      (h.dur r) k hk]
  exact ⟨h.fin, rfl⟩

/-- Every run of the motion belongs to a phase. -/
theorem locate (m1 m2 : Nat) : ∀ R k, 1 ≤ k → k ≤ off m1 m2 R →
    ∃ r j, r < R ∧ 1 ≤ j ∧ j ≤ len m1 m2 r ∧ k = j + off m1 m2 r
  | 0, k, h1, hk => by rw [off] at hk; omega
  | R + 1, k, h1, hk => by
    by_cases h : k ≤ off m1 m2 R
    · obtain ⟨r, j, a, b, c, d⟩ := locate m1 m2 R k h1 h
      exact ⟨r, j, by omega, b, c, d⟩
    · rw [off] at hk
      exact ⟨R, k - off m1 m2 R, by omega, by omega, by omega, by omega⟩

theorem Started.done (h : Started g s start end_ m1 m2) (hm : 1 ≤ m2) (k : Nat) :
    (runs g.dt (k + 1 + off m1 m2 5) s).finished = true ∧
    (runs g.dt (k + 1 + off m1 m2 5) s).last = fun i => ⟨end_ i, 0, 0, 0⟩ := by
  induction k with
  | zero =>
    obtain ⟨L, hL⟩ := h.after 5 (le_refl _) (.inr hm)
    rw [runs_add, hL]
    have := run_end g.dt { s with last := L, range := 6, t := 0 } h.fin rfl
    rw [runs, runs, this]
    exact ⟨rfl, by simp only [h.endPos]⟩
  | succ k ih =>
    rw [show k + 1 + 1 + off m1 m2 5 = (k + 1 + off m1 m2 5) + 1 by omega, runs, run_finished _ _ ih.1]
    exact ih

theorem Started.busy (h : Started g s start end_ m1 m2) (hm : 1 ≤ m2) (k : Nat) (hk : k ≤ off m1 m2 5) :
    (runs g.dt k s).finished = false := by
  by_cases h0 : k = 0
  · subst h0; exact h.fin
  · obtain ⟨r, j, hr, h1, h2, rfl⟩ := locate m1 m2 5 k (by omega) hk
    exact (h.out r (by omega) (.inr hm) j h1 h2).1

/-- With an empty third phase the planner is stuck. -/
theorem Started.stuck (h : Started g s start end_ m1 0) (k : Nat) :
    (runs g.dt (k + off m1 0 2) s).finished = false ∧
    (runs g.dt (k + off m1 0 2) s).last = (runs g.dt (off m1 0 2) s).last := by
  obtain ⟨L, hL⟩ := h.after 2 (by omega) (.inl (le_refl _))
  have hp := lt_of_lt_of_le eps_pos h.dt
  have hd : ConstJerk.dur s.c 3 = 0 := by rw [h.dur 2]; simp [len]
  have key : runs g.dt (k + off m1 0 2) s = { s with last := L, range := 3, t := k * g.dt } := by
    induction k with
    | zero => rw [Nat.zero_add, hL]; simp
    | succ k ih =>
      rw [Nat.succ_add, runs, ih, run_past g.dt { s with last := L, range := 3, t := (k:ℝ) * g.dt } h.fin ⟨by simp, by simp⟩]
      · simp only
        congr 1
        push_cast; ring
      · show ConstJerk.dur s.c 3 + eps ≤ _
        rw [hd]
        have : 0 ≤ (k:ℝ) * g.dt := by positivity
        have := h.dt
        simp only
        linarith
  rw [key, hL]
  exact ⟨h.fin, rfl⟩

end

/-- **C39 violated** (short moves).  In exact arithmetic every move too short to reach the maximum velocity never
finishes: from some run on all outputs stay as they are, `finished` never becomes true, and every further `move` is refused. -/
theorem short_move_never_finishes (g : Cfg n) (s : St n) (start end_ : Vec n) (hdt : eps ≤ g.dt)
    (hv : ∀ i, 0 < g.velMax i) (hj : ∀ i, 0 < g.jerk i)
    (hf : s.finished = true) (hne : ∃ i, end_ i ≠ start i)
    (hshort : jn g start end_ ≤ 4 * vn g start end_ ^ 3) :
    (∀ k, (runs g.dt k (move g s start end_).1).finished = false ∧
      ∀ start' end', (move g (runs g.dt k (move g s start end_).1) start' end').2 = false) ∧
    ∃ N, ∀ k ≥ N, (runs g.dt k (move g s start end_).1).last = (runs g.dt N (move g s start end_).1).last := by
  obtain ⟨_, _, m1, m2, h, _, hz, _⟩ := move_started g s start end_ hdt hv hj hf hne
  generalize (move g s start end_).1 = s0 at *
  have := hz hshort
  subst this
  have nf : ∀ k, (runs g.dt k s0).finished = false := by
    intro k
    by_cases hk : k ≤ off m1 0 2
    · by_cases h0 : k = 0
      · subst h0; exact h.fin
      · obtain ⟨r, j, hr, h1, h2, rfl⟩ := locate m1 0 2 k (by omega) hk
        exact (h.out r (by omega) (.inl (by omega)) j h1 h2).1
    · have := (h.stuck (k - off m1 0 2)).1
      rwa [show k - off m1 0 2 + off m1 0 2 = k by omega] at this
  refine ⟨fun k => ⟨nf k, fun _ _ => ?_⟩, off m1 0 2, fun k hk => ?_⟩
  · unfold move
    rw [if_pos (by simp [nf k])]
  · have := (h.stuck (k - off m1 0 2)).2
    rwa [show k - off m1 0 2 + off m1 0 2 = k by omega] at this

/-- **C39 (partial)** (end) A move long enough to reach the maximum velocity keeps the planner busy for a finite number of runs, then it has
finished with position exactly `end`, velocity, acceleration and jerk zero, and keeps these outputs.  While it is busy a further
`move` is refused and has no effect.  Missing: shorter moves, for which it is false (`short_move_never_finishes`). -/
theorem reaches_end_partial (g : Cfg n) (s : St n) (start end_ : Vec n) (hdt : eps ≤ g.dt)
    (hv : ∀ i, 0 < g.velMax i) (hj : ∀ i, 0 < g.jerk i)
    (hf : s.finished = true) (hne : ∃ i, end_ i ≠ start i)
    (hlong : 4 * vn g start end_ ^ 3 < jn g start end_) :
    (move g s start end_).2 = true ∧ ∃ N, 0 < N ∧
      (∀ k < N, (runs g.dt k (move g s start end_).1).finished = false ∧
        ∀ start' end', move g (runs g.dt k (move g s start end_).1) start' end' =
          (runs g.dt k (move g s start end_).1, false)) ∧
      ∀ k ≥ N, (runs g.dt k (move g s start end_).1).finished = true ∧
        (runs g.dt k (move g s start end_).1).last = fun i => ⟨end_ i, 0, 0, 0⟩ := by
  obtain ⟨h1, _, m1, m2, h, hl, _, _⟩ := move_started g s start end_ hdt hv hj hf hne
  generalize (move g s start end_).1 = s0 at *
  have hm := hl hlong
  refine ⟨h1, off m1 m2 5 + 1, by omega, fun k hk => ⟨h.busy hm k (by omega), fun _ _ => ?_⟩, fun k hk => ?_⟩
  · unfold move
    rw [if_pos (by simp [h.busy hm k (by omega)])]
  · have := h.done hm (k - (off m1 m2 5 + 1))
    rwa [show k - (off m1 m2 5 + 1) + 1 + off m1 m2 5 = k by omega] at this

/-! ### Consistency and limits -/

/-- The outputs of a motion from `start` at rest: before the first run, and after `k` runs. -/
noncomputable def outs (dt : ℝ) (s : St n) (start : Vec n) (k : Nat) (i : Fin (n + 1)) : Y :=
  if k = 0 then ⟨start i, 0, 0, 0⟩ else (runs dt k s).last i

/-- From `y` to `y'` the motion has the constant jerk `y'.jerk` for a time `dt`. -/
def Integrates (dt : ℝ) (y y' : Y) : Prop :=
  y'.acc = y.acc + y'.jerk * dt ∧ y'.vel = y.vel + y.acc * dt + y'.jerk * dt ^ 2 / 2 ∧
  y'.pos = y.pos + y.vel * dt + y.acc * dt ^ 2 / 2 + y'.jerk * dt ^ 3 / 6

/-- Same position, velocity and acceleration. -/
def Same (y z : Y) : Prop := y.pos = z.pos ∧ y.vel = z.vel ∧ y.acc = z.acc

theorem integrates_of {dt : ℝ} {y z y' : Y} (h : Same y z) (hz : Integrates dt z y') : Integrates dt y y' := by
  unfold Integrates at *
  rw [h.1, h.2.1, h.2.2]
  exact hz

theorem ph_integrates (c : Coef n) (r : Nat) (x dt : ℝ) (i : Fin (n + 1)) (hr : r ≤ 4) :
    Integrates dt (ph c (r + 1) x i) (ph c (r + 1) (x + dt) i) := by
  obtain rfl | rfl | rfl | rfl | rfl : r = 0 ∨ r = 1 ∨ r = 2 ∨ r = 3 ∨ r = 4 := by omega
  all_goals
    simp only [Integrates, ph, poly]
    refine ⟨by ring, by ring, by ring⟩

theorem ph_joins (c : Coef n) (r : Nat) (i : Fin (n + 1)) (hr : r ≤ 3) :
    Same (ph c (r + 1) (ConstJerk.dur c (r + 1)) i) (ph c (r + 1 + 1) 0 i) := by
  obtain rfl | rfl | rfl | rfl : r = 0 ∨ r = 1 ∨ r = 2 ∨ r = 3 := by omega
  all_goals
    simp only [Same, ph, poly, ConstJerk.dur]
    norm_num
    try refine ⟨by ring, ?_⟩
    try ring_nf
    try trivial

section
variable {g : Cfg n} {s : St n} {start end_ : Vec n} {m1 m2 : Nat}

theorem Started.same (h : Started g s start end_ m1 m2) (hm : 1 ≤ m2) (i : Fin (n + 1)) (r : Nat) (hr : r ≤ 4) (k : Nat)
    (hk : k ≤ len m1 m2 r) : Same (outs g.dt s start (k + off m1 m2 r) i) (ph s.c (r + 1) (k * g.dt) i) := by
  by_cases h0 : k = 0
  · subst h0
    cases r with
    | zero =>
      have : s.c.d1p = start := by rw [h.c]; rfl
      simp [Same, outs, off, ph, poly, this]
    | succ q =>
      have hl : 1 ≤ len m1 m2 q := h.len_pos (.inr hm)
      have := (h.out q (by omega) (.inr hm) (len m1 m2 q) hl (le_refl _)).2
      rw [Nat.zero_add, off, outs, if_neg (by omega), this, Nat.cast_zero, zero_mul, ← h.dur q]
      exact ph_joins s.c q i (by omega)
  · rw [outs, if_neg (by omega), (h.out r hr (.inr hm) k (by omega) hk).2]
    exact ⟨rfl, rfl, rfl⟩

theorem Started.pos1 (h : Started g s start end_ m1 m2) : 0 < (m1:ℝ) * g.dt ∧ 0 ≤ (m2:ℝ) * g.dt ∧ 0 < W g.dt m1 m2 ∧
    W g.dt m1 m2 * (m2 * g.dt + 2 * (m1 * g.dt)) = 1 := by
  have hp := lt_of_lt_of_le eps_pos h.dt
  have o1 : (1:ℝ) ≤ m1 := by exact_mod_cast h.one
  have a : 0 < (m1:ℝ) * g.dt := by positivity
  have b : 0 ≤ (m2:ℝ) * g.dt := by positivity
  have e : (m2 * g.dt + 4 * (m1 * g.dt) * 0.5) = (m2 * g.dt + 2 * (m1 * g.dt)) := by ring
  have c : 0 < (m2 * g.dt + 2 * (m1 * g.dt)) := by positivity
  refine ⟨a, b, ?_, ?_⟩
  · unfold W; rw [e]; positivity
  · unfold W; rw [e]; field_simp

/-- The jerk, times the square of the phase length, is the velocity of the constant phase. -/
theorem Started.jT (h : Started g s start end_ m1 m2) (i : Fin (n + 1)) :
    s.c.dT1 = m1 * g.dt ∧ s.c.dT2 = m2 * g.dt ∧ s.c.d1p i = start i ∧
    s.c.d1j i = W g.dt m1 m2 * (end_ i - start i) / (m1 * g.dt) ^ 2 := by
  rw [h.c]
  exact ⟨rfl, rfl, rfl, rfl⟩

theorem Started.ends (h : Started g s start end_ m1 m2) (i : Fin (n + 1)) :
    Same (ph s.c 5 (m1 * g.dt) i) ⟨end_ i, 0, 0, 0⟩ := by
  obtain ⟨e1, e2, e3, e4⟩ := h.jT i
  obtain ⟨p1, p2, p3, p4⟩ := h.pos1
  have hj : s.c.d1j i * (m1 * g.dt) ^ 2 = W g.dt m1 m2 * (end_ i - start i) := by
    rw [e4]; exact div_mul_cancel₀ _ (pow_ne_zero 2 p1.ne')
  simp only [Same, ph, poly, e1, e2, e3]
  refine ⟨?_, by ring, by ring⟩
  calc _ = s.c.d1j i * (m1 * g.dt) ^ 2 * (m2 * g.dt + 2 * (m1 * g.dt)) + start i := by ring
    _ = (W g.dt m1 m2 * (m2 * g.dt + 2 * (m1 * g.dt))) * (end_ i - start i) + start i := by rw [hj]; ring
    _ = end_ i := by rw [p4]; ring

end

/-- **C39 (partial)** (consistency) For a move long enough to reach the maximum velocity, from each run to the next the motion has the
constant jerk which is output: acceleration, velocity and position are its integrals, starting from `start` at rest. -/
theorem consistent_partial (g : Cfg n) (s : St n) (start end_ : Vec n) (hdt : eps ≤ g.dt)
    (hv : ∀ i, 0 < g.velMax i) (hj : ∀ i, 0 < g.jerk i)
    (hf : s.finished = true) (hne : ∃ i, end_ i ≠ start i)
    (hlong : 4 * vn g start end_ ^ 3 < jn g start end_) (k : Nat) (i : Fin (n + 1)) :
    Integrates g.dt (outs g.dt (move g s start end_).1 start k i) (outs g.dt (move g s start end_).1 start (k + 1) i) := by
  obtain ⟨_, _, m1, m2, h, hl, _, _⟩ := move_started g s start end_ hdt hv hj hf hne
  generalize (move g s start end_).1 = s0 at *
  have hm := hl hlong
  by_cases hk : k + 1 ≤ off m1 m2 5
  · obtain ⟨r, j, hr, h1, h2, he⟩ := locate m1 m2 5 (k + 1) (by omega) hk
    obtain ⟨j, rfl⟩ : ∃ q, j = q + 1 := ⟨j - 1, by omega⟩
    have hkj : k = j + off m1 m2 r := by omega
    refine integrates_of (hkj ▸ h.same hm i r (by omega) j (by omega)) ?_
    rw [outs, if_neg (by omega), he, (h.out r (by omega) (.inr hm) (j + 1) h1 h2).2,
      show (((j + 1 : Nat) : ℝ)) * g.dt = j * g.dt + g.dt by push_cast; ring]
    exact ph_integrates s0.c r _ _ i (by omega)
  · have hd := (h.done hm (k - off m1 m2 5)).2
    rw [show k - off m1 m2 5 + 1 + off m1 m2 5 = k + 1 by omega] at hd
    rw [outs.eq_def _ _ _ (k + 1), if_neg (by omega), hd]
    by_cases hk' : k = off m1 m2 5
    · have := h.same hm i 4 (le_refl _) (len m1 m2 4) (le_refl _)
      have he : len m1 m2 4 + off m1 m2 4 = k := by rw [hk']; rfl
      rw [he] at this
      refine integrates_of this (integrates_of (h.ends i) ?_)
      simp [Integrates]
    · have hd' := (h.done hm (k - 1 - off m1 m2 5)).2
      rw [show k - 1 - off m1 m2 5 + 1 + off m1 m2 5 = k by omega] at hd'
      rw [outs, if_neg (by omega), hd']
      simp [Integrates]

/-- Shape of the outputs in each phase. -/
theorem ph_bounds (T U J P x : ℝ) (c : Coef n) (i : Fin (n + 1)) (e1 : c.dT1 = T) (e2 : c.dT2 = U) (e3 : c.d1p i = P)
    (e4 : c.d1j i = J) (hT : 0 ≤ T) (hU : 0 ≤ U) (r : Nat) (hr : r ≤ 4) (h0 : 0 ≤ x) (hx : x ≤ ConstJerk.dur c (r + 1)) :
    ∃ L V A K : ℝ, 0 ≤ L ∧ L ≤ T ^ 2 * (U + 2 * T) ∧ 0 ≤ V ∧ V ≤ T ^ 2 ∧ |A| ≤ T ∧ |K| ≤ 1 ∧
      ph c (r + 1) x i = ⟨P + J * L, J * V, J * A, J * K⟩ := by
  have hTT : 0 ≤ T ^ 2 := sq_nonneg T
  have hT3 : 0 ≤ T ^ 3 := pow_nonneg hT 3
  have hTU : 0 ≤ T ^ 2 * U := mul_nonneg hTT hU
  have hx2 : 0 ≤ x ^ 2 := sq_nonneg x
  have hx3 : 0 ≤ x ^ 3 := pow_nonneg h0 3
  obtain rfl | rfl | rfl | rfl | rfl : r = 0 ∨ r = 1 ∨ r = 2 ∨ r = 3 ∨ r = 4 := by omega
  · have hx : x ≤ T := by rw [← e1]; simpa [ConstJerk.dur] using hx
    have a2 : x ^ 2 ≤ T ^ 2 := pow_le_pow_left₀ h0 hx 2
    have a3 : x ^ 3 ≤ T ^ 3 := pow_le_pow_left₀ h0 hx 3
    refine ⟨x ^ 3 / 6, x ^ 2 / 2, x, 1, by linarith, by nlinarith, by linarith, by linarith, by rwa [abs_of_nonneg h0], by simp, ?_⟩
    simp only [ph, poly, e1, e2, e3, e4, Y.mk.injEq]
    refine ⟨by ring, by ring, by ring, by ring⟩
  · have hx : x ≤ T := by rw [← e1]; simpa [ConstJerk.dur] using hx
    have y0 : 0 ≤ T - x := sub_nonneg.2 hx
    have a2 : x ^ 2 ≤ T ^ 2 := pow_le_pow_left₀ h0 hx 2
    have b1 : 0 ≤ T ^ 2 * x := mul_nonneg hTT h0
    have b2 : 0 ≤ T * x ^ 2 := mul_nonneg hT hx2
    have b3 : 0 ≤ (T - x) * x ^ 2 := mul_nonneg y0 hx2
    have b4 : 0 ≤ (T - x) * T ^ 2 := mul_nonneg y0 hTT
    have b5 : 0 ≤ (T - x) * (T * x) := mul_nonneg y0 (mul_nonneg hT h0)
    refine ⟨-x ^ 3 / 6 + T / 2 * x ^ 2 + T ^ 2 / 2 * x + T ^ 3 / 6, -x ^ 2 / 2 + T * x + T ^ 2 / 2, T - x, -1,
      by nlinarith, by nlinarith, by nlinarith, by nlinarith [sq_nonneg (T - x)], by rw [abs_of_nonneg y0]; linarith, by simp, ?_⟩
    simp only [ph, poly, e1, e2, e3, e4, Y.mk.injEq]
    refine ⟨by ring, by ring, by ring, by ring⟩
  · have hx : x ≤ U := by rw [← e2]; simpa [ConstJerk.dur] using hx
    have b1 : 0 ≤ T ^ 2 * x := mul_nonneg hTT h0
    have b2 : 0 ≤ T ^ 2 * (U - x) := mul_nonneg hTT (sub_nonneg.2 hx)
    refine ⟨T ^ 2 * x + T ^ 3, T ^ 2, 0, 0, by linarith, by nlinarith, hTT, le_refl _, by simpa using hT, by simp, ?_⟩
    simp only [ph, poly, e1, e2, e3, e4, Y.mk.injEq]
    refine ⟨by ring, by ring, by ring, by ring⟩
  · have hx : x ≤ T := by rw [← e1]; simpa [ConstJerk.dur] using hx
    have y0 : 0 ≤ T - x := sub_nonneg.2 hx
    have a2 : x ^ 2 ≤ T ^ 2 := pow_le_pow_left₀ h0 hx 2
    have a3 : x ^ 3 ≤ T ^ 3 := pow_le_pow_left₀ h0 hx 3
    have b1 : 0 ≤ T ^ 2 * x := mul_nonneg hTT h0
    have b4 : 0 ≤ (T - x) * T ^ 2 := mul_nonneg y0 hTT
    refine ⟨-x ^ 3 / 6 + T ^ 2 * x + (T ^ 2 * U + T ^ 3), -x ^ 2 / 2 + T ^ 2, -x, -1,
      by nlinarith, by nlinarith, by nlinarith, by nlinarith, by rw [abs_neg, abs_of_nonneg h0]; exact hx, by simp, ?_⟩
    simp only [ph, poly, e1, e2, e3, e4, Y.mk.injEq]
    refine ⟨by ring, by ring, by ring, by ring⟩
  · have hx : x ≤ T := by rw [← e1]; simpa [ConstJerk.dur] using hx
    have y0 : 0 ≤ T - x := sub_nonneg.2 hx
    have y3 : 0 ≤ (T - x) ^ 3 := pow_nonneg y0 3
    have b1 : 0 ≤ T * x * (T - x) := mul_nonneg (mul_nonneg hT h0) y0
    have y2 : (T - x) ^ 2 ≤ T ^ 2 := pow_le_pow_left₀ y0 (by linarith) 2
    refine ⟨x ^ 3 / 6 - T / 2 * x ^ 2 + T ^ 2 / 2 * x + (T ^ 2 * U + 11 / 6 * T ^ 3), x ^ 2 / 2 - T * x + T ^ 2 / 2, x - T, 1,
      by nlinarith, by nlinarith, by nlinarith [sq_nonneg (T - x)], by nlinarith, by rw [abs_sub_comm, abs_of_nonneg y0]; linarith, by simp, ?_⟩
    simp only [ph, poly, e1, e2, e3, e4, Y.mk.injEq]
    refine ⟨by ring, by ring, by ring, by ring⟩

/-- **C39 (partial)** (limits) At every run after a successful `move` which is long enough to reach the maximum velocity, the
position is on the straight line from `start` to `end` and velocity and jerk do not exceed their maxima. -/
theorem within_limits_partial (g : Cfg n) (s : St n) (start end_ : Vec n) (hdt : eps ≤ g.dt)
    (hv : ∀ i, 0 < g.velMax i) (hj : ∀ i, 0 < g.jerk i)
    (hf : s.finished = true) (hne : ∃ i, end_ i ≠ start i)
    (hlong : 4 * vn g start end_ ^ 3 < jn g start end_) (k : Nat) (hk : 1 ≤ k) (i : Fin (n + 1)) :
    (∃ L : ℝ, 0 ≤ L ∧ L ≤ 1 ∧ ((runs g.dt k (move g s start end_).1).last i).pos = start i + L * (end_ i - start i)) ∧
    |((runs g.dt k (move g s start end_).1).last i).vel| ≤ g.velMax i ∧
    |((runs g.dt k (move g s start end_).1).last i).jerk| ≤ g.jerk i := by
  obtain ⟨_, _, m1, m2, h, hl, _, hb⟩ := move_started g s start end_ hdt hv hj hf hne
  generalize (move g s start end_).1 = s0 at *
  have hm := hl hlong
  obtain ⟨b1, b2⟩ := hb i
  obtain ⟨p1, p2, p3, p4⟩ := h.pos1
  by_cases hk' : k ≤ off m1 m2 5
  · obtain ⟨r, j, hr, h1, h2, rfl⟩ := locate m1 m2 5 k hk hk'
    rw [(h.out r (by omega) (.inr hm) j h1 h2).2]
    obtain ⟨e1, e2, e3, e4⟩ := h.jT i
    have hp := lt_of_lt_of_le eps_pos h.dt
    have hx : (j:ℝ) * g.dt ≤ ConstJerk.dur s0.c (r + 1) := by
      rw [h.dur]
      have : (j:ℝ) ≤ (len m1 m2 r : ℝ) := by exact_mod_cast h2
      exact mul_le_mul_of_nonneg_right this hp.le
    obtain ⟨L, V, A, K, l0, l1, v0, v1, a1, k1, he⟩ := ph_bounds _ _ _ _ (j * g.dt) s0.c i e1 e2 e3 e4 p1.le p2 r (by omega) (by positivity) hx
    rw [he]
    generalize hT : (m1:ℝ) * g.dt = T at *
    generalize hU : (m2:ℝ) * g.dt = U at *
    generalize W g.dt m1 m2 = w at *
    have hT2 : 0 < T ^ 2 := by positivity
    refine ⟨⟨w * L / T ^ 2, by positivity, ?_, ?_⟩, ?_, ?_⟩
    · rw [div_le_one hT2]
      have := mul_le_mul_of_nonneg_left l1 p3.le
      calc w * L ≤ w * (T ^ 2 * (U + 2 * T)) := this
        _ = (w * (U + 2 * T)) * T ^ 2 := by ring
        _ = T ^ 2 := by rw [p4, one_mul]
    · simp only; ring
    · have e : w * (end_ i - start i) / T ^ 2 * V = (w * (end_ i - start i)) * (V / T ^ 2) := by ring
      have v2 : V / T ^ 2 ≤ 1 := by rw [div_le_one hT2]; exact v1
      have v3 : 0 ≤ V / T ^ 2 := by positivity
      simp only
      rw [e, abs_mul, abs_mul, abs_of_pos p3, abs_of_nonneg v3]
      have h3 : 0 ≤ w * |end_ i - start i| := by positivity
      nlinarith
    · have e : w * (end_ i - start i) / T ^ 2 * K = (w / T ^ 2 * (end_ i - start i)) * K := by ring
      have h3 : 0 ≤ w / T ^ 2 := by positivity
      simp only
      rw [e, abs_mul, abs_mul, abs_of_nonneg h3]
      have h4 : 0 ≤ w / T ^ 2 * |end_ i - start i| := by positivity
      nlinarith [abs_nonneg K]
  · have hd := (h.done hm (k - 1 - off m1 m2 5)).2
    rw [show k - 1 - off m1 m2 5 + 1 + off m1 m2 5 = k by omega] at hd
    rw [hd]
    refine ⟨⟨1, by norm_num, le_refl _, by simp⟩, ?_, ?_⟩
    · simpa using (hv i).le
    · simpa using (hj i).le

/-! ### Concrete cases -/

/-- One axis, maximum velocity 1, jerk 1, sampling time 1. -/
noncomputable def cfgEx : Cfg 0 := ⟨fun _ => 1, fun _ => 1, 1⟩

theorem ex_norms (a : ℝ) (ha : 0 < a) : vn cfgEx (fun _ => 0) (fun _ => a) = 1 / a ∧ jn cfgEx (fun _ => 0) (fun _ => a) = 1 / a := by
  have hn : minNorm (n := 0) (fun _ => 1) (fun _ => a - 0) = ((1 / a : ℝ) : WithTop ℝ) := by
    obtain ⟨i, hi⟩ := ConstAcc.minNorm_mem (n := 0) (fun _ => 1) (fun _ => a - 0)
    rw [hi]
    simp [ConstAcc.norm1, ha.ne', abs_of_pos ha]
  constructor
  · show (minNorm (n := 0) (fun _ => 1) (fun _ => a - 0)).untopD 0 = _
    rw [hn]; rfl
  · show (minNorm (n := 0) (fun _ => 1) (fun _ => a - 0)).untopD 0 = _
    rw [hn]; rfl

/-- Non-vacuity: with velocity and jerk limited by 1, a move over distance 10 is long enough, a move over distance 1 is short. -/
example : 4 * vn cfgEx (fun _ => 0) (fun _ => 10) ^ 3 < jn cfgEx (fun _ => 0) (fun _ => 10) ∧
    jn cfgEx (fun _ => 0) (fun _ => 1) ≤ 4 * vn cfgEx (fun _ => 0) (fun _ => 1) ^ 3 ∧ eps ≤ cfgEx.dt ∧
    (∀ i, 0 < cfgEx.velMax i) ∧ (∀ i, 0 < cfgEx.jerk i) := by
  obtain ⟨a, b⟩ := ex_norms 10 (by norm_num)
  obtain ⟨c, d⟩ := ex_norms 1 (by norm_num)
  rw [a, b, c, d]
  refine ⟨by norm_num, by norm_num, by norm_num [cfgEx, eps], fun _ => by norm_num [cfgEx], fun _ => by norm_num [cfgEx]⟩

end Verif.Planner.ConstJerk
