/-
C76: the clock of the constant-acceleration planner in double arithmetic.
-/
import Verif.Planner.ConstAccClock

namespace Verif.Planner.Clock

/-! ### Rounding -/

theorem log2_bounds {n : Nat} (h : 2 ^ 53 ≤ n) :
    53 ≤ n.log2 ∧ 2 ^ n.log2 ≤ n ∧ n < 2 ^ (n.log2 + 1) := by
  have h0 : n ≠ 0 := by intro h0; subst h0; norm_num at h
  refine ⟨(Nat.le_log2 h0).2 h, Nat.log2_self_le h0, Nat.lt_log2_self⟩

/-- A double: at most 53 significant digits. -/
def IsDouble (n : Nat) : Prop := ∃ c e, c < 2 ^ 53 ∧ n = c * 2 ^ e

theorem rnd_cases (n : Nat) : (n < 2 ^ 53 ∧ rnd n = n) ∨
    ∃ e q r, 1 ≤ e ∧ 2 ^ 53 ≤ n ∧ n = q * 2 ^ e + r ∧ r < 2 ^ e ∧ 2 ^ 52 ≤ q ∧ q < 2 ^ 53 ∧ 2 ^ (52 + e) ≤ n ∧
      ((rnd n = q * 2 ^ e ∧ 2 * r ≤ 2 ^ e) ∨ (rnd n = (q + 1) * 2 ^ e ∧ 2 ^ e ≤ 2 * r)) := by
  by_cases h : n < 2 ^ 53
  · exact .inl ⟨h, by rw [rnd, if_pos h]⟩
  · right
    obtain ⟨h1, h2, h3⟩ := log2_bounds (not_lt.1 h)
    obtain ⟨e, he⟩ : ∃ e, n.log2 = 52 + e := ⟨n.log2 - 52, by omega⟩
    rw [he] at h2 h3
    have hp : 0 < 2 ^ e := Nat.pow_pos (by norm_num)
    refine ⟨e, n / 2 ^ e, n % 2 ^ e, by omega, not_lt.1 h, (Nat.div_add_mod' n (2 ^ e)).symm, Nat.mod_lt _ hp, ?_, ?_, h2, ?_⟩
    · rw [Nat.le_div_iff_mul_le hp, ← pow_add]; exact h2
    · rw [Nat.div_lt_iff_lt_mul hp, ← pow_add]
      rw [show 53 + e = 52 + e + 1 by omega]; exact h3
    · rw [rnd, if_neg h]
      simp only [he, Nat.add_sub_cancel_left]
      split
      · rename_i hc; right; exact ⟨rfl, by omega⟩
      · rename_i hc; left; exact ⟨rfl, by omega⟩

theorem rnd_isDouble (n : Nat) : IsDouble (rnd n) := by
  rcases rnd_cases n with ⟨h, he⟩ | ⟨e, q, r, h1, h2, h3, h4, h5, h6, h8, h7⟩
  · exact ⟨n, 0, h, by rw [he]; ring⟩
  · rcases h7 with ⟨h7, -⟩ | ⟨h7, -⟩
    · exact ⟨q, e, h6, h7⟩
    · by_cases hq : q + 1 < 2 ^ 53
      · exact ⟨q + 1, e, hq, h7⟩
      · have : q + 1 = 2 ^ 53 := by omega
        refine ⟨1, 53 + e, by norm_num, ?_⟩
        rw [h7, this, pow_add]; ring

/-- Rounding never falls below a double that is not larger than the exact value. -/
theorem le_rnd {t n : Nat} (ht : IsDouble t) (h : t ≤ n) : t ≤ rnd n := by
  rcases rnd_cases n with ⟨_, he⟩ | ⟨e, q, r, h1, h2, h3, h4, h5, h6, h8, h7⟩
  · rw [he]; exact h
  · have hlow : q * 2 ^ e ≤ rnd n := by
      rcases h7 with ⟨h7, -⟩ | ⟨h7, -⟩ <;> rw [h7]
      exact Nat.mul_le_mul_right _ (by omega)
    refine le_trans ?_ hlow
    by_cases hb : t < 2 ^ (52 + e)
    · refine le_trans hb.le ?_
      rw [pow_add]
      exact Nat.mul_le_mul_right _ h5
    · obtain ⟨c, e', hc, rfl⟩ := ht
      have hee : e ≤ e' := by
        by_contra hlt
        have h9 : c * 2 ^ e' < 2 ^ 53 * 2 ^ e' := Nat.mul_lt_mul_of_pos_right hc (Nat.pow_pos (by norm_num))
        rw [← pow_add] at h9
        have : 2 ^ (53 + e') ≤ 2 ^ (52 + e) := Nat.pow_le_pow_right (by norm_num) (by omega)
        omega
      obtain ⟨w, rfl⟩ := Nat.exists_eq_add_of_le hee
      have hp : 0 < 2 ^ e := Nat.pow_pos (by norm_num)
      have hm : c * 2 ^ (e + w) = (c * 2 ^ w) * 2 ^ e := by rw [pow_add]; ring
      rw [hm] at h ⊢
      refine Nat.mul_le_mul_right _ ?_
      have : (c * 2 ^ w) * 2 ^ e < (q + 1) * 2 ^ e := by
        calc _ ≤ n := h
          _ < _ := by rw [h3]; linarith
      have := Nat.lt_of_mul_lt_mul_right this
      omega

/-- Rounding error: at most half of `2^j` below `2^(53+j)`. -/
theorem rnd_err {n j : Nat} (h : n < 2 ^ (53 + j)) : 2 * rnd n ≤ 2 * n + 2 ^ j ∧ 2 * n ≤ 2 * rnd n + 2 ^ j := by
  rcases rnd_cases n with ⟨_, he⟩ | ⟨e, q, r, h1, h2, h3, h4, h5, h6, h8, h7⟩
  · rw [he]; exact ⟨Nat.le_add_right _ _, Nat.le_add_right _ _⟩
  · have hej : 2 ^ e ≤ 2 ^ j := by
      refine Nat.pow_le_pow_right (by norm_num) ?_
      by_contra hc
      have : 2 ^ (53 + j) ≤ 2 ^ (52 + e) := Nat.pow_le_pow_right (by norm_num) (by omega)
      omega
    rcases h7 with ⟨h7, hr⟩ | ⟨h7, hr⟩
    · rw [h7]; omega
    · rw [h7, add_mul]; omega

/-! ### The planner that never finishes -/

/-- Sampling time 0.001, in units of `2^-62`. -/
def dtMs : Nat := 4611686018427388

/-- An acceleration phase of 7981 samples, then anything. -/
def gMs (D2 D3 : Nat) : Par := ⟨62, dtMs, rnd (7981 * dtMs), D2, D3⟩

/-- Runs the clock `f` times and checks that the end of the phase is not seen. -/
def misses (dt D : Nat) : Nat → Nat → Bool
  | 0, t => decide (D + 2 ^ 23 < t)
  | f + 1, t => match rnd (t + dt) with
    | 0 => false
    | t' + 1 => !near 62 (t' + 1) D && misses dt D f (t' + 1)

theorem misses_ms : misses dtMs (rnd (7981 * dtMs)) 7982 0 = true := by decide +kernel

/-- While the end of phase 1 is missed. -/
theorem stay {g : Par} {s : St} (hf : s.finished = false) (hr : s.range = 1)
    (hn : near g.u (rnd (s.t + g.dt)) g.D1 = false) :
    (run g s).finished = false ∧ (run g s).range = 1 ∧ (run g s).t = rnd (s.t + g.dt) ∧
    (¬ rnd (s.t + g.dt) ≤ g.D1 → (run g s).shown = s.shown) := by
  unfold run
  simp only [hf, hr, hn, Bool.false_eq_true, if_false]
  split <;> simp_all

theorem misses_runs {g : Par} (hu : g.u = 62) (f : Nat) : ∀ k, misses g.dt g.D1 f (runs g k).t = true →
    (runs g k).finished = false → (runs g k).range = 1 →
    (∀ i, i ≤ f → (runs g (k + i)).finished = false ∧ (runs g (k + i)).range = 1) ∧
    g.D1 + 2 ^ 23 < (runs g (k + f)).t := by
  induction f with
  | zero =>
    intro k hm hf hr
    refine ⟨fun i hi => ?_, ?_⟩
    · rw [show k + i = k by omega]; exact ⟨hf, hr⟩
    · exact of_decide_eq_true hm
  | succ f ih =>
    intro k hm hf hr
    have hs : ∃ t', rnd ((runs g k).t + g.dt) = t' ∧ near 62 t' g.D1 = false ∧ misses g.dt g.D1 f t' = true := by
      rw [misses] at hm
      cases ht : rnd ((runs g k).t + g.dt) with
      | zero => rw [ht] at hm; cases hm
      | succ t' =>
        rw [ht] at hm
        have hm' := (Bool.and_eq_true _ _).mp hm
        exact ⟨_, rfl, Bool.not_eq_true' _ |>.mp hm'.1, hm'.2⟩
    obtain ⟨t', ht, hn, hm'⟩ := hs
    obtain ⟨a, b, c, -⟩ := stay (g := g) hf hr (by rw [ht, hu]; exact hn)
    have c' : (runs g (k + 1)).t = t' := by
      rw [← ht]; exact c
    obtain ⟨h1, h2⟩ := ih (k + 1) (by rw [c']; exact hm') a b
    refine ⟨fun i hi => ?_, ?_⟩
    · by_cases h0 : i = 0
      · subst h0; exact ⟨hf, hr⟩
      · have := h1 (i - 1) (by omega)
        rwa [show k + 1 + (i - 1) = k + i by omega] at this
    · rwa [show k + 1 + f = k + (f + 1) by omega] at h2

theorem far_not_near {t D : Nat} (h : D + 2 ^ 23 < t) : near 62 t D = false := by
  have : 2 ^ 23 ≤ rnd ((t - D) + (D - t)) := le_rnd ⟨1, 23, by norm_num, by norm_num⟩ (by omega)
  have e : epsM * 2 ^ 62 ≤ 2 ^ 23 * 2 ^ 92 := by norm_num [epsM]
  exact decide_eq_false (not_lt.2 (e.trans (Nat.mul_le_mul_right _ this)))

theorem run_t_isDouble (g : Par) (s : St) : IsDouble (run g s).t := by
  have h0 : IsDouble 0 := ⟨0, 0, by norm_num, by norm_num⟩
  unfold run
  simp only
  repeat' split
  all_goals first | exact rnd_isDouble _ | exact h0

theorem runs_t_isDouble (g : Par) : ∀ k, IsDouble (runs g k).t
  | 0 => ⟨0, 0, by norm_num, by norm_num [runs, start]⟩
  | k + 1 => run_t_isDouble g _

/-- **C76 violated.** With the sampling time 0.001 and an acceleration phase of 7981 samples (7.981 seconds), whatever the other phases, the
planner never finishes: the accumulated time misses the planned end of the phase by more than `1e-12`.  From then on
the outputs stay as they were computed for the last time in the acceleration phase. -/
theorem never_finishes (D2 D3 : Nat) (k : Nat) :
    (runs (gMs D2 D3) k).finished = false ∧
    (7982 ≤ k → (runs (gMs D2 D3) k).shown = (runs (gMs D2 D3) 7982).shown) := by
  obtain ⟨h1, h2⟩ := misses_runs (g := gMs D2 D3) rfl 7982 0 misses_ms rfl rfl
  rw [Nat.zero_add] at h2
  have tail : ∀ j, (runs (gMs D2 D3) (7982 + j)).finished = false ∧ (runs (gMs D2 D3) (7982 + j)).range = 1 ∧
      (gMs D2 D3).D1 + 2 ^ 23 < (runs (gMs D2 D3) (7982 + j)).t ∧
      (runs (gMs D2 D3) (7982 + j)).shown = (runs (gMs D2 D3) 7982).shown := by
    intro j
    induction j with
    | zero =>
      have := h1 7982 (le_refl _)
      rw [Nat.zero_add] at this
      exact ⟨this.1, this.2, h2, rfl⟩
    | succ j ih =>
      obtain ⟨a, b, c, d⟩ := ih
      have hle : (runs (gMs D2 D3) (7982 + j)).t ≤ rnd ((runs (gMs D2 D3) (7982 + j)).t + (gMs D2 D3).dt) :=
        le_rnd (runs_t_isDouble _ _) (Nat.le_add_right _ _)
      have hfar := lt_of_lt_of_le c hle
      obtain ⟨a', b', c', d'⟩ := stay (g := gMs D2 D3) a b (far_not_near hfar)
      refine ⟨a', b', ?_, ?_⟩
      · have : (runs (gMs D2 D3) (7982 + (j + 1))).t = _ := c'
        rw [this]; exact hfar
      · refine (d' ?_).trans d
        have := Nat.le_add_right (gMs D2 D3).D1 (2 ^ 23)
        omega
  by_cases hk : k ≤ 7982
  · have := (h1 k hk).1
    rw [Nat.zero_add] at this
    refine ⟨this, fun h => ?_⟩
    rw [show k = 7982 by omega]
  · obtain ⟨j, rfl⟩ := Nat.exists_eq_add_of_le (not_le.1 hk).le
    exact ⟨(tail j).1, fun _ => (tail j).2.2.2⟩

/-! ### When the planner finishes -/

/-- The accumulated time. -/
def clock (dt : Nat) : Nat → Nat
  | 0 => 0
  | k + 1 => rnd (clock dt k + dt)

theorem clock_err {dt m j : Nat} (h : 2 * (m * dt) + m * 2 ^ j < 2 ^ (54 + j)) :
    ∀ k, k ≤ m → 2 * clock dt k ≤ 2 * (k * dt) + k * 2 ^ j ∧ 2 * (k * dt) ≤ 2 * clock dt k + k * 2 ^ j := by
  intro k
  induction k with
  | zero => intro _; simp [clock]
  | succ k ih =>
    intro hk
    obtain ⟨h1, h2⟩ := ih (by omega)
    have hb : clock dt k + dt < 2 ^ (53 + j) := by
      have e : 2 ^ (54 + j) = 2 * 2 ^ (53 + j) := by rw [show 54 + j = (53 + j) + 1 by omega, pow_succ]; ring
      have h3 : (k + 1) * dt ≤ m * dt := Nat.mul_le_mul_right _ hk
      have h4 : k * 2 ^ j ≤ m * 2 ^ j := Nat.mul_le_mul_right _ (by omega)
      rw [e] at h
      rw [add_mul, one_mul] at h3
      omega
    obtain ⟨h5, h6⟩ := rnd_err hb
    rw [clock, add_mul, add_mul, one_mul, one_mul]
    omega

theorem clock_exact {dt m : Nat} (h : m * dt < 2 ^ 53) : ∀ k, k ≤ m → clock dt k = k * dt := by
  intro k
  induction k with
  | zero => intro _; simp [clock]
  | succ k ih =>
    intro hk
    have h3 : (k + 1) * dt ≤ m * dt := Nat.mul_le_mul_right _ hk
    rw [clock, ih (by omega), ← Nat.succ_mul, rnd, if_pos (lt_of_le_of_lt h3 h)]

/-- The planned time of a phase of `m` samples is recognised: `m * dt` is below `2^(53+j)` units of `2^-u`, and either `j` is 0 (all times are
exact) or the accumulated error, at most `(m + 1) * 2^j / 2` units, is below the tolerance `1e-12`. -/
structure Fine (u dt m j : Nat) : Prop where
  range : 2 * (m * dt) + m * 2 ^ j < 2 ^ (54 + j)
  prec : j = 0 ∨ (m + 1) * 2 ^ j * 2 ^ 92 < 2 * (epsM * 2 ^ u)
  dt : 2 * (epsM * 2 ^ u) ≤ dt * 2 ^ 92
  unit : u ≤ 92

theorem near_iff {u dt m j : Nat} (h : Fine u dt m j) {k : Nat} (hk : k ≤ m) :
    near u (clock dt k) (rnd (m * dt)) = true ↔ k = m := by
  obtain ⟨hr, hp, hd, hu⟩ := h
  have hex : j = 0 → clock dt k = k * dt ∧ rnd (m * dt) = m * dt := by
    rintro rfl
    have hb : m * dt < 2 ^ 53 := by omega
    exact ⟨clock_exact hb k hk, by rw [rnd, if_pos hb]⟩
  obtain ⟨h1, h2⟩ := clock_err hr k hk
  have hb : m * dt < 2 ^ (53 + j) := by
    have e : 2 ^ (54 + j) = 2 * 2 ^ (53 + j) := by rw [show 54 + j = (53 + j) + 1 by omega, pow_succ]; ring
    rw [e] at hr
    have := Nat.zero_le (m * 2 ^ j)
    omega
  obtain ⟨h3, h4⟩ := rnd_err hb
  have hE : epsM * 2 ^ u < 2 ^ 53 * 2 ^ 92 := by
    have : 2 ^ u ≤ 2 ^ 92 := Nat.pow_le_pow_right (by norm_num) hu
    calc epsM * 2 ^ u ≤ epsM * 2 ^ 92 := Nat.mul_le_mul_left _ this
      _ < 2 ^ 53 * 2 ^ 92 := by norm_num [epsM]
  have hM : 0 < epsM * 2 ^ u := Nat.mul_pos (by norm_num [epsM]) (Nat.pow_pos (by norm_num))
  rw [near, small, decide_eq_true_eq]
  generalize (2:Nat) ^ 92 = N at *
  generalize epsM * 2 ^ u = M at *
  generalize hx : (clock dt k - rnd (m * dt)) + (rnd (m * dt) - clock dt k) = x
  constructor
  · intro hn
    by_contra hne
    have hkm : k + 1 ≤ m := by omega
    have h5 : (k + 1) * dt ≤ m * dt := Nat.mul_le_mul_right _ hkm
    have h6 : (k + 1) * 2 ^ j ≤ m * 2 ^ j := Nat.mul_le_mul_right _ hkm
    rw [add_mul, one_mul] at h5 h6
    -- `2 x + (m + 1) 2^j ≥ 2 dt`
    rcases hp with hp | hp
    · obtain ⟨g1, g2⟩ := hex hp
      rw [g1, g2] at hx
      have hxd : dt ≤ x := by omega
      have h9 := Nat.mul_le_mul_right N hxd
      by_cases hx53 : x < 2 ^ 53
      · have : rnd x = x := by rw [rnd, if_pos hx53]
        rw [this] at hn
        omega
      · have : 2 ^ 53 ≤ rnd x := le_rnd ⟨1, 53, by norm_num, by norm_num⟩ (not_lt.1 hx53)
        have := Nat.mul_le_mul_right N this
        omega
    have h7 : 2 * dt ≤ 2 * x + (m + 1) * 2 ^ j := by rw [add_mul, one_mul]; omega
    have h8 : 2 * dt * N ≤ 2 * x * N + (m + 1) * 2 ^ j * N := by
      rw [← add_mul]; exact Nat.mul_le_mul_right _ h7
    have h9 : M ≤ x * N := by
      have e1 : 2 * dt * N = 2 * (dt * N) := by ring
      have e2 : 2 * x * N = 2 * (x * N) := by ring
      rw [e1, e2] at h8
      omega
    by_cases hx53 : x < 2 ^ 53
    · have : rnd x = x := by rw [rnd, if_pos hx53]
      rw [this] at hn
      omega
    · have : 2 ^ 53 ≤ rnd x := le_rnd ⟨1, 53, by norm_num, by norm_num⟩ (not_lt.1 hx53)
      have := Nat.mul_le_mul_right N this
      omega
  · intro hkm
    subst hkm
    rcases hp with hp | hp
    · obtain ⟨g1, g2⟩ := hex hp
      rw [g1, g2] at hx
      have : x = 0 := by omega
      rw [this, rnd, if_pos (by norm_num), Nat.zero_mul]
      exact hM
    have h7 : 2 * x ≤ (k + 1) * 2 ^ j := by rw [add_mul, one_mul]; omega
    have h8 : 2 * x * N ≤ (k + 1) * 2 ^ j * N := Nat.mul_le_mul_right _ h7
    have h9 : x * N < M := by
      have e2 : 2 * x * N = 2 * (x * N) := by ring
      rw [e2] at h8
      omega
    have hx53 : x < 2 ^ 53 := by
      by_contra hc
      have := Nat.mul_le_mul_right N (not_lt.1 hc)
      omega
    have : rnd x = x := by rw [rnd, if_pos hx53]
    rw [this]; exact h9

/-- Phase `r` lasts until the accumulated time is recognised as `D`. -/
def PhaseStep (g : Par) (r D : Nat) : Prop := ∀ s : St, s.finished = false → s.range = r →
  (near g.u (rnd (s.t + g.dt)) D = false →
    (run g s).finished = false ∧ (run g s).range = r ∧ (run g s).t = rnd (s.t + g.dt)) ∧
  (near g.u (rnd (s.t + g.dt)) D = true →
    (run g s).finished = false ∧ (run g s).range = r + 1 ∧ (run g s).t = 0)

theorem phaseStep1 (g : Par) : PhaseStep g 1 g.D1 := by
  intro s hf hr
  constructor <;> intro hn <;> unfold run <;> simp only [hf, hr, hn, Bool.false_eq_true, if_false, if_true] <;>
    split <;> simp_all

theorem phaseStep2 (g : Par) (hs : small g.u g.D2 = false) : PhaseStep g 2 g.D2 := by
  intro s hf hr
  constructor <;> intro hn <;> unfold run <;>
    simp only [hf, hr, hn, hs, Bool.false_eq_true, if_false, if_true, or_false, or_true] <;>
    split <;> simp_all

theorem phaseStep3 (g : Par) : PhaseStep g 3 g.D3 := by
  intro s hf hr
  constructor <;> intro hn <;> unfold run <;> simp only [hf, hr, hn, Bool.false_eq_true, if_false, if_true] <;>
    split <;> simp_all

theorem phase_runs {g : Par} {r D m j a : Nat} (hp : PhaseStep g r D) (hD : D = rnd (m * g.dt))
    (hF : Fine g.u g.dt m j) (h0 : (runs g a).finished = false) (h1 : (runs g a).range = r) (h2 : (runs g a).t = 0) :
    (∀ i, i < m → (runs g (a + i)).finished = false ∧ (runs g (a + i)).range = r ∧ (runs g (a + i)).t = clock g.dt i) ∧
    (1 ≤ m → (runs g (a + m)).finished = false ∧ (runs g (a + m)).range = r + 1 ∧ (runs g (a + m)).t = 0) := by
  have A : ∀ i, i < m → (runs g (a + i)).finished = false ∧ (runs g (a + i)).range = r ∧
      (runs g (a + i)).t = clock g.dt i := by
    intro i
    induction i with
    | zero => intro _; exact ⟨h0, h1, h2⟩
    | succ i ih =>
      intro hi
      obtain ⟨b0, b1, b2⟩ := ih (by omega)
      have hc : rnd ((runs g (a + i)).t + g.dt) = clock g.dt (i + 1) := by rw [b2]; rfl
      have hn : near g.u (rnd ((runs g (a + i)).t + g.dt)) D = false := by
        rw [hc, hD, Bool.eq_false_iff]
        intro hc'
        have := (near_iff hF (k := i + 1) hi.le).1 hc'
        omega
      obtain ⟨c0, c1, c2⟩ := (hp _ b0 b1).1 hn
      exact ⟨c0, c1, c2.trans hc⟩
  refine ⟨A, fun hm => ?_⟩
  obtain ⟨i, rfl⟩ : ∃ i, m = i + 1 := ⟨m - 1, by omega⟩
  obtain ⟨b0, b1, b2⟩ := A i (by omega)
  have hc : rnd ((runs g (a + i)).t + g.dt) = clock g.dt (i + 1) := by rw [b2]; rfl
  have hn : near g.u (rnd ((runs g (a + i)).t + g.dt)) D = true := by
    rw [hc, hD]
    exact (near_iff hF (le_refl _)).2 rfl
  exact (hp _ b0 b1).2 hn

theorem not_small {u dt m j : Nat} (h : Fine u dt m j) (hm : 1 ≤ m) : small u (rnd (m * dt)) = false := by
  obtain ⟨-, -, hd, hu⟩ := h
  have h1 : dt ≤ m * dt := Nat.le_mul_of_pos_left _ hm
  have hE : epsM * 2 ^ u < 2 ^ 53 * 2 ^ 92 := by
    have : 2 ^ u ≤ 2 ^ 92 := Nat.pow_le_pow_right (by norm_num) hu
    calc epsM * 2 ^ u ≤ epsM * 2 ^ 92 := Nat.mul_le_mul_left _ this
      _ < 2 ^ 53 * 2 ^ 92 := by norm_num [epsM]
  refine decide_eq_false (not_lt.2 ?_)
  generalize (2:Nat) ^ 92 = N at *
  generalize epsM * 2 ^ u = M at *
  by_cases hx : m * dt < 2 ^ 53
  · rw [rnd, if_pos hx]
    have := Nat.mul_le_mul_right N h1
    omega
  · have : 2 ^ 53 ≤ rnd (m * dt) := le_rnd ⟨1, 53, by norm_num, by norm_num⟩ (not_lt.1 hx)
    have := Nat.mul_le_mul_right N this
    omega

/-- **C76 (partial).** In double arithmetic a motion planned with phases of `m1`, `m2` and `m3` samples finishes after exactly as many runs as in exact
arithmetic, if each phase is short enough for the accumulated rounding error (`Fine`).  Missing: longer phases (`never_finishes`). -/
theorem finishes_partial (u dt m1 m2 m3 j1 j2 j3 : Nat) (h1 : 1 ≤ m1) (h3 : 1 ≤ m3)
    (f1 : Fine u dt m1 j1) (f2 : Fine u dt m2 j2) (f3 : Fine u dt m3 j3) (k : Nat) :
    (runs (planned u dt m1 m2 m3) k).finished = true ↔ m1 + max m2 1 + m3 + 1 ≤ k := by
  have p1 := phase_runs (g := planned u dt m1 m2 m3) (a := 0) (phaseStep1 _) rfl f1 rfl rfl rfl
  obtain ⟨q1, q2, q3⟩ := p1.2 h1
  rw [Nat.zero_add] at q1 q2 q3
  -- the middle phase
  have p2 : (∀ i, i < max m2 1 → (runs (planned u dt m1 m2 m3) (m1 + i)).finished = false) ∧
      (runs (planned u dt m1 m2 m3) (m1 + max m2 1)).finished = false ∧
      (runs (planned u dt m1 m2 m3) (m1 + max m2 1)).range = 3 ∧
      (runs (planned u dt m1 m2 m3) (m1 + max m2 1)).t = 0 := by
    by_cases hm : m2 = 0
    · subst hm
      have hD : (planned u dt m1 0 m3).D2 = 0 := by simp [planned, rnd]
      have hs : small (planned u dt m1 0 m3).u 0 = true := by
        refine decide_eq_true ?_
        have : 0 < epsM * 2 ^ (planned u dt m1 0 m3).u := Nat.mul_pos (by norm_num [epsM]) (Nat.pow_pos (by norm_num))
        omega
      refine ⟨fun i hi => ?_, ?_⟩
      · rw [show i = 0 by omega, Nat.add_zero]; exact q1
      · have : runs (planned u dt m1 0 m3) (m1 + max 0 1) =
            run (planned u dt m1 0 m3) (runs (planned u dt m1 0 m3) m1) := rfl
        rw [this]
        unfold run
        simp only [q1, q2, hD, hs, true_or, Bool.false_eq_true, if_false, if_true]
        split <;> simp
    · have := phase_runs (g := planned u dt m1 m2 m3) (a := m1) (phaseStep2 _ (not_small f2 (by omega))) rfl f2 q1 q2 q3
      rw [Nat.max_eq_left (by omega)]
      exact ⟨fun i hi => (this.1 i hi).1, this.2 (by omega)⟩
  obtain ⟨r0, r1, r2, r3⟩ := p2
  have p3 := phase_runs (g := planned u dt m1 m2 m3) (a := m1 + max m2 1) (phaseStep3 _) rfl f3 r1 r2 r3
  obtain ⟨s1, s2, s3⟩ := p3.2 h3
  have fin : ∀ i, (runs (planned u dt m1 m2 m3) (m1 + max m2 1 + m3 + 1 + i)).finished = true := by
    intro i
    induction i with
    | zero =>
      have : runs (planned u dt m1 m2 m3) (m1 + max m2 1 + m3 + 1 + 0) =
          run (planned u dt m1 m2 m3) (runs (planned u dt m1 m2 m3) (m1 + max m2 1 + m3)) := rfl
      rw [this]
      unfold run
      simp only [s1, s2, Bool.false_eq_true, if_false]
    | succ i ih =>
      have : runs (planned u dt m1 m2 m3) (m1 + max m2 1 + m3 + 1 + (i + 1)) =
          run (planned u dt m1 m2 m3) (runs (planned u dt m1 m2 m3) (m1 + max m2 1 + m3 + 1 + i)) := rfl
      rw [this]
      unfold run
      simp only [ih, if_true]
  constructor
  · intro h
    by_contra hk
    have : (runs (planned u dt m1 m2 m3) k).finished = false := by
      by_cases c1 : k < m1
      · have := (p1.1 k c1).1; rwa [Nat.zero_add] at this
      by_cases c2 : k < m1 + max m2 1
      · have := r0 (k - m1) (by omega)
        rwa [show m1 + (k - m1) = k by omega] at this
      by_cases c3 : k < m1 + max m2 1 + m3
      · have := (p3.1 (k - (m1 + max m2 1)) (by omega)).1
        rwa [show m1 + max m2 1 + (k - (m1 + max m2 1)) = k by omega] at this
      · rwa [show k = m1 + max m2 1 + m3 by omega]
    rw [this] at h
    cases h
  · intro hk
    obtain ⟨i, rfl⟩ := Nat.exists_eq_add_of_le hk
    exact fin i

/-- Non-vacuity: with the sampling time 0.001, phases of 3900 samples (3.9 seconds) are recognised; with the sampling time `2^-10`, phases
of `2^42` samples are. -/
example : Fine 62 dtMs 3900 11 ∧ Fine 10 1 (2 ^ 42) 0 :=
  ⟨⟨by norm_num [dtMs], .inr (by norm_num [epsM]), by norm_num [dtMs, epsM], by norm_num⟩,
    ⟨by norm_num, .inl rfl, by norm_num [epsM], by norm_num⟩⟩

end Verif.Planner.Clock
