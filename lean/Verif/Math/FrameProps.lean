/-
C51: frames and coordinate systems are unique; composition; a failed lookup blocks a name (violation).
-/
import Verif.Math.Frame
import Verif.Math.MatrixProps
import Mathlib.Data.Matrix.Mul
import Mathlib.Tactic.FinCases
import Mathlib.Algebra.BigOperators.Fin

set_option linter.unusedSectionVars false

namespace Verif.Math.Frame
variable {K : Type} [CommRing K]

/-- Invariant of all reachable states. -/
structure Inv (s : St K) : Prop where
  objLt : ∀ p, s.next ≤ p → s.obj p = none
  csLt : ∀ p, s.next ≤ p → s.csLive p = none
  listLive : ∀ p ∈ s.list, ∃ F, s.obj p = some F
  uniq : ∀ p ∈ s.list, ∀ q ∈ s.list, ∀ F G, s.obj p = some F → s.obj q = some G → F.a = G.a → F.b = G.b → p = q
  csIff : ∀ p id, s.csLive p = some id ↔ s.cs id = some (some p)

theorem getFrame_none (s : St K) (a b : Nat) :
    getFrame s a b = none ↔ ∀ p ∈ s.list, ∀ F, s.obj p = some F → ¬ (F.a = a ∧ F.b = b) := by
  unfold getFrame
  rw [List.find?_eq_none]
  constructor
  · intro h p hp F hF
    have := h p hp
    rw [hF] at this
    simpa using this
  · intro h p hp
    cases hF : s.obj p with
    | none => simp
    | some F => simpa using h p hp F hF

theorem getFrame_some (s : St K) (a b p : Nat) (h : getFrame s a b = some p) :
    p ∈ s.list ∧ ∃ F, s.obj p = some F ∧ F.a = a ∧ F.b = b := by
  unfold getFrame at h
  refine ⟨List.mem_of_find?_eq_some h, ?_⟩
  have := List.find?_some h
  cases hF : s.obj p with
  | none => rw [hF] at this; simp at this
  | some F => rw [hF] at this; exact ⟨F, rfl, by simpa using this⟩

theorem inv_newFrame (s : St K) (h : Inv s) (a b : Nat) (T : Mat 4 4 K) : Inv (newFrame s a b T).1 := by
  unfold newFrame
  cases hg : getFrame s a b with
  | some p => exact h
  | none =>
    rw [getFrame_none] at hg
    have hnl : s.next ∉ s.list := by
      intro hm
      obtain ⟨F, hF⟩ := h.listLive _ hm
      rw [h.objLt s.next (le_refl _)] at hF
      exact absurd hF (by simp)
    simp only
    refine ⟨?_, ?_, ?_, ?_, h.csIff⟩
    · intro p hp
      simp only at hp
      simp only [upd]
      rw [if_neg (by omega)]
      exact h.objLt p (by omega)
    · intro p hp; simp only at hp; exact h.csLt p (by omega)
    · intro p hp
      simp only [List.mem_append, List.mem_singleton] at hp
      simp only [upd]
      by_cases hpn : p = s.next
      · exact ⟨_, by rw [if_pos hpn]⟩
      · rw [if_neg hpn]
        exact h.listLive p (hp.resolve_right hpn)
    · intro p hp q hq F G hF hG hA hB
      simp only [List.mem_append, List.mem_singleton] at hp hq
      simp only [upd] at hF hG
      by_cases hpn : p = s.next
      · by_cases hqn : q = s.next
        · rw [hpn, hqn]
        · rw [if_pos hpn] at hF
          rw [if_neg hqn] at hG
          simp only [Option.some.injEq] at hF
          subst hF
          exact absurd ⟨hA.symm, hB.symm⟩ (hg q (hq.resolve_right hqn) G hG)
      · rw [if_neg hpn] at hF
        by_cases hqn : q = s.next
        · rw [if_pos hqn] at hG
          simp only [Option.some.injEq] at hG
          subst hG
          exact absurd ⟨hA, hB⟩ (hg p (hp.resolve_right hpn) F hF)
        · rw [if_neg hqn] at hG
          exact h.uniq p (hp.resolve_right hpn) q (hq.resolve_right hqn) F G hF hG hA hB

theorem inv_step (s : St K) (h : Inv s) (op : Op K) : Inv (step s op) := by
  cases op with
  | newCS id =>
    simp only [step, newCS]
    cases hc : s.cs id with
    | some p => exact h
    | none =>
      refine ⟨?_, ?_, h.listLive, h.uniq, ?_⟩
      · intro p hp; simp only at hp; exact h.objLt p (by omega)
      · intro p hp
        simp only at hp
        simp only [upd]
        rw [if_neg (by omega)]
        exact h.csLt p (by omega)
      · intro p id'
        simp only [upd]
        have hn := h.csLt s.next (le_refl _)
        by_cases h1 : p = s.next
        · subst h1
          by_cases h2 : id' = id
          · simp [h2]
          · rw [if_pos rfl, if_neg h2, ← h.csIff, hn]
            simp [Ne.symm h2]
        · by_cases h2 : id' = id
          · rw [if_neg h1, if_pos h2, h2, h.csIff, hc]
            simp [Ne.symm h1]
          · rw [if_neg h1, if_neg h2, h.csIff]
  | delCS p =>
    simp only [step, delCS]
    cases hc : s.csLive p with
    | none => exact h
    | some id =>
      refine ⟨h.objLt, ?_, h.listLive, h.uniq, ?_⟩
      · intro q hq
        simp only [upd]
        split
        · rfl
        · exact h.csLt q hq
      · intro q id'
        simp only [upd]
        by_cases h1 : q = p
        · subst h1
          rw [if_pos rfl]
          by_cases h2 : id' = id
          · simp [h2]
          · rw [if_neg h2, ← h.csIff, hc]
            simp [Ne.symm h2]
        · rw [if_neg h1]
          by_cases h2 : id' = id
          · rw [if_pos h2, h2, h.csIff, (h.csIff p id).1 hc]
            simp [Ne.symm h1]
          · rw [if_neg h2, h.csIff]
  | getCS id =>
    simp only [step, getCS]
    cases hc : s.cs id with
    | some p => exact h
    | none =>
      refine ⟨h.objLt, h.csLt, h.listLive, h.uniq, ?_⟩
      intro q id'
      simp only [upd]
      by_cases h2 : id' = id
      · rw [if_pos h2, h2, h.csIff, hc]; simp
      · rw [if_neg h2, h.csIff]
  | newFrame a b T => exact inv_newFrame s h a b T
  | delFrame p =>
    simp only [step, delFrame]
    refine ⟨?_, h.csLt, ?_, ?_, h.csIff⟩
    · intro q hq
      simp only [upd]
      split
      · rfl
      · exact h.objLt q hq
    · intro q hq
      simp only [List.mem_filter, decide_eq_true_eq] at hq
      simp only [upd]
      rw [if_neg hq.2]
      exact h.listLive q hq.1
    · intro q hq r hr F G hF hG
      simp only [List.mem_filter, decide_eq_true_eq] at hq hr
      simp only [upd, if_neg hq.2, if_neg hr.2] at hF hG
      exact h.uniq q hq.1 r hr.1 F G hF hG
  | setFrame p T =>
    simp only [step, setFrame]
    cases hc : s.obj p with
    | none => exact h
    | some F0 =>
      refine ⟨?_, h.csLt, ?_, ?_, h.csIff⟩
      · intro q hq
        simp only [upd]
        have := h.objLt q hq
        rw [if_neg (by rintro rfl; rw [this] at hc; simp at hc)]
        exact this
      · intro q hq
        simp only [upd]
        by_cases h1 : q = p
        · exact ⟨_, by rw [if_pos h1]⟩
        · rw [if_neg h1]; exact h.listLive q hq
      · have hsame : ∀ q F, upd s.obj p (some { F0 with T := T }) q = some F →
            ∃ F', s.obj q = some F' ∧ F'.a = F.a ∧ F'.b = F.b := by
          intro q F hF
          simp only [upd] at hF
          by_cases h1 : q = p
          · rw [if_pos h1] at hF
            simp only [Option.some.injEq] at hF
            subst hF
            exact ⟨F0, by rw [h1, hc], rfl, rfl⟩
          · rw [if_neg h1] at hF
            exact ⟨F, hF, rfl, rfl⟩
        intro q hq r hr F G hF hG hA hB
        obtain ⟨F', hF', a1, b1⟩ := hsame q F hF
        obtain ⟨G', hG', a2, b2⟩ := hsame r G hG
        exact h.uniq q hq r hr F' G' hF' hG' (by rw [a1, a2, hA]) (by rw [b1, b2, hB])
  | copyFrame p =>
    simp only [step, copyFrame]
    cases hc : s.obj p with
    | none => exact h
    | some F0 =>
      have hne : ∀ q ∈ s.list, q ≠ s.next := by
        rintro q hq rfl
        obtain ⟨F, hF⟩ := h.listLive _ hq
        rw [h.objLt s.next (le_refl _)] at hF
        simp at hF
      refine ⟨?_, ?_, ?_, ?_, h.csIff⟩
      · intro q hq
        simp only at hq
        simp only [upd]
        rw [if_neg (by omega)]
        exact h.objLt q (by omega)
      · intro q hq; simp only at hq; exact h.csLt q (by omega)
      · intro q hq
        simp only [upd]
        rw [if_neg (hne q hq)]
        exact h.listLive q hq
      · intro q hq r hr F G hF hG
        simp only [upd, if_neg (hne q hq), if_neg (hne r hr)] at hF hG
        exact h.uniq q hq r hr F G hF hG
  | mulFrame p q g =>
    simp only [step, mulFrame]
    split
    · split
      · exact h
      · exact inv_newFrame s h _ _ _
    · exact h

theorem inv_run (ops : List (Op K)) : Inv (run ops) := by
  unfold run
  have : ∀ (l : List (Op K)) (s : St K), Inv s → Inv (l.foldl step s) := by
    intro l
    induction l with
    | nil => intro s h; exact h
    | cons op l ih => intro s h; exact ih _ (inv_step s h op)
  refine this ops init ⟨fun _ _ => rfl, fun _ _ => rfl, by simp [init], by simp [init], by simp [init]⟩

/-- **C51** After every history: at most one registered frame per pair of coordinate systems, and `getFrame`
returns exactly that frame (or nothing if there is none). -/
theorem frames_unique (ops : List (Op K)) (a b p : Nat) :
    getFrame (run ops) a b = some p ↔
      p ∈ (run ops).list ∧ ∃ F, (run ops).obj p = some F ∧ F.a = a ∧ F.b = b := by
  have h := inv_run ops
  refine ⟨getFrame_some _ a b p, ?_⟩
  rintro ⟨hp, F, hF, ha, hb⟩
  cases hg : getFrame (run ops) a b with
  | none => exact absurd ⟨ha, hb⟩ ((getFrame_none _ a b).1 hg p hp F hF)
  | some q =>
    obtain ⟨hq, G, hG, ha', hb'⟩ := getFrame_some _ a b q hg
    rw [h.uniq p hp q hq F G hF hG (by rw [ha, ha']) (by rw [hb, hb'])]

/-- **C51** At most one coordinate system per name, and the lookup of an existing one returns it without any
effect. -/
theorem coordinate_systems_unique (ops : List (Op K)) (p q : Nat) (id : String)
    (hp : (run ops).csLive p = some id) :
    ((run ops).csLive q = some id → q = p) ∧ getCS (run ops) id = (run ops, some p) ∧
      (newCS (run ops) id).2 = none := by
  have h := inv_run ops
  have hc := (h.csIff p id).1 hp
  refine ⟨?_, ?_, ?_⟩
  · intro hq
    have := (h.csIff q id).1 hq
    rw [hc] at this
    simpa using this.symm
  · simp only [getCS, hc]
  · simp only [newCS, hc]

example : (newCS (run [.newCS "a", .newCS "b"] : St ℤ) "b").2 = none := (coordinate_systems_unique [.newCS "a", .newCS "b"] 1 0 "b" rfl).2.2

/-- **C51** Composition is refused exactly if the inner coordinate systems differ or a frame for the resulting
pair is registered; otherwise the result is registered for the outer pair and its transformation is the product. -/
theorem mul_frames (ops : List (Op K)) (p q : Nat) (g : Mat 4 4 K) (F G : FrameObj K)
    (hF : (run ops).obj p = some F) (hG : (run ops).obj q = some G) :
    ((mulFrame (run ops) p q g).2 = none ↔
      F.b ≠ G.a ∨ ∃ r ∈ (run ops).list, ∃ H, (run ops).obj r = some H ∧ H.a = F.a ∧ H.b = G.b) ∧
    (∀ r, (mulFrame (run ops) p q g).2 = some r →
      getFrame (mulFrame (run ops) p q g).1 F.a G.b = some r ∧
      ∃ H, (mulFrame (run ops) p q g).1.obj r = some H ∧ Mat.toM H.T = Mat.toM F.T * Mat.toM G.T) := by
  have hm : mulFrame (run ops) p q g =
      if F.b ≠ G.a then (run ops, none) else newFrame (run ops) F.a G.b (Mat.mul F.T G.T g) := by
    simp only [mulFrame, hF, hG]
  have hrun : (mulFrame (run ops) p q g).1 = run (ops ++ [Op.mulFrame p q g]) := by
    unfold run; rw [List.foldl_append]; rfl
  constructor
  · rw [hm]
    by_cases hb : F.b ≠ G.a
    · simp [hb]
    · rw [if_neg hb]
      unfold newFrame
      cases hg : getFrame (run ops) F.a G.b with
      | none =>
        rw [getFrame_none] at hg
        simp only [hb, false_or]
        constructor
        · intro h; simp at h
        · rintro ⟨r, hr, H, hH, h1, h2⟩
          exact absurd ⟨h1, h2⟩ (hg r hr H hH)
      | some r =>
        obtain ⟨h1, H, h2⟩ := getFrame_some _ _ _ _ hg
        simp only [true_iff]
        exact Or.inr ⟨r, h1, H, h2⟩
  · intro r hr
    have hres : (mulFrame (run ops) p q g).1.obj r = some ⟨F.a, G.b, Mat.mul F.T G.T g⟩ ∧
        r ∈ (mulFrame (run ops) p q g).1.list := by
      rw [hm] at hr ⊢
      by_cases hb : F.b ≠ G.a
      · rw [if_pos hb] at hr; simp at hr
      · rw [if_neg hb] at hr ⊢
        unfold newFrame at hr ⊢
        cases hg : getFrame (run ops) F.a G.b with
        | some r' => rw [hg] at hr; simp at hr
        | none =>
          rw [hg] at hr
          simp only [Option.some.injEq] at hr
          subst hr
          simp [upd]
    refine ⟨?_, _, hres.1, ?_⟩
    · rw [hrun, frames_unique]
      rw [hrun] at hres
      exact ⟨hres.2, _, hres.1, rfl, rfl⟩
    · exact Mat.toM_mul _ _ _

/-- Deleting a frame removes exactly its registration. -/
theorem delete_frame (ops : List (Op K)) (p a b r : Nat) :
    getFrame (delFrame (run ops) p) a b = some r ↔ r ≠ p ∧ getFrame (run ops) a b = some r := by
  have hrun : delFrame (run ops) p = run (ops ++ [Op.delFrame p]) := by
    unfold run; rw [List.foldl_append]; rfl
  rw [hrun, frames_unique, ← hrun, frames_unique]
  simp only [delFrame, List.mem_filter, decide_eq_true_eq, upd]
  constructor
  · rintro ⟨⟨h1, h2⟩, F, h3, h4⟩
    rw [if_neg h2] at h3
    exact ⟨h2, h1, F, h3, h4⟩
  · rintro ⟨h2, h1, F, h3, h4⟩
    exact ⟨⟨h1, h2⟩, F, by rw [if_neg h2]; exact h3, h4⟩

/-- The history contains no lookup of a name for which no coordinate system existed at that time. -/
def NoBadLookup (ops : List (Op K)) : Prop :=
  ∀ pre post id, ops = pre ++ Op.getCS id :: post → ∃ p, (run pre).csLive p = some id

theorem newFrame_cs (s : St K) (a b : Nat) (T : Mat 4 4 K) : (newFrame s a b T).1.cs = s.cs := by
  unfold newFrame; split <;> rfl

theorem not_blocked (ops : List (Op K)) : NoBadLookup ops → ∀ id, (run ops).cs id ≠ some none := by
  induction ops using List.reverseRecOn with
  | nil => intro _ id; simp [run, init]
  | append_singleton l op ih =>
    intro hn id
    have hl : NoBadLookup l := by
      intro pre post id' h
      exact hn pre (post ++ [op]) id' (by rw [h]; simp)
    have ih' := ih hl
    have hrun : run (l ++ [op]) = step (run l) op := by unfold run; rw [List.foldl_append]; rfl
    rw [hrun]
    cases op with
    | newCS id' =>
      simp only [step, newCS]
      cases hc : (run l).cs id' with
      | some p => exact ih' id
      | none =>
        simp only [upd]
        split
        · simp
        · exact ih' id
    | delCS p =>
      simp only [step, delCS]
      cases hc : (run l).csLive p with
      | none => exact ih' id
      | some id' =>
        simp only [upd]
        split
        · simp
        · exact ih' id
    | getCS id' =>
      obtain ⟨p, hp⟩ := hn l [] id' rfl
      have := ((inv_run l).csIff p id').1 hp
      simp only [step, getCS, this]
      exact ih' id
    | newFrame a b T => simp only [step, newFrame_cs]; exact ih' id
    | delFrame p => exact ih' id
    | setFrame p T => simp only [step, setFrame]; split <;> exact ih' id
    | copyFrame p => simp only [step, copyFrame]; split <;> exact ih' id
    | mulFrame p q g =>
      simp only [step, mulFrame]
      split
      · split
        · exact ih' id
        · rw [newFrame_cs]; exact ih' id
      · exact ih' id

/-- **C51** (partial) Without lookups of missing names, a coordinate system can be constructed exactly if none
with that name exists.  Missing: the same for arbitrary histories, refuted by `lookup_blocks_name`. -/
theorem construct_iff_partial (ops : List (Op K)) (hn : NoBadLookup ops) (id : String) :
    (newCS (run ops) id).2 = none ↔ ∃ p, (run ops).csLive p = some id := by
  have h := inv_run ops
  unfold newCS
  cases hc : (run ops).cs id with
  | none =>
    simp only [h.csIff, hc]
    simp
  | some o =>
    cases o with
    | none => exact absurd hc (not_blocked ops hn id)
    | some p => simp only [true_iff]; exact ⟨p, (h.csIff p id).2 hc⟩

example : (newCS (run [.newCS "a"] : St ℤ) "a").2 = none := by
  refine (construct_iff_partial [.newCS "a"] ?_ "a").2 ⟨0, rfl⟩
  intro pre post id h
  cases pre with
  | nil => simp at h
  | cons a l => simp at h

/-- **C51 violated**: after every history in which a name is unused, a lookup of the name makes every later
construction with it fail, although no coordinate system of that name exists. -/
theorem lookup_blocks_name (ops : List (Op K)) (id : String) (hfree : (run ops).cs id = none) :
    (newCS (run ops) id).2 ≠ none ∧
    (∀ p, (run (ops ++ [Op.getCS id])).csLive p ≠ some id) ∧ (newCS (run (ops ++ [Op.getCS id])) id).2 = none := by
  have hrun : run (ops ++ [Op.getCS id]) = (getCS (run ops) id).1 := by
    unfold run; rw [List.foldl_append]; rfl
  have hg : (getCS (run ops) id).1.cs id = some none := by
    simp only [getCS, hfree, upd, if_true]
  refine ⟨?_, ?_, ?_⟩
  · simp only [newCS, hfree]; simp
  · intro p hp
    have := ((inv_run (ops ++ [Op.getCS id])).csIff p id).1 hp
    rw [hrun, hg] at this
    simp at this
  · rw [hrun]
    simp only [newCS, hg]

example : (newCS (run [.newCS "a", .getCS "b"] : St ℤ) "b").2 = none := (lookup_blocks_name [.newCS "a"] "b" rfl).2.2

/-! ### Homogeneous transformations -/

theorem at_homog (R : Mat 3 3 K) (r : Mat 3 1 K) (T : Mat 4 4 K) (i j : Fin 4) :
    (homog R r T).at' i j =
      if (i : Nat) < 3 then (if (j : Nat) < 3 then R.at' i j else r.at' i 0) else (if (j : Nat) < 3 then 0 else 1) := by
  have hv : ∀ k, r.value k = r.at' k 0 := by intro k; simp [Mat.at']
  fin_cases i <;> fin_cases j <;>
    simp [homog, List.range_succ, Mat.at_set, hv]

/-- **C51** `set(R, r)` stores the transformation `x ↦ R x + r`: applied to a homogeneous vector `(x, 1)` the
matrix returns `(R x + r, 1)`, whatever it contained before. -/
theorem homog_acts (R : Mat 3 3 K) (r : Mat 3 1 K) (T : Mat 4 4 K) (x : Fin 3 → K) :
    (Mat.toM (homog R r T)).mulVec (Fin.snoc x 1 : Fin 4 → K) =
      (Fin.snoc ((Mat.toM R).mulVec x + fun i : Fin 3 => r.at' i 0) 1 : Fin 4 → K) := by
  funext i
  rw [Matrix.mulVec, dotProduct, Fin.sum_univ_castSucc]
  simp only [Fin.snoc_castSucc, Fin.snoc_last, Mat.toM, at_homog, mul_one]
  revert i; refine Fin.lastCases ?_ (fun i => ?_)
  · rw [Fin.snoc_last]; simp
  · simp [Matrix.mulVec, dotProduct, Mat.toM]

/-- **C51** Composed frames compose their transformations: `(F * G) x = F (G x)`. -/
theorem composed_acts (A B g : Mat 4 4 K) (v : Fin 4 → K) :
    (Mat.toM (Mat.mul A B g)).mulVec v = (Mat.toM A).mulVec ((Mat.toM B).mulVec v) := by
  rw [Mat.toM_mul, Matrix.mulVec_mulVec]

/-- Non-vacuity: two coordinate systems and a frame between them, then composing with the way back. -/
example : let ops : List (Op ℤ) := [.newCS "a", .newCS "b", .newFrame 0 1 ⟨fun _ => 1⟩, .newFrame 1 0 ⟨fun _ => 2⟩]
    (run ops).list = [2, 3] ∧ (mulFrame (run ops) 2 3 ⟨fun _ => 0⟩).2 = some 4 ∧
    (mulFrame (run ops) 2 2 ⟨fun _ => 0⟩).2 = none ∧ (run ops).cs "c" = none := by
  refine ⟨rfl, rfl, rfl, rfl⟩

end Verif.Math.Frame
