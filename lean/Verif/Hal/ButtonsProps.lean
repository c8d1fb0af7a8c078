/-
C125: buttons as critical inputs.
-/
import Verif.Hal.Buttons
import Mathlib.Data.List.Induction

namespace Verif.Hal.Buttons

/-! ### Specification -/

/-- The last value the thread of object `d` has read for button `i`; a button which was never touched is released. -/
def pressed (d i : Nat) : List Op → Bool
  | [] => false
  | .event e j v :: os => if e = d ∧ j = i then v else pressed d i os
  | _ :: os => pressed d i os

/-- The names are distinct. -/
theorem names_nodup (k : Kind) : (names k).Nodup := by cases k <;> decide

/-- Each input reads its own button; an unknown name reads nothing. -/
theorem get_spec (k : Kind) (b : Nat → Bool) (i : Nat) (id : String) (h : (names k)[i]? = some id) : get k b id = b i := by
  have hi : i < (names k).length := by
    by_contra hc
    rw [List.getElem?_eq_none (by omega)] at h
    cases h
  cases k
  · simp only [names, List.length_cons, List.length_nil] at hi
    have : i = 0 ∨ i = 1 ∨ i = 2 := by omega
    rcases this with rfl | rfl | rfl <;> (cases h; simp [get])
  · simp only [names, List.length_cons, List.length_nil] at hi
    have : i = 0 ∨ i = 1 ∨ i = 2 ∨ i = 3 ∨ i = 4 ∨ i = 5 ∨ i = 6 ∨ i = 7 := by omega
    rcases this with rfl | rfl | rfl | rfl | rfl | rfl | rfl | rfl <;> (cases h; simp [get])
  · simp only [names, List.length_cons, List.length_nil] at hi
    have : i = 0 ∨ i = 1 := by omega
    rcases this with rfl | rfl <;> (cases h; simp [get])

example : get .mouse (fun i => i = 1) "rightMouseButton" = get .mouse (fun i => i = 1) "rightMouseButton" ∧ get .mouse (fun i => i == 0) "leftMouseButton" = true :=
  ⟨rfl, get_spec .mouse (fun i => i == 0) 0 _ rfl⟩

/-- The registered inputs after any operations: none, or all of them point to one object which was constructed. -/
def Owned (k : Kind) (w : World) : Prop :=
  (∀ n, w.inputs n = none) ∨ ∃ d, w.life d ≠ .unborn ∧ ∀ n, w.inputs n = if n ∈ names k then some d else none

theorem names_ne (k : Kind) : ∃ n, n ∈ names k := by cases k <;> exact ⟨_, List.mem_cons_self ..⟩

theorem any_iff (k : Kind) (w : World) (h : Owned k w) : ((names k).any fun n => (w.inputs n).isSome) = true ↔ ∃ d, w.life d ≠ .unborn ∧ ∀ n, w.inputs n = if n ∈ names k then some d else none := by
  constructor
  · intro ha
    rcases h with h | h
    · obtain ⟨n, hn, hs⟩ := List.any_eq_true.1 ha
      rw [h n] at hs
      cases hs
    · exact h
  · rintro ⟨d, -, hd⟩
    obtain ⟨n, hn⟩ := names_ne k
    exact List.any_eq_true.2 ⟨n, hn, by rw [hd n, if_pos hn]; rfl⟩

theorem step_read (k : Kind) (w : World) (id : String) : (step k w (.read id)).1 = w := by
  unfold step
  simp only
  split
  · rfl
  · split <;> rfl

theorem owned_step (k : Kind) (w : World) (o : Op) (h : Owned k w) : Owned k (step k w o).1 := by
  have life : ∀ d (l : Life), l ≠ .unborn → Owned k { w with life := fun e => if e = d then l else w.life e } := by
    intro d l hl
    rcases h with h | ⟨c, hc, hn⟩
    · exact Or.inl h
    · refine Or.inr ⟨c, ?_, hn⟩
      show (if c = d then l else w.life c) ≠ _
      split
      · exact hl
      · exact hc
  cases o with
  | construct d opens =>
    unfold step
    simp only
    split
    · split
      · exact life d .gone (by decide)
      · rename_i ha
        have hnone : ∀ n, w.inputs n = none := by
          rcases h with h | h
          · exact h
          · exact absurd ((any_iff k w (Or.inr h)).2 h) ha
        refine Or.inr ⟨d, ?_, fun n => ?_⟩
        · show (if d = d then Life.alive else _) ≠ _
          rw [if_pos rfl]
          decide
        · show (if n ∈ names k then some d else w.inputs n) = _
          rw [hnone n]
    · exact h
  | destroy d =>
    unfold step
    simp only
    split
    · exact life d .gone (by decide)
    · exact h
  | event d i v =>
    unfold step
    simp only
    split
    · exact h
    · exact h
  | read id => rw [step_read]; exact h

theorem owned_run (k : Kind) (os : List Op) (w : World) (h : Owned k w) : Owned k (run k w os) := by
  induction os generalizing w with
  | nil => exact h
  | cons o os ih => exact ih _ (owned_step k w o h)

theorem step_owner (k : Kind) (w : World) (o : Op) (d : Nat) (h : Owned k w) (hn : ∃ n ∈ names k, w.inputs n = some d) :
    (step k w o).1.inputs = w.inputs := by
  obtain ⟨n, hm, hnd⟩ := hn
  have ha : ((names k).any fun n => (w.inputs n).isSome) = true := List.any_eq_true.2 ⟨n, hm, by rw [hnd]; rfl⟩
  cases o with
  | construct d opens =>
    unfold step
    simp only [ha, if_true]
    split <;> rfl
  | destroy d => unfold step; simp only; split <;> rfl
  | event d i v => unfold step; simp only; split <;> rfl
  | read id => rw [step_read]

/-- Operations after the construction of `d` which do not destroy it. -/
theorem after (k : Kind) (d : Nat) (opens : Bool) (os : List Op) (h : .destroy d ∉ os) :
    let w := run k World.start (.construct d opens :: os)
    w.life d = .alive ∧ (∀ n ∈ names k, w.inputs n = some d) ∧ ∀ i, w.button d i = pressed d i os.reverse := by
  induction os using List.reverseRecOn with
  | nil =>
    have : run k World.start [.construct d opens] = (step k World.start (.construct d opens)).1 := rfl
    intro w
    have hw : w = (step k World.start (.construct d opens)).1 := this
    have hany : ((names k).any fun n => (World.start.inputs n).isSome) = false := by simp [World.start]
    rw [hw]
    unfold step
    simp only
    rw [if_pos (by rfl), if_neg (by rw [hany]; decide)]
    refine ⟨if_pos rfl, fun n hn => if_pos hn, fun i => ?_⟩
    show (if d = d then fun _ => false else World.start.button d) i = _
    rw [if_pos rfl]
    rfl
  | append_singleton os o ih =>
    have hd : Op.destroy d ∉ os := fun hm => h (List.mem_append_left _ hm)
    have ho : o ≠ .destroy d := fun e => h (List.mem_append_right _ (by rw [e]; exact List.mem_cons_self ..))
    obtain ⟨h1, h2, h3⟩ := ih hd
    intro w
    have hw : w = (step k (run k World.start (.construct d opens :: os)) o).1 := by
      show run k World.start (.construct d opens :: (os ++ [o])) = _
      rw [← List.cons_append, run, List.foldl_append]
      rfl
    have hown := owned_run k (.construct d opens :: os) World.start (Or.inl fun _ => rfl)
    revert hw h1 h2 h3 hown
    generalize run k World.start (.construct d opens :: os) = v
    intro h1 h2 h3 hw hown
    obtain ⟨n0, hn0⟩ := names_ne k
    have hin := step_owner k v o d hown ⟨n0, hn0, h2 n0 hn0⟩
    rw [List.reverse_append, List.reverse_cons, List.reverse_nil, List.nil_append, List.singleton_append, hw]
    refine ⟨?_, fun n hn => by rw [hin]; exact h2 n hn, ?_⟩
    · cases o with
      | construct e op =>
        unfold step
        simp only
        by_cases hu : v.life e = .unborn
        · have hne : d ≠ e := fun he => by rw [← he, h1] at hu; cases hu
          rw [if_pos hu]
          split
          · show (if d = e then _ else v.life d) = _
            rw [if_neg hne, h1]
          · show (if d = e then _ else v.life d) = _
            rw [if_neg hne, h1]
        · rw [if_neg hu]; exact h1
      | destroy e =>
        unfold step
        simp only
        split
        · show (if d = e then _ else v.life d) = _
          rw [if_neg (fun he : d = e => ho (by rw [he])), h1]
        · exact h1
      | event e j b => unfold step; simp only; split <;> exact h1
      | read id => rw [step_read]; exact h1
    · intro i
      cases o with
      | construct e op =>
        show _ = pressed d i os.reverse
        rw [← h3 i]
        unfold step
        simp only
        by_cases hu : v.life e = .unborn
        · have hne : d ≠ e := fun he => by rw [← he, h1] at hu; cases hu
          rw [if_pos hu]
          split
          · rfl
          · show (if d = e then _ else v.button d) i = _
            rw [if_neg hne]
        · rw [if_neg hu]
      | destroy e =>
        show _ = pressed d i os.reverse
        rw [← h3 i]
        unfold step
        simp only
        split <;> rfl
      | event e j b =>
        show _ = if e = d ∧ j = i then b else pressed d i os.reverse
        rw [← h3 i]
        unfold step
        simp only
        by_cases he : v.life e = .alive
        · rw [if_pos he]
          show (if d = e ∧ i = j then b else v.button d i) = _
          by_cases hc : e = d ∧ j = i
          · rw [if_pos ⟨hc.1.symm, hc.2.symm⟩, if_pos hc]
          · rw [if_neg fun h => hc ⟨h.1.symm, h.2.symm⟩, if_neg hc]
        · rw [if_neg he, if_neg (fun h : e = d ∧ j = i => he (by rw [h.1]; exact h1))]
      | read id =>
        show _ = pressed d i os.reverse
        rw [← h3 i, step_read]

/-- **C125 (partial)** The first object which is constructed: as long as it is not destroyed, and whatever else happens, each of its inputs delivers what its thread has read last for this button.
Missing: reading after the destruction, see `gone_violated`; a second object, see `second_violated`. -/
theorem first_partial (k : Kind) (d : Nat) (opens : Bool) (os : List Op) (h : .destroy d ∉ os) (i : Nat) (id : String) (hi : (names k)[i]? = some id) :
    (step k (run k World.start (.construct d opens :: os)) (.read id)).2 = .value (pressed d i os.reverse) := by
  obtain ⟨h1, h2, h3⟩ := after k d opens os h
  have hm : id ∈ names k := List.mem_of_getElem? hi
  simp only [step, h2 id hm, h1, if_true]
  rw [get_spec k _ i id hi, h3 i]

/-- The middle button is pressed, then the left one, then the middle one released. -/
example : (step .mouse (run .mouse World.start [.construct 5 true, .event 5 1 true, .event 5 0 true, .event 5 1 false]) (.read "leftMouseButton")).2 = .value true :=
  first_partial .mouse 5 true [.event 5 1 true, .event 5 0 true, .event 5 1 false] (by decide) 0 _ rfl

/-- **C125 violated**: after the destruction of the object its inputs are still registered, and reading one of them uses the object which does not exist any more. -/
theorem gone_violated (k : Kind) (d : Nat) (opens : Bool) (os : List Op) (h : .destroy d ∉ os) (id : String) (hi : id ∈ names k) :
    (step k (run k World.start (.construct d opens :: os ++ [.destroy d])) (.read id)).2 = .undefined := by
  obtain ⟨h1, h2, -⟩ := after k d opens os h
  have hw : run k World.start (.construct d opens :: os ++ [.destroy d]) = (step k (run k World.start (.construct d opens :: os)) (.destroy d)).1 := by
    rw [run, List.foldl_append]
    rfl
  rw [hw]
  revert h1 h2
  generalize run k World.start (.construct d opens :: os) = v
  intro h1 h2
  have hd : (step k v (.destroy d)).1 = { v with life := fun e => if e = d then .gone else v.life e } := by
    unfold step
    simp only
    rw [if_pos h1]
  rw [hd]
  simp [step, h2 id hi]

example : (step .xbox (run .xbox World.start [.construct 0 true, .destroy 0]) (.read "XBoxButtonB")).2 = .undefined :=
  gone_violated .xbox 0 true [] (by simp) _ (by decide)

/-- **C125 violated**: no second object can be constructed, even after the destruction of the first one: the constructor throws if there is no device, and never returns if there is one. -/
theorem second_violated (k : Kind) (d : Nat) (opens : Bool) (os : List Op) (e : Nat) (opens' : Bool) (he : (run k World.start (.construct d opens :: os)).life e = .unborn) :
    (step k (run k World.start (.construct d opens :: os)) (.construct e opens')).2 = if opens' then .hangs else .fault := by
  have hown := owned_run k (.construct d opens :: os) World.start (Or.inl fun _ => rfl)
  have hreg : ∃ n ∈ names k, ((run k World.start (.construct d opens :: os)).inputs n).isSome = true := by
    clear he hown
    obtain ⟨n, hn⟩ := names_ne k
    refine ⟨n, hn, ?_⟩
    induction os using List.reverseRecOn with
    | nil =>
      have := (after k d opens [] (by simp)).2.1 n hn
      rw [this]; rfl
    | append_singleton os o ih =>
      have hw : run k World.start (.construct d opens :: (os ++ [o])) = (step k (run k World.start (.construct d opens :: os)) o).1 := by
        rw [← List.cons_append, run, List.foldl_append]
        rfl
      obtain ⟨c, hc⟩ := Option.isSome_iff_exists.1 ih
      rw [hw, step_owner k _ o c (owned_run k _ World.start (Or.inl fun _ => rfl)) ⟨n, hn, hc⟩]
      exact ih
  have ha : ((names k).any fun n => ((run k World.start (.construct d opens :: os)).inputs n).isSome) = true := List.any_eq_true.2 hreg
  unfold step
  simp only
  rw [if_pos he, if_pos ha]

/-- A mouse is destroyed, a new one is created for the same device: the program hangs. -/
example : (step .mouse (run .mouse World.start [.construct 0 true, .destroy 0]) (.construct 1 true)).2 = .hangs :=
  second_violated .mouse 0 true [.destroy 0] 1 true rfl

/-! ### The result of every read and every construction, for all histories -/

/-- Specification: the first object of the history, and what happened after its construction. -/
def history : List Op → Option (Nat × List Op)
  | [] => none
  | .construct d _ :: os => some (d, os)
  | _ :: os => history os

/-- Specification: the object was constructed, or its construction was tried. -/
def Tried (d : Nat) (os : List Op) : Prop := ∃ opens, .construct d opens ∈ os

theorem history_spec (os : List Op) :
    (history os = none ∧ ∀ d, ¬ Tried d os) ∨
    ∃ d opens a b, history os = some (d, b) ∧ os = a ++ .construct d opens :: b ∧ ∀ e, ¬ Tried e a := by
  induction os with
  | nil => exact Or.inl ⟨rfl, fun d h => by obtain ⟨_, h⟩ := h; cases h⟩
  | cons o os ih =>
    have other : (∀ d opens, o ≠ .construct d opens) → history (o :: os) = history os →
        (history (o :: os) = none ∧ ∀ d, ¬ Tried d (o :: os)) ∨
        ∃ d opens a b, history (o :: os) = some (d, b) ∧ o :: os = a ++ .construct d opens :: b ∧ ∀ e, ¬ Tried e a := by
      intro hne hh
      rcases ih with ⟨h1, h2⟩ | ⟨d, op, a, b, h1, h2, h3⟩
      · refine Or.inl ⟨by rw [hh, h1], ?_⟩
        rintro d ⟨op, hm⟩
        rcases List.mem_cons.1 hm with h | h
        · exact hne d op h.symm
        · exact h2 d ⟨op, h⟩
      · refine Or.inr ⟨d, op, o :: a, b, by rw [hh, h1], by rw [h2]; rfl, ?_⟩
        rintro e ⟨op', hm⟩
        rcases List.mem_cons.1 hm with h | h
        · exact hne e op' h.symm
        · exact h3 e ⟨op', h⟩
    cases o with
    | construct d op => exact Or.inr ⟨d, op, [], os, rfl, rfl, fun e h => by obtain ⟨_, h⟩ := h; cases h⟩
    | destroy d => exact other (fun _ _ h => by cases h) rfl
    | event d i v => exact other (fun _ _ h => by cases h) rfl
    | read id => exact other (fun _ _ h => by cases h) rfl

/-- Nothing happens before the first construction. -/
theorem before (k : Kind) (os : List Op) (h : ∀ d, ¬ Tried d os) : run k World.start os = World.start := by
  induction os with
  | nil => rfl
  | cons o os ih =>
    have ho : (step k World.start o).1 = World.start := by
      cases o with
      | construct d op => exact absurd ⟨op, List.mem_cons_self ..⟩ (h d)
      | destroy d => rfl
      | event d i v => rfl
      | read id => rfl
    show run k (step k World.start o).1 os = _
    rw [ho]
    exact ih fun d ⟨op, hm⟩ => h d ⟨op, List.mem_cons_of_mem _ hm⟩

theorem run_append (k : Kind) (w : World) (a b : List Op) : run k w (a ++ b) = run k (run k w a) b := by rw [run, List.foldl_append]; rfl

theorem from_first (k : Kind) (os a b : List Op) (d : Nat) (opens : Bool) (h : os = a ++ .construct d opens :: b) (ha : ∀ e, ¬ Tried e a) :
    run k World.start os = run k World.start (.construct d opens :: b) := by rw [h, run_append, before k a ha]

theorem gone_step (k : Kind) (w : World) (o : Op) (d : Nat) (h : w.life d = .gone) : (step k w o).1.life d = .gone := by
  cases o with
  | construct e op =>
    unfold step
    simp only
    split
    · rename_i hu
      have hne : d ≠ e := fun he => by rw [← he, h] at hu; cases hu
      split
      · show (if d = e then _ else w.life d) = _
        rw [if_neg hne, h]
      · show (if d = e then _ else w.life d) = _
        rw [if_neg hne, h]
    · exact h
  | destroy e =>
    unfold step
    simp only
    split
    · show (if d = e then _ else w.life d) = _
      split
      · rfl
      · exact h
    · exact h
  | event e i v => unfold step; simp only; split <;> exact h
  | read id => rw [step_read]; exact h

theorem gone_run (k : Kind) (os : List Op) (w : World) (d : Nat) (h : w.life d = .gone) : (run k w os).life d = .gone := by
  induction os generalizing w with
  | nil => exact h
  | cons o os ih => exact ih _ (gone_step k w o d h)

theorem inputs_run (k : Kind) (os : List Op) (w : World) (d : Nat) (h : Owned k w) (hn : ∃ n ∈ names k, w.inputs n = some d) :
    (run k w os).inputs = w.inputs := by
  induction os generalizing w with
  | nil => rfl
  | cons o os ih =>
    have h1 := step_owner k w o d h hn
    show (run k (step k w o).1 os).inputs = _
    rw [ih _ (owned_step k w o h) (by rw [h1]; exact hn), h1]

/-- The inputs after the first construction: its names, and no others. -/
theorem inputs_first (k : Kind) (d : Nat) (opens : Bool) (b : List Op) (n : String) :
    (run k World.start (.construct d opens :: b)).inputs n = if n ∈ names k then some d else none := by
  have h2 := (after k d opens [] (by simp)).2.1
  obtain ⟨m, hm⟩ := names_ne k
  have hown := owned_run k [.construct d opens] World.start (Or.inl fun _ => rfl)
  have : run k World.start (.construct d opens :: b) = run k (run k World.start [.construct d opens]) b := rfl
  rw [this, inputs_run k b _ d hown ⟨m, hm, h2 m hm⟩]
  split
  · rename_i hn; exact h2 n hn
  · rename_i hn
    rcases hown with h | ⟨c, -, h⟩
    · exact h n
    · rw [h n, if_neg hn]

/-- **C125** (exact rule for the reads) For every history of any length: an input is known exactly if an object was constructed and the name is one of its kind; then it delivers
what the first object has read last for this button as long as this object was not destroyed, and is undefined ever after. -/
theorem read_exact (k : Kind) (os : List Op) (id : String) :
    (step k (run k World.start os) (.read id)).2 =
      match history os, (names k).idxOf? id with
      | some (d, rest), some i => if .destroy d ∈ rest then .undefined else .value (pressed d i rest.reverse)
      | _, _ => .unknown := by
  rcases history_spec os with ⟨h1, h2⟩ | ⟨d, op, a, b, h1, h2, h3⟩
  · rw [before k os h2, h1]
    rfl
  · rw [from_first k os a b d op h2 h3, h1]
    cases hi : (names k).idxOf? id with
    | none =>
      have hn : id ∉ names k := fun hm => by
        rw [List.idxOf?_eq_none_iff] at hi
        exact hi hm
      have h0 := inputs_first k d op b id
      rw [if_neg hn] at h0
      simp only [step, h0]
    | some i =>
      have hg : (names k)[i]? = some id := by
        rw [List.idxOf?, List.findIdx?_eq_some_iff_getElem] at hi
        obtain ⟨hl, he, -⟩ := hi
        rw [List.getElem?_eq_getElem hl]
        simpa using he
      show _ = if _ then _ else _
      split
      · rename_i hd
        obtain ⟨x, y, hxy, hx⟩ := List.eq_append_cons_of_mem hd
        have hm : id ∈ names k := List.mem_of_getElem? hg
        obtain ⟨g1, g2, -⟩ := after k d op x hx
        have hin := inputs_first k d op b id
        rw [if_pos hm] at hin
        have hlife : (run k World.start (.construct d op :: b)).life d = .gone := by
          have : run k World.start (.construct d op :: b) = run k (step k (run k World.start (.construct d op :: x)) (.destroy d)).1 y := by
            rw [hxy, ← List.cons_append, run_append]; rfl
          rw [this]
          refine gone_run k y _ d ?_
          simp [step, g1]
        simp [step, hin, hlife]
      · rename_i hd
        exact first_partial k d op b hd i id hg

example : (step .mouse (run .mouse World.start [.event 5 1 true, .construct 5 true, .construct 6 false, .event 5 2 true]) (.read "rightMouseButton")).2 = .value true := by
  rw [read_exact]; decide
example : (step .mouse (run .mouse World.start [.construct 5 true, .destroy 5, .construct 6 false]) (.read "rightMouseButton")).2 = .undefined := by
  rw [read_exact]; decide

theorem life_step (k : Kind) (w : World) (o : Op) (d : Nat) : (step k w o).1.life d = .unborn ↔ w.life d = .unborn ∧ ∀ opens, o ≠ .construct d opens := by
  cases o with
  | construct e op =>
    by_cases hu : w.life e = .unborn
    · by_cases hde : d = e
      · subst hde
        refine ⟨fun h => ?_, fun h => absurd rfl (h.2 op)⟩
        exfalso
        revert h
        unfold step
        simp only
        rw [if_pos hu]
        split <;> simp
      · have : (step k w (.construct e op)).1.life d = w.life d := by
          unfold step
          simp only
          rw [if_pos hu]
          split <;> simp [hde]
        rw [this]
        exact ⟨fun h => ⟨h, fun op' h' => hde (by cases h'; rfl)⟩, fun h => h.1⟩
    · have : (step k w (.construct e op)).1 = w := by
        unfold step
        simp only
        rw [if_neg hu]
      rw [this]
      exact ⟨fun h => ⟨h, fun op' h' => by cases h'; exact hu h⟩, fun h => h.1⟩
  | destroy e =>
    unfold step
    simp only
    split
    · rename_i ha
      by_cases hde : d = e
      · subst hde; simp [ha]
      · simp [hde]
    · simp
  | event e i v => unfold step; simp only; split <;> simp
  | read id => rw [step_read]; simp

theorem life_run (k : Kind) (os : List Op) (w : World) (d : Nat) : (run k w os).life d = .unborn ↔ w.life d = .unborn ∧ ¬ Tried d os := by
  induction os generalizing w with
  | nil => exact ⟨fun h => ⟨h, fun ⟨_, h⟩ => by cases h⟩, fun h => h.1⟩
  | cons o os ih =>
    show (run k (step k w o).1 os).life d = _ ↔ _
    rw [ih, life_step]
    constructor
    · rintro ⟨⟨h1, h2⟩, h3⟩
      refine ⟨h1, ?_⟩
      rintro ⟨op, hm⟩
      rcases List.mem_cons.1 hm with h | h
      · exact h2 op h.symm
      · exact h3 ⟨op, h⟩
    · rintro ⟨h1, h2⟩
      exact ⟨⟨h1, fun op h => h2 ⟨op, by rw [h]; exact List.mem_cons_self ..⟩⟩, fun ⟨op, h⟩ => h2 ⟨op, List.mem_cons_of_mem _ h⟩⟩

/-- **C125** (exact rule for the constructions) A new object can be constructed exactly if it is the first one of its kind in the whole program. -/
theorem construct_iff (k : Kind) (os : List Op) (e : Nat) (opens : Bool) (he : ¬ Tried e os) :
    (step k (run k World.start os) (.construct e opens)).2 = .done ↔ history os = none := by
  have hu : (run k World.start os).life e = .unborn := (life_run k os World.start e).2 ⟨rfl, he⟩
  rcases history_spec os with ⟨h1, h2⟩ | ⟨d, op, a, b, h1, h2, h3⟩
  · rw [before k os h2]
    exact ⟨fun _ => h1, fun _ => by simp [step, World.start]⟩
  · rw [from_first k os a b d op h2 h3] at hu ⊢
    rw [second_violated k d op b e opens hu, h1]
    cases opens <;> simp

example : ¬ Tried 6 [.construct 5 true, .destroy 5] ∧ history [.construct 5 true, .destroy 5] = some (5, [.destroy 5]) :=
  ⟨by rintro ⟨op, h⟩; cases op <;> revert h <;> decide, rfl⟩

end Verif.Hal.Buttons
