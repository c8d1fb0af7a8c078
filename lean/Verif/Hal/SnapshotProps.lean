import Verif.Hal.Snapshot
import Mathlib.Data.List.Induction
/-!
C137: the outputs of a block with the same time stamp come from the same measurement.
-/
namespace Verif.Hal.Snapshot

variable {F : Type} [DecidableEq F]

theorem run_snoc (W R : List F) (s : St F) (l : List Step) (a : Step) : run W R s (l ++ [a]) = step W R (run W R s l) a := by simp [run]

theorem run_append (W R : List F) (s : St F) (l l' : List Step) : run W R s (l ++ l') = run W R (run W R s l) l' := by simp [run]

structure Inv (W : List F) (s : St F) : Prop where
  nodup : s.todo.Nodup
  sub : ∀ f ∈ s.todo, f ∈ W
  old : ∀ f ∈ s.todo, s.stamp f + 1 = s.pic
  new : ∀ f ∈ W, f ∉ s.todo → s.stamp f = s.pic
  got : ∀ x ∈ s.got, x.2 ≤ s.pic

theorem inv_step (W R : List F) (hW : W.Nodup) (hR : ∀ f ∈ R, f ∈ W) (s : St F) (h : Inv W s ∧ ∀ f ∈ s.toread, f ∈ W) (a : Step) :
    Inv W (step W R s a) ∧ ∀ f ∈ (step W R s a).toread, f ∈ W := by
  obtain ⟨h, hr⟩ := h
  cases a with
  | next =>
    simp only [step]
    split
    · rename_i ht
      refine ⟨⟨hW, fun f h => h, ?_, ?_, ?_⟩, hr⟩
      · intro f hf
        have := h.new f hf (by rw [ht]; simp)
        simp [this]
      · intro f hf hn; exact absurd hf hn
      · intro x hx; have := h.got x hx; simp only; omega
    · exact ⟨h, hr⟩
  | store =>
    simp only [step]
    split
    · exact ⟨h, hr⟩
    · rename_i f l ht
      have hn := h.nodup
      rw [ht, List.nodup_cons] at hn
      refine ⟨⟨hn.2, fun g hg => h.sub g (by rw [ht]; simp [hg]), ?_, ?_, h.got⟩, hr⟩
      · intro g hg
        have hgf : g ≠ f := by rintro rfl; exact hn.1 hg
        simp only [if_neg hgf]
        exact h.old g (by rw [ht]; simp [hg])
      · intro g hg hnl
        simp only
        by_cases hgf : g = f
        · rw [if_pos hgf]
        · rw [if_neg hgf]
          exact h.new g hg (by rw [ht]; simp only [List.mem_cons, not_or]; exact ⟨hgf, hnl⟩)
  | «begin» =>
    simp only [step]
    split
    · exact ⟨⟨h.nodup, h.sub, h.old, h.new, by simp⟩, hR⟩
    · exact ⟨h, hr⟩
  | read =>
    simp only [step]
    split
    · exact ⟨h, hr⟩
    · rename_i f l ht
      refine ⟨⟨h.nodup, h.sub, h.old, h.new, ?_⟩, fun g hg => hr g (by rw [ht]; simp [hg])⟩
      intro x hx
      simp only [List.mem_append, List.mem_singleton] at hx
      rcases hx with hx | rfl
      · exact h.got x hx
      · simp only
        have hf := hr f (by rw [ht]; simp)
        by_cases hm : f ∈ s.todo
        · have := h.old f hm; omega
        · exact Nat.le_of_eq (h.new f hf hm)

theorem inv_run (W R : List F) (hW : W.Nodup) (hR : ∀ f ∈ R, f ∈ W) (l : List Step) :
    Inv W (run W R new l) ∧ ∀ f ∈ (run W R new l).toread, f ∈ W := by
  induction l using List.reverseRecOn with
  | nil => exact ⟨⟨by simp [run, new], by simp [run, new], by simp [run, new], by simp [run, new], by simp [run, new]⟩, by simp [run, new]⟩
  | append_singleton l a ih => rw [run_snoc]; exact inv_step W R hW hR _ ih a

/-- At any time every field holds the result of the measurement being stored or of the one before. -/
theorem fields_recent (W R : List F) (hW : W.Nodup) (hR : ∀ f ∈ R, f ∈ W) (l : List Step) (f : F) (hf : f ∈ W) :
    let s := run W R new l
    s.stamp f = s.pic ∨ (s.stamp f + 1 = s.pic ∧ f ∈ s.todo) := by
  intro s
  have h := (inv_run W R hW hR l).1
  by_cases hm : f ∈ s.todo
  · exact Or.inr ⟨h.old f hm, hm⟩
  · exact Or.inl (h.new f hf hm)

/-- `pic` never decreases. -/
theorem pic_step (W R : List F) (s : St F) (a : Step) : s.pic ≤ (step W R s a).pic := by
  cases a <;> simp only [step] <;> split <;> simp

/-- In one run of the block, begun at measurement `(run l).pic` and ended at measurement `(run (l ++ begin :: m)).pic`, every output is of one of these measurements,
of one in between or of the one before the first. -/
theorem outputs_recent (W R : List F) (hW : W.Nodup) (hR : ∀ f ∈ R, f ∈ W) (l m : List Step) (hb : (run W R new l).toread = []) (hm : .begin ∉ m) :
    let s := run W R new (l ++ .begin :: m)
    ∀ x ∈ s.got, (run W R new l).pic ≤ x.2 + 1 ∧ x.2 ≤ s.pic := by
  intro s x hx
  refine ⟨?_, (inv_run W R hW hR _).1.got x hx⟩
  have key : ∀ m : List Step, .begin ∉ m → (∀ x ∈ (run W R new (l ++ .begin :: m)).got, (run W R new l).pic ≤ x.2 + 1) ∧
      (run W R new l).pic ≤ (run W R new (l ++ .begin :: m)).pic := by
    intro m
    induction m using List.reverseRecOn with
    | nil =>
      intro _
      rw [run_snoc]
      simp only [step]
      rw [hb]
      simp
    | append_singleton m a ih =>
      intro hm
      simp only [List.mem_append, List.mem_singleton, not_or] at hm
      obtain ⟨h1, h2⟩ := ih hm.1
      have he : l ++ .begin :: (m ++ [a]) = (l ++ .begin :: m) ++ [a] := by simp
      rw [he, run_snoc]
      have hinv := inv_run W R hW hR (l ++ .begin :: m)
      refine ⟨?_, Nat.le_trans h2 (pic_step W R _ a)⟩
      intro x hx
      cases a with
      | «begin» => exact absurd rfl hm.2
      | next =>
        simp only [step] at hx
        split at hx <;> exact h1 x hx
      | store =>
        simp only [step] at hx
        split at hx <;> exact h1 x hx
      | read =>
        simp only [step] at hx
        split at hx
        · exact h1 x hx
        · rename_i f r ht
          simp only [List.mem_append, List.mem_singleton] at hx
          rcases hx with hx | rfl
          · exact h1 x hx
          · simp only
            have hf := hinv.2 f (by rw [ht]; simp)
            by_cases hmem : f ∈ (run W R new (l ++ .begin :: m)).todo
            · have := hinv.1.old f hmem; omega
            · have := hinv.1.new f hf hmem; omega
  exact (key m hm).1 x hx

theorem reads_all (W R : List F) : ∀ (r : List F) (s : St F), s.toread = r →
    run W R s (List.replicate r.length .read) = { s with toread := [], got := s.got ++ r.map (fun f => (f, s.stamp f)) } := by
  intro r
  induction r with
  | nil => intro s h; cases s; simp only at h; subst h; simp [run]
  | cons f r ih =>
    intro s h
    rw [List.length_cons, List.replicate_succ]
    show run W R (step W R s .read) _ = _
    have hs : step W R s .read = { s with toread := r, got := s.got ++ [(f, s.stamp f)] } := by simp [step, h]
    rw [hs, ih _ rfl]
    simp

/-- A run of the block which is not interrupted by the thread, and comes when all fields of a measurement are stored, gives out that measurement. -/
theorem whole_partial (W R : List F) (hW : W.Nodup) (hR : ∀ f ∈ R, f ∈ W) (l : List Step) (hb : (run W R new l).toread = []) (ht : (run W R new l).todo = []) :
    (run W R new (l ++ .begin :: List.replicate R.length .read)).got = R.map (fun f => (f, (run W R new l).pic)) := by
  have h := (inv_run W R hW hR l).1
  have he : l ++ .begin :: List.replicate R.length .read = (l ++ [.begin]) ++ List.replicate R.length .read := by simp
  rw [he, run_append, run_snoc]
  have hs : step W R (run W R new l) .begin = { run W R new l with toread := R, got := [] } := by simp [step, hb]
  rw [hs, reads_all W R R _ rfl]
  simp only [List.nil_append]
  apply List.map_congr_left
  intro f hf
  rw [h.new f (hR f hf) (by rw [ht]; simp)]

theorem stores (W R : List F) : ∀ (a b : List F) (s : St F), s.todo = a ++ b →
    (run W R s (List.replicate a.length .store)).todo = b ∧ (run W R s (List.replicate a.length .store)).pic = s.pic ∧
    (run W R s (List.replicate a.length .store)).toread = s.toread := by
  intro a
  induction a with
  | nil => intro b s h; exact ⟨by simpa [run] using h, rfl, rfl⟩
  | cons f a ih =>
    intro b s h
    rw [List.length_cons, List.replicate_succ]
    have := ih b (step W R s .store) (by simp [step, h])
    refine ⟨this.1, this.2.1.trans ?_, this.2.2.trans ?_⟩ <;> simp [step, h]

/-- Violated, whatever the order of the fields: a run of the block while the thread is between two fields gives out the first one of the new measurement and the
second one of the old measurement. -/
theorem mixed_violated (a b c : List F) (f g : F) (R : List F) (hW : (a ++ f :: b ++ g :: c).Nodup) (hR : ∀ x ∈ R, x ∈ a ++ f :: b ++ g :: c) (hf : f ∈ R) (hg : g ∈ R)
    (l : List Step) (hb : (run (a ++ f :: b ++ g :: c) R new l).toread = []) (ht : (run (a ++ f :: b ++ g :: c) R new l).todo = []) :
    ∃ m, let s := run (a ++ f :: b ++ g :: c) R new (l ++ m)
      s.toread = [] ∧ (f, (run (a ++ f :: b ++ g :: c) R new l).pic + 1) ∈ s.got ∧ (g, (run (a ++ f :: b ++ g :: c) R new l).pic) ∈ s.got := by
  have hinv := fun l' => (inv_run (a ++ f :: b ++ g :: c) R hW hR l').1
  generalize hWd : a ++ f :: b ++ g :: c = W at *
  have hmf : f ∈ W := by rw [← hWd]; simp
  have hmg : g ∈ W := by rw [← hWd]; simp
  refine ⟨.next :: List.replicate (a ++ f :: b).length .store ++ .begin :: List.replicate R.length .read, ?_⟩
  have hnext : run W R new (l ++ [.next]) = { run W R new l with pic := (run W R new l).pic + 1, todo := W } := by
    rw [run_snoc]; simp [step, ht]
  have hst := stores W R (a ++ f :: b) (g :: c) (run W R new (l ++ [.next])) (by rw [hnext, ← hWd])
  rw [← run_append] at hst
  rw [hnext] at hst
  generalize hl2 : l ++ [.next] ++ List.replicate (a ++ f :: b).length .store = l2 at hst
  have he : l ++ (.next :: List.replicate (a ++ f :: b).length .store ++ .begin :: List.replicate R.length .read) = (l2 ++ [.begin]) ++ List.replicate R.length .read := by
    rw [← hl2]; simp
  rw [he]
  obtain ⟨h1, h2, h3⟩ := hst
  simp only at h2 h3
  rw [hb] at h3
  have hs : run W R new (l2 ++ [.begin]) = { run W R new l2 with toread := R, got := [] } := by
    rw [run_snoc]; simp [step, h3]
  rw [run_append, hs, reads_all W R R _ rfl]
  have hi := hinv l2
  have hnd := hW
  rw [← hWd, List.nodup_append] at hnd
  have hf1 : f ∉ (run W R new l2).todo := by
    rw [h1]
    intro hmem
    exact hnd.2.2 f (by simp) f hmem rfl
  have e1 := hi.new f hmf hf1
  have e2 := hi.old g (by rw [h1]; simp)
  refine ⟨rfl, ?_, ?_⟩
  · simp only [List.nil_append, List.mem_map]
    exact ⟨f, hf, by rw [e1, h2]⟩
  · simp only [List.nil_append, List.mem_map]
    refine ⟨g, hg, ?_⟩
    rw [h2] at e2
    have : (run W R new l2).stamp g = (run W R new l).pic := by omega
    rw [this]

/-- The camera: the position of an old picture is given out with the validity of the next one. -/
theorem validity_violated (n : Nat) : ∃ l, (run camera block new l).toread = [] ∧ (.valid, n + 1) ∈ (run camera block new l).got ∧ (.pos, n) ∈ (run camera block new l).got := by
  have hpre : ∀ n, ∃ l, (run camera block new l).toread = [] ∧ (run camera block new l).todo = [] ∧ (run camera block new l).pic = n := by
    intro n
    induction n with
    | zero => exact ⟨[], rfl, rfl, rfl⟩
    | succ n ih =>
      obtain ⟨l, h1, h2, h3⟩ := ih
      refine ⟨l ++ [.next, .store, .store, .store, .store, .store], ?_⟩
      rw [run_append]
      generalize run camera block new l = s at h1 h2 h3
      obtain ⟨pic, todo, stamp, toread, got⟩ := s
      simp only at h1 h2 h3
      subst h1 h2 h3
      exact ⟨rfl, rfl, rfl⟩
  obtain ⟨l, h1, h2, h3⟩ := hpre n
  obtain ⟨m, h4, h5, h6⟩ := mixed_violated [Field.dots, Field.height] [Field.raw] [] Field.valid Field.pos block (by decide) (by decide) (by decide) (by decide) l h1 h2
  rw [show ([.dots, .height] ++ .valid :: [.raw] ++ .pos :: [] : List Field) = camera from rfl, h3] at h5 h6
  exact ⟨l ++ m, h4, h5, h6⟩

/-- Case of `outputs_recent`, `fields_recent` and `whole_partial`: the block runs after the first picture. -/
example : (run camera block new [.next, .store, .store, .store, .store, .store]).todo = [] ∧
    (run camera block new ([.next, .store, .store, .store, .store, .store] ++ .begin :: List.replicate 5 .read)).got =
      [(.pos, 1), (.raw, 1), (.dots, 1), (.height, 1), (.valid, 1)] := by decide

/-- Case of `outputs_recent` with the thread going on during the run. -/
example : (run camera block new [.next, .begin, .read, .store, .store, .store, .read, .read, .read, .read]).got = [(.pos, 0), (.raw, 0), (.dots, 1), (.height, 1), (.valid, 1)] := by decide

/-- Case of `fields_recent`, in the middle of the second measurement. -/
example := fields_recent camera block (by decide) (by decide) [.next, .store, .store, .store, .store, .store, .next, .store, .begin, .read] .dots (by decide)

/-- Case of `whole_partial`. -/
example : (run camera block new ([.next, .store, .store, .store, .store, .store] ++ .begin :: List.replicate 5 .read)).got =
    block.map (fun f => (f, (run camera block new [.next, .store, .store, .store, .store, .store]).pic)) :=
  whole_partial camera block (by decide) (by decide) _ (by decide) (by decide)

end Verif.Hal.Snapshot
