import Verif.Sequencer.Deadlock
/-!
C257, C258: `Sequencer::wait` (Sequencer.cpp:64-69), which "waits for the sequencer to terminate all its running sequences" (Sequencer.hpp:69-70).

It copies the list of the sequences and calls `Sequence::wait` for each of them in the order of their construction.  The threads are those of
`Verif.Sequencer.Deadlock`: main starts and calls sequences in any way and then waits; further threads (time domains, safety system) neither start nor wait for
sequences.  The number of a sequence is its place in the list.
-/
namespace Verif.Sequencer.WaitAll
open Verif.Sequencer.Deadlock

/-- `Sequencer::wait` with `n` sequences in the list, Sequencer.cpp:64-69. -/
def waitAll (n : Nat) : List Act := (List.range n).map .wait

/-! ### Specification -/

/-- What is started or waited for within a thread of a sequence comes later in the list: a sequence constructs its callees after itself, as in all examples.  `c` is
the first one allowed, `n` the number of sequences in the list. -/
inductive Late (n : Nat) : Nat → Act → Prop
  | call {c o body} : (∀ a ∈ body, Late n c a) → Late n c (.call o body)
  | start {c s body v} : c ≤ s → s < n → (∀ a ∈ body, Late n (s + 1) a) → Late n c (.start s body v)
  | wait {c s} : c ≤ s → Late n c (.wait s)

/-- Neither starts nor waits for a sequence. -/
inductive Plain : Act → Prop
  | call {o body} : (∀ a ∈ body, Plain a) → Plain (.call o body)

/-- The thread of the run of a sequence which is not over yet. -/
def Running (m : Nat) (w : World) (u : Nat) : Prop := m ≤ u ∧ (w.th u).todo ≠ []

/-- The next thing thread `j` does reads or writes `fut` of `s`. -/
def Touches (w : World) (j s : Nat) : Prop := ∃ x l, (w.th j).todo = x :: l ∧ (x = .act (.wait s) ∨ ∃ t, x = .store s t)

/-! ### Steps -/

theorem late_plain {n : Nat} {a : Act} (h : Plain a) : ∀ c, Late n c a := by
  induction h with
  | call _ ih => exact fun c => .call (fun a ha => ih a ha c)

def LateI (n c : Nat) : Item → Prop
  | .act a => Late n c a
  | .leave _ => True
  | .store s _ => c ≤ s

/-- The four kinds of steps. -/
theorem step_cases {w w' : World} {i : Nat} (hs : step w i = some w') : ∃ x l, (w.th i).todo = x :: l ∧
    ((∃ pre, w'.n = w.n ∧ w'.fut = w.fut ∧ w'.th = goOn w i (pre ++ l) ∧
        ((∃ o body, x = .act (.call o body) ∧ pre = body.map .act ++ [.leave o]) ∨ ((∃ o, x = .leave o) ∧ pre = []))) ∨
     (∃ s body v, x = .act (.start s body v) ∧ w'.n = w.n + 1 ∧ w'.fut = w.fut ∧
        w'.th = Deadlock.set (goOn w i (.store s w.n :: l)) w.n ⟨[.act (.call (.seq s) body)], v⟩) ∨
     (∃ s t, x = .store s t ∧ w'.n = w.n ∧ w'.th = goOn w i l ∧ w'.fut = Deadlock.set w.fut s (some t) ∧ ∀ u, w.fut s = some u → (w.th u).todo = []) ∨
     (∃ s, x = .act (.wait s) ∧ w'.n = w.n ∧ w'.th = goOn w i l ∧ w'.fut = Deadlock.set w.fut s none ∧ ∀ u, w.fut s = some u → (w.th u).todo = [])) := by
  cases ht : (w.th i).todo with
  | nil => simp [step, ht] at hs
  | cons x l =>
    refine ⟨x, l, rfl, ?_⟩
    cases x with
    | leave o =>
      simp only [step, ht, Option.some.injEq] at hs
      subst hs
      exact Or.inl ⟨[], rfl, rfl, rfl, Or.inr ⟨⟨o, rfl⟩, rfl⟩⟩
    | store s t =>
      refine Or.inr (Or.inr (Or.inl ⟨s, t, rfl, ?_⟩))
      simp only [step, ht] at hs
      split at hs
      · rename_i hf
        simp only [Option.some.injEq] at hs
        subst hs
        exact ⟨rfl, rfl, rfl, fun u hu => by rw [hf] at hu; cases hu⟩
      · rename_i u hf
        split at hs
        · rename_i hu
          simp only [Option.some.injEq] at hs
          subst hs
          exact ⟨rfl, rfl, rfl, fun v hv => by rw [hf] at hv; cases hv; exact hu⟩
        · cases hs
    | act a =>
      cases a with
      | call o body =>
        simp only [step, ht] at hs
        split at hs
        · simp only [Option.some.injEq] at hs
          subst hs
          exact Or.inl ⟨body.map .act ++ [.leave o], rfl, rfl, by simp, Or.inl ⟨o, body, rfl, rfl⟩⟩
        · cases hs
      | start s body v =>
        simp only [step, ht, Option.some.injEq] at hs
        subst hs
        exact Or.inr (Or.inl ⟨s, body, v, rfl, rfl, rfl, rfl⟩)
      | wait s =>
        refine Or.inr (Or.inr (Or.inr ⟨s, rfl, ?_⟩))
        simp only [step, ht] at hs
        split at hs
        · rename_i hf
          simp only [Option.some.injEq] at hs
          subst hs
          refine ⟨rfl, rfl, ?_, fun u hu => by rw [hf] at hu; cases hu⟩
          funext r
          show w.fut r = Deadlock.set w.fut s none r
          by_cases hr : r = s
          · subst hr; simp [Deadlock.set, hf]
          · simp [Deadlock.set, hr]
        · rename_i u hf
          split at hs
          · rename_i hu
            simp only [Option.some.injEq] at hs
            subst hs
            exact ⟨rfl, rfl, rfl, fun v hv => by rw [hf] at hv; cases hv; exact hu⟩
          · cases hs

/-! ### Invariant -/

def waits (n k : Nat) : List Item := (List.range' k (n - k)).map (fun s => .act (.wait s))

theorem waits_cons {n k : Nat} (h : k < n) : waits n k = .act (.wait k) :: waits n (k + 1) := by
  obtain ⟨d, hd⟩ : ∃ d, n - k = d + 1 := ⟨n - k - 1, by omega⟩
  simp only [waits, hd, List.range'_succ, List.map_cons]
  rw [show n - (k + 1) = d by omega]

theorem waits_end {n k : Nat} (h : n ≤ k) : waits n k = [] := by simp [waits, show n - k = 0 by omega]

/-- `lab` tells which sequence a thread runs; the other threads of the program get `n`. -/
def low (lab : Nat → Nat) (u : Nat) : Nat := if u = 0 then 0 else lab u + 1

structure Inv (m n : Nat) (w : World) (lab : Nat → Nat) (p : List Item) (k : Nat) : Prop where
  pos : 0 < m
  le : m ≤ w.n
  fresh : ∀ i, w.n ≤ i → (w.th i).todo = []
  items : ∀ u, ∀ y ∈ (w.th u).todo, LateI n (low lab u) y
  others : ∀ u, 0 < u → u < m → n ≤ lab u
  labn : ∀ u, m ≤ u → u < w.n → lab u < n
  found : ∀ u, m ≤ u → u < w.n → (w.th u).todo ≠ [] → w.fut (lab u) = some u ∨ ∃ j, Item.store (lab u) u ∈ (w.th j).todo
  main : (w.th 0).todo = p ++ waits n k
  first : p ≠ [] → k = 0
  done : ∀ u, m ≤ u → u < w.n → lab u < k → (w.th u).todo = []

theorem mem_goOn {w : World} {i j : Nat} {l : List Item} {y : Item} (h : y ∈ (goOn w i l j).todo) : (j = i ∧ y ∈ l) ∨ (j ≠ i ∧ y ∈ (w.th j).todo) := by
  by_cases hj : j = i
  · subst hj; rw [goOn_same] at h; exact Or.inl ⟨rfl, h⟩
  · rw [goOn_other w l hj] at h; exact Or.inr ⟨hj, h⟩

/-- The step of a thread which starts nothing. -/
theorem inv_goOn {m n k k' : Nat} {w w' : World} {lab : Nat → Nat} {p p' : List Item} {i : Nat} {x : Item} {l l' : List Item} (h : Inv m n w lab p k)
    (ht : (w.th i).todo = x :: l) (hn : w'.n = w.n) (hth : w'.th = goOn w i l') (hitems : ∀ y ∈ l', LateI n (low lab i) y)
    (hfound : ∀ u, m ≤ u → u < w.n → (w.th u).todo ≠ [] → w.fut (lab u) = some u → w'.fut (lab u) = some u)
    (hstore : ∀ u, m ≤ u → u < w.n → Item.store (lab u) u ∈ x :: l → w'.fut (lab u) = some u ∨ Item.store (lab u) u ∈ l')
    (hmain : (w'.th 0).todo = p' ++ waits n k') (hfirst : p' ≠ [] → k' = 0)
    (hdone : ∀ u, m ≤ u → u < w.n → lab u < k' → (w.th u).todo = []) : Inv m n w' lab p' k' := by
  have hi : i < w.n := Nat.lt_of_not_le (fun hc => by rw [h.fresh i hc] at ht; cases ht)
  have other : ∀ u, u ≠ i → (w'.th u).todo = (w.th u).todo := fun u hu => by rw [hth, goOn_other w l' hu]
  refine ⟨h.pos, by rw [hn]; exact h.le, ?_, ?_, h.others, by rw [hn]; exact h.labn, ?_, hmain, hfirst, ?_⟩
  · intro j hj
    rw [hn] at hj
    rw [other j (by omega)]
    exact h.fresh j hj
  · intro u y hy
    rw [hth] at hy
    rcases mem_goOn hy with ⟨rfl, hy2⟩ | ⟨_, hy2⟩
    · exact hitems y hy2
    · exact h.items u y hy2
  · intro u hm hu hr
    rw [hn] at hu
    have hr' : (w.th u).todo ≠ [] := by
      by_cases hui : u = i
      · subst hui; rw [ht]; simp
      · rw [other u hui] at hr; exact hr
    rcases h.found u hm hu hr' with h1 | ⟨j, h1⟩
    · exact Or.inl (hfound u hm hu hr' h1)
    · by_cases hj : j = i
      · subst hj
        rw [ht] at h1
        rcases hstore u hm hu h1 with h2 | h2
        · exact Or.inl h2
        · exact Or.inr ⟨j, by rw [hth, goOn_same]; exact h2⟩
      · exact Or.inr ⟨j, by rw [other j hj]; exact h1⟩
  · intro u hm hu hk
    rw [hn] at hu
    have h1 := hdone u hm hu hk
    have hui : u ≠ i := by rintro rfl; rw [ht] at h1; cases h1
    rw [other u hui]; exact h1

/-- What is left of main after its next step. -/
theorem main_cases {m n k : Nat} {w : World} {lab : Nat → Nat} {p : List Item} {x : Item} {l : List Item} (h : Inv m n w lab p k) (ht : (w.th 0).todo = x :: l) :
    (∃ p', p = x :: p' ∧ k = 0 ∧ l = p' ++ waits n k) ∨ (p = [] ∧ k < n ∧ x = .act (.wait k) ∧ l = waits n (k + 1)) := by
  have h1 := h.main
  rw [ht] at h1
  cases p with
  | cons y p' =>
    simp only [List.cons_append, List.cons.injEq] at h1
    obtain ⟨rfl, rfl⟩ := h1
    exact Or.inl ⟨p', rfl, h.first (by simp), rfl⟩
  | nil =>
    by_cases hk : k < n
    · rw [List.nil_append, waits_cons hk] at h1
      simp only [List.cons.injEq] at h1
      exact Or.inr ⟨rfl, hk, h1.1, h1.2⟩
    · rw [List.nil_append, waits_end (by omega)] at h1
      cases h1

/-- While main waits for sequence `k`, all runs of `k` but the one in `fut` are over: nobody who could start it runs any more. -/
theorem last_run {m n k : Nat} {w : World} {lab : Nat → Nat} (h : Inv m n w lab [] k) {u : Nat} (hm : m ≤ u) (hu : u < w.n) (hk : lab u = k)
    (hr : (w.th u).todo ≠ []) : w.fut k = some u := by
  rcases h.found u hm hu hr with h1 | ⟨j, h1⟩
  · rw [← hk]; exact h1
  · exfalso
    have hl := h.items j _ h1
    rw [hk] at hl
    have hj : j < w.n := Nat.lt_of_not_le (fun hc => by rw [h.fresh j hc] at h1; simp at h1)
    by_cases h0 : j = 0
    · subst h0
      rw [h.main] at h1
      simp [waits] at h1
    · have hl : lab j + 1 ≤ k := by simpa [LateI, low, h0] using hl
      by_cases hjm : j < m
      · have h2 := h.others j (by omega) hjm
        have h3 := h.labn u hm hu
        omega
      · have h2 := h.done j (by omega) hj (by omega)
        rw [h2] at h1
        simp at h1

theorem inv_step {m n k : Nat} {w w' : World} {lab : Nat → Nat} {p : List Item} {i : Nat} (h : Inv m n w lab p k) (hs : step w i = some w') :
    ∃ lab' p' k', Inv m n w' lab' p' k' := by
  obtain ⟨x, l, ht, hc⟩ := step_cases hs
  have hi : i < w.n := Nat.lt_of_not_le (fun hc => by rw [h.fresh i hc] at ht; cases ht)
  have hx : LateI n (low lab i) x := h.items i x (by rw [ht]; simp)
  have hl : ∀ y ∈ l, LateI n (low lab i) y := fun y hy => h.items i y (by rw [ht]; simp [hy])
  -- main after a step which is not the wait for sequence `k`
  have mainStep : ∀ (pre : List Item) (th : Nat → Th), th = goOn w i (pre ++ l) → (x ≠ .act (.wait k) ∨ p ≠ []) → ∃ p', (th 0).todo = p' ++ waits n k ∧ (p' ≠ [] → k = 0) := by
    intro pre th hth hxk
    by_cases h0 : i = 0
    · subst h0
      rcases main_cases h ht with ⟨p', hp, hk, hl'⟩ | ⟨hp, _, hx', _⟩
      · exact ⟨pre ++ p', by rw [hth, goOn_same, hl', List.append_assoc], fun _ => hk⟩
      · rcases hxk with h1 | h1
        · exact absurd hx' h1
        · exact absurd hp h1
    · exact ⟨p, by rw [hth, goOn_other w _ (Ne.symm h0)]; exact h.main, h.first⟩
  rcases hc with ⟨pre, hn, hf, hth, hpre⟩ | ⟨s, body, v, rfl, hn, hf, hth⟩ | ⟨s, t, rfl, hn, hth, hf, hold⟩ | ⟨s, rfl, hn, hth, hf, hold⟩
  · -- lock or unlock
    have hpi : ∀ y ∈ pre, LateI n (low lab i) y := by
      rcases hpre with ⟨o, body, rfl, rfl⟩ | ⟨_, rfl⟩
      · intro y hy
        simp only [List.mem_append, List.mem_map, List.mem_singleton] at hy
        rcases hy with ⟨a, ha, rfl⟩ | rfl
        · cases hx with
          | call hb => exact hb a ha
        · trivial
      · simp
    have hxs : ∀ s t, Item.store s t ≠ x := by
      rcases hpre with ⟨o, body, rfl, _⟩ | ⟨⟨o, rfl⟩, _⟩ <;> intro s t hc <;> cases hc
    have hxw : x ≠ .act (.wait k) := by
      rcases hpre with ⟨o, body, rfl, _⟩ | ⟨⟨o, rfl⟩, _⟩ <;> intro hc <;> cases hc
    obtain ⟨p', h1, h2⟩ := mainStep pre w'.th hth (Or.inl hxw)
    refine ⟨lab, p', k, inv_goOn h ht hn hth ?_ (fun u _ _ _ h3 => by rw [hf]; exact h3) (fun u _ _ h3 => Or.inr ?_) h1 h2 h.done⟩
    · intro y hy
      rcases List.mem_append.1 hy with hy | hy
      · exact hpi y hy
      · exact hl y hy
    · rcases List.mem_cons.1 h3 with h4 | h4
      · exact absurd h4 (hxs _ _)
      · exact List.mem_append_right _ h4
  · -- start of a sequence
    have hne : i ≠ w.n := by omega
    obtain ⟨hcs, hsn, hb⟩ : low lab i ≤ s ∧ s < n ∧ ∀ a ∈ body, Late n (s + 1) a := by
      cases hx with
      | start h1 h2 h3 => exact ⟨h1, h2, h3⟩
    have h0n : (0 : Nat) ≠ w.n := by have := h.pos; have := h.le; omega
    have old : ∀ u, u ≠ w.n → w'.th u = goOn w i (.store s w.n :: l) u := fun u hu => by rw [hth, Deadlock.set, if_neg hu]
    have new : w'.th w.n = ⟨[.act (.call (.seq s) body)], v⟩ := by rw [hth, Deadlock.set, if_pos rfl]
    obtain ⟨p', h1, h2⟩ := mainStep [.store s w.n] (goOn w i (.store s w.n :: l)) rfl (Or.inl (by simp))
    have hsk : k ≤ s := by
      by_cases h0 : i = 0
      · subst h0
        rcases main_cases h ht with ⟨_, _, hk, _⟩ | ⟨_, _, hx', _⟩
        · omega
        · cases hx'
      · have hcs : lab i + 1 ≤ s := by simpa [low, h0] using hcs
        by_cases him : i < m
        · have := h.others i (by omega) him; omega
        · by_contra hlt
          have := h.done i (by omega) hi (by omega)
          rw [this] at ht
          cases ht
    refine ⟨fun u => if u = w.n then s else lab u, p', k, h.pos, by rw [hn]; exact Nat.le_succ_of_le h.le, ?_, ?_, ?_, ?_, ?_, ?_, h2, ?_⟩
    · intro j hj
      rw [hn] at hj
      rw [old j (by omega), goOn_other w _ (by omega)]
      exact h.fresh j (by omega)
    · intro u y hy
      by_cases hu : u = w.n
      · subst hu
        rw [new] at hy
        simp only [List.mem_singleton] at hy
        subst hy
        simp only [low, h0n.symm, if_false, if_true]
        exact .call hb
      · have hlow : low (fun u => if u = w.n then s else lab u) u = low lab u := by simp [low, hu]
        rw [hlow]
        rw [old u hu] at hy
        rcases mem_goOn hy with ⟨rfl, hy2⟩ | ⟨_, hy2⟩
        · rcases List.mem_cons.1 hy2 with rfl | hy3
          · exact hcs
          · exact hl y hy3
        · exact h.items u y hy2
    · intro u h3 h4
      have := h.le
      simp only [show u ≠ w.n by omega, if_false]
      exact h.others u h3 h4
    · intro u h3 h4
      rw [hn] at h4
      by_cases hu : u = w.n
      · simp only [hu, if_true]; exact hsn
      · simp only [hu, if_false]; exact h.labn u h3 (by omega)
    · intro u h3 h4 hr
      rw [hn] at h4
      by_cases hu : u = w.n
      · subst hu
        refine Or.inr ⟨i, ?_⟩
        rw [old i hne, goOn_same]
        simp
      · simp only [hu, if_false]
        have hr' : (w.th u).todo ≠ [] := by
          by_cases hui : u = i
          · subst hui; rw [ht]; simp
          · rw [old u hu, goOn_other w _ hui] at hr; exact hr
        rw [hf]
        rcases h.found u h3 (by omega) hr' with h5 | ⟨j, h5⟩
        · exact Or.inl h5
        · right
          have hjn : j ≠ w.n := by rintro rfl; rw [h.fresh _ (Nat.le_refl _)] at h5; simp at h5
          refine ⟨j, ?_⟩
          rw [old j hjn]
          by_cases hj : j = i
          · subst hj
            rw [goOn_same]
            rw [ht] at h5
            simp only [List.mem_cons, reduceCtorEq, false_or] at h5
            simp [h5]
          · rw [goOn_other w _ hj]; exact h5
    · rw [old 0 h0n]; exact h1
    · intro u h3 h4 hk
      rw [hn] at h4
      by_cases hu : u = w.n
      · simp only [hu, if_true] at hk; omega
      · simp only [hu, if_false] at hk
        have h5 := h.done u h3 (by omega) hk
        have hui : u ≠ i := by rintro rfl; rw [ht] at h5; cases h5
        rw [old u hu, goOn_other w _ hui]
        exact h5
  · -- assignment to fut
    obtain ⟨p', h1, h2⟩ := mainStep [] w'.th (by simpa using hth) (Or.inl (by simp))
    refine ⟨lab, p', k, inv_goOn h ht hn hth hl ?_ ?_ h1 h2 h.done⟩
    · intro u _ _ hr h3
      by_cases hls : lab u = s
      · rw [hls] at h3
        exact absurd (hold u h3) hr
      · rw [hf, Deadlock.set, if_neg hls]; exact h3
    · intro u _ _ h3
      rcases List.mem_cons.1 h3 with h4 | h4
      · simp only [Item.store.injEq] at h4
        obtain ⟨h5, h6⟩ := h4
        left
        rw [hf, Deadlock.set, if_pos h5, h6]
      · exact Or.inr h4
  · -- wait
    have hfound : ∀ u, m ≤ u → u < w.n → (w.th u).todo ≠ [] → w.fut (lab u) = some u → w'.fut (lab u) = some u := by
      intro u _ _ hr h3
      by_cases hls : lab u = s
      · rw [hls] at h3
        exact absurd (hold u h3) hr
      · rw [hf, Deadlock.set, if_neg hls]; exact h3
    have hstore : ∀ u, m ≤ u → u < w.n → Item.store (lab u) u ∈ Item.act (.wait s) :: l → w'.fut (lab u) = some u ∨ Item.store (lab u) u ∈ l := by
      intro u _ _ h3
      right
      simpa using h3
    by_cases hcase : i = 0 ∧ p = []
    · obtain ⟨rfl, rfl⟩ := hcase
      rcases main_cases h ht with ⟨_, hp, _, _⟩ | ⟨_, hkn, hx', hl'⟩
      · cases hp
      · simp only [Item.act.injEq, Act.wait.injEq] at hx'
        subst hx'
        refine ⟨lab, [], s + 1, inv_goOn h ht hn hth hl hfound hstore (by rw [hth, goOn_same, hl']; rfl) (by simp) ?_⟩
        intro u h3 h4 h5
        by_contra hr
        by_cases hls : lab u = s
        · exact hr (hold u (last_run h h3 h4 hls hr))
        · exact hr (h.done u h3 h4 (by omega))
    · have hm : ∃ p', (w'.th 0).todo = p' ++ waits n k ∧ (p' ≠ [] → k = 0) := by
        by_cases h0 : i = 0
        · exact mainStep [] w'.th (by simpa using hth) (Or.inr (fun hp => hcase ⟨h0, hp⟩))
        · exact ⟨p, by rw [hth, goOn_other w _ (Ne.symm h0)]; exact h.main, h.first⟩
      obtain ⟨p', h1, h2⟩ := hm
      exact ⟨lab, p', k, inv_goOn h ht hn hth hl hfound hstore h1 h2 h.done⟩

theorem inv_exec {m n k : Nat} {w w' : World} {lab : Nat → Nat} {p : List Item} {is : List Nat} (h : Inv m n w lab p k) (hs : exec w is = some w') :
    ∃ lab' p' k', Inv m n w' lab' p' k' := by
  induction is generalizing w lab p k with
  | nil => simp only [exec, Option.some.injEq] at hs; subst hs; exact ⟨lab, p, k, h⟩
  | cons i is ih =>
    simp only [exec, Option.bind_eq_some_iff] at hs
    obtain ⟨w1, h1, h2⟩ := hs
    obtain ⟨lab', p', k', h3⟩ := inv_step h h1
    exact ih h3 h2

theorem inv_init {n : Nat} {pre : List Act} {others : List (List Act)} (hp : ∀ a ∈ pre, Late n 0 a) (ho : ∀ q ∈ others, ∀ a ∈ q, Plain a) :
    Inv (others.length + 1) n (init ((pre ++ waitAll n) :: others)) (fun _ => n) (pre.map .act) 0 := by
  refine ⟨by omega, by simp [init], ?_, ?_, fun _ _ _ => Nat.le_refl _, fun u h1 h2 => by simp [init] at h2; omega, fun u h1 h2 => by simp [init] at h2; omega, ?_,
    fun _ => rfl, fun u h1 h2 => by simp [init] at h2; omega⟩
  · intro i hi
    have hi : others.length + 1 ≤ i := by simpa [init] using hi
    obtain ⟨j, rfl⟩ : ∃ j, i = j + 1 := ⟨i - 1, by omega⟩
    show List.map Item.act (((pre ++ waitAll n) :: others).getD (j + 1) []) = []
    simp [show others.length ≤ j by omega]
  · intro u y hy
    have hy : y ∈ List.map Item.act (((pre ++ waitAll n) :: others).getD u []) := hy
    obtain ⟨a, ha, rfl⟩ := List.mem_map.1 hy
    cases u with
    | zero =>
      rw [List.getD_cons_zero] at ha
      rcases List.mem_append.1 ha with ha | ha
      · exact hp a ha
      · obtain ⟨s, _, rfl⟩ := List.mem_map.1 ha
        exact .wait (Nat.zero_le _)
    | succ j =>
      rw [List.getD_cons_succ] at ha
      by_cases hj : j < others.length
      · have ha : a ∈ others[j] := by simpa [List.getD_eq_getElem?_getD, hj] using ha
        exact late_plain (ho _ (List.getElem_mem hj) a ha) _
      · simp [List.getD_eq_getElem?_getD, show others.length ≤ j by omega] at ha
  · show List.map Item.act (pre ++ waitAll n) = _
    simp [waitAll, waits, List.range_eq_range']

/-! ### Theorems -/

/-- If sequences start and wait for later ones only, `Sequencer::wait` returns when every run of every sequence is over. -/
theorem wait_all_partial {n : Nat} {pre : List Act} {others : List (List Act)} (hp : ∀ a ∈ pre, Late n 0 a) (ho : ∀ q ∈ others, ∀ a ∈ q, Plain a)
    {is : List Nat} {w : World} (hs : exec (init ((pre ++ waitAll n) :: others)) is = some w) (hd : (w.th 0).todo = []) : ∀ u, ¬ Running (others.length + 1) w u := by
  intro u ⟨hm, hr⟩
  obtain ⟨lab, p, k, h⟩ := inv_exec (inv_init hp ho) hs
  have hu : u < w.n := Nat.lt_of_not_le (fun hc => hr (h.fresh u hc))
  have h1 := h.main
  rw [hd] at h1
  obtain ⟨rfl, h2⟩ := List.append_eq_nil_iff.1 h1.symm
  have hk : n ≤ k := by
    by_contra hc
    rw [waits_cons (by omega)] at h2
    cases h2
  exact hr (h.done u hm hu (by have := h.labn u hm hu; omega))

/-- Then `Sequencer::wait` also is the only one to touch the future it waits for: when main is about to wait for sequence `s` (the last `n - s` waits are left), no
other thread reads or writes `fut` of `s`, now or in the whole future. -/
theorem wait_alone {n s : Nat} {pre : List Act} {others : List (List Act)} (hp : ∀ a ∈ pre, Late n 0 a) (ho : ∀ q ∈ others, ∀ a ∈ q, Plain a)
    {is js : List Nat} {w w' : World} (hs : exec (init ((pre ++ waitAll n) :: others)) is = some w) (hsn : s < n)
    (hd : (w.th 0).todo = (List.range' s (n - s)).map (fun s => .act (.wait s))) (hs' : exec w js = some w') {j : Nat} (hj : j ≠ 0) : ¬ Touches w' j s := by
  intro ⟨x, l, ht, hx⟩
  -- from the moment main waits for `s`, everything with a smaller label is over
  have hkey : ∃ lab p k, Inv (others.length + 1) n w' lab p k ∧ p = [] ∧ s ≤ k := by
    obtain ⟨lab, p, k, h⟩ := inv_exec (inv_init hp ho) hs
    have h0 : ∃ lab p k, Inv (others.length + 1) n w lab p k ∧ p = [] ∧ s ≤ k := by
      have h1 := h.main
      rw [hd] at h1
      have hlen := congrArg List.length h1
      simp only [List.length_map, List.length_range', List.length_append, waits] at hlen
      by_cases hpn : p = []
      · subst hpn
        refine ⟨lab, [], k, h, rfl, ?_⟩
        simp only [List.length_nil] at hlen
        omega
      · have hk := h.first hpn
        have : 0 < p.length := List.length_pos_of_ne_nil hpn
        omega
    clear h hd hs
    obtain ⟨lab, p, k, h, hpn, hk⟩ := h0
    clear ht
    induction js generalizing w lab p k with
    | nil => simp only [exec, Option.some.injEq] at hs'; subst hs'; exact ⟨lab, p, k, h, hpn, hk⟩
    | cons i js ih =>
      simp only [exec, Option.bind_eq_some_iff] at hs'
      obtain ⟨w1, h1, h2⟩ := hs'
      obtain ⟨lab', p', k', h3⟩ := inv_step h h1
      -- main is still waiting, for the same or the next sequence
      have hm : (w1.th 0).todo = waits n k ∨ (w1.th 0).todo = waits n (k + 1) := by
        obtain ⟨x, l, ht, hc⟩ := step_cases h1
        by_cases hi : i = 0
        · subst hi
          subst hpn
          rcases main_cases h ht with ⟨_, hp', _, _⟩ | ⟨_, _, rfl, hl⟩
          · cases hp'
          · rcases hc with ⟨pre, _, _, _, ⟨_, _, h5, _⟩ | ⟨⟨_, h5⟩, _⟩⟩ | ⟨_, _, _, h5, _⟩ | ⟨_, _, h5, _⟩ | ⟨_, _, _, hth, _⟩
            · cases h5
            · cases h5
            · cases h5
            · cases h5
            · right; rw [hth, goOn_same, hl]
        · left
          have hm := h.main
          rw [hpn, List.nil_append] at hm
          have hn0 : (0 : Nat) ≠ w.n := by have := h.pos; have := h.le; omega
          rcases hc with ⟨pre, _, _, hth, _⟩ | ⟨_, _, _, _, _, _, hth⟩ | ⟨_, _, _, _, hth, _⟩ | ⟨_, _, _, hth, _⟩
          · rw [hth, goOn_other w _ (Ne.symm hi)]; exact hm
          · rw [hth, Deadlock.set, if_neg hn0, goOn_other w _ (Ne.symm hi)]; exact hm
          · rw [hth, goOn_other w _ (Ne.symm hi)]; exact hm
          · rw [hth, goOn_other w _ (Ne.symm hi)]; exact hm
      have h4 := h3.main
      have hp' : p' = [] ∧ (s ≤ k') := by
        by_cases hpn' : p' = []
        · refine ⟨hpn', ?_⟩
          subst hpn'
          rw [List.nil_append] at h4
          rcases hm with hm | hm <;> rw [hm] at h4 <;> have hlen := congrArg List.length h4 <;>
            simp only [waits, List.length_map, List.length_range'] at hlen
          · by_cases hkn : k < n
            · omega
            · have : n ≤ k' := by omega
              omega
          · by_cases hkn : k + 1 < n
            · omega
            · have : n ≤ k' := by omega
              omega
        · exfalso
          have hk' := h3.first hpn'
          have hpos : 0 < p'.length := List.length_pos_of_ne_nil hpn'
          rcases hm with hm | hm <;> rw [hm] at h4 <;> have hlen := congrArg List.length h4 <;>
            simp only [waits, List.length_map, List.length_range', List.length_append] at hlen <;> omega
      exact ih h2 lab' p' k' h3 hp'.1 hp'.2
  obtain ⟨lab, p, k, h, rfl, hk⟩ := hkey
  have hl : low lab j ≤ s := by
    have h1 := h.items j x (by rw [ht]; simp)
    rcases hx with rfl | ⟨t, rfl⟩
    · cases h1 with
      | wait h2 => exact h2
    · exact h1
  have hl : lab j + 1 ≤ s := by simpa [low, hj] using hl
  have hjn : j < w'.n := Nat.lt_of_not_le (fun hc => by rw [h.fresh j hc] at ht; cases ht)
  by_cases hjm : j < others.length + 1
  · have := h.others j (by omega) hjm; omega
  · have := h.done j (by omega) hjn (by omega)
    rw [this] at ht
    cases ht

/-- Main starts sequence 0 and one more; 0 starts 1 (which locks a block) and 2, calls a step and waits for 1.  The time domain runs a block. -/
def demo : List Act := [.start 0 [.start 1 [.call (.block 0) []] 5, .call (.seq 7) [.start 2 [] 6], .wait 1] 4]

theorem demo_late : ∀ a ∈ demo, Late 3 0 a := by
  intro a ha
  simp only [demo, List.mem_singleton] at ha
  subst ha
  refine .start (by decide) (by decide) (fun a ha => ?_)
  simp only [List.mem_cons, List.not_mem_nil, or_false] at ha
  rcases ha with rfl | rfl | rfl
  · refine .start (by decide) (by decide) (fun a ha => ?_)
    simp only [List.mem_singleton] at ha
    subst ha
    exact .call (by simp)
  · refine .call (fun a ha => ?_)
    simp only [List.mem_singleton] at ha
    subst ha
    exact .start (by decide) (by decide) (by simp)
  · exact .wait (by decide)

theorem demo_plain : ∀ q ∈ [[Act.call (.block 0) []]], ∀ a ∈ q, Plain a := by
  intro q hq a ha
  simp only [List.mem_singleton] at hq
  subst hq
  simp only [List.mem_singleton] at ha
  subst ha
  exact .call (by simp)

-- sequence 0 is thread 2, 1 is thread 3, 2 is thread 4; a whole run up to the end of `wait`
example : ∃ w, exec (init ((demo ++ waitAll 3) :: [[.call (.block 0) []]])) [0, 0, 1, 2, 2, 2, 2, 2, 2, 2, 3, 1, 3, 3, 3, 2, 2, 0, 0, 4, 4, 0] = some w ∧ (w.th 0).todo = [] := by
  refine ⟨_, rfl, rfl⟩
example {is : List Nat} {w : World} (hs : exec (init ((demo ++ waitAll 3) :: [[.call (.block 0) []]])) is = some w) (hd : (w.th 0).todo = []) :
    ∀ u, ¬ Running 2 w u := wait_all_partial demo_late demo_plain hs hd
-- main is about to wait for sequence 0 while all three run
example : ∃ w, exec (init ((demo ++ waitAll 3) :: [[.call (.block 0) []]])) [0, 0, 2, 2, 2, 2, 2] = some w ∧ (w.th 0).todo = (List.range' 0 3).map (fun s => .act (.wait s)) ∧
    step w 0 = none ∧ Running 2 w 2 ∧ Running 2 w 3 ∧ Running 2 w 4 := by
  refine ⟨_, rfl, rfl, rfl, ⟨by decide, ?_⟩, ⟨by decide, ?_⟩, ⟨by decide, ?_⟩⟩ <;> (intro h; cases h)
example {is js : List Nat} {w w' : World} (hs : exec (init ((demo ++ waitAll 3) :: [[.call (.block 0) []]])) is = some w)
    (hd : (w.th 0).todo = (List.range' 1 2).map (fun s => .act (.wait s))) (hs' : exec w js = some w') : ¬ Touches w' 3 1 :=
  wait_alone demo_late demo_plain hs (by decide) hd hs' (by decide)

/-- A sequence which starts one constructed earlier: `Sequencer::wait` has passed it already and returns while it runs, whatever it does. -/
theorem wait_earlier_violated (body : List Act) (v v' : Int) : ∃ is w, exec (init [[.start 1 [.start 0 body v] v'] ++ waitAll 2]) is = some w ∧ (w.th 0).todo = [] ∧
    Running 1 w 2 ∧ (w.th 2).todo = [.act (.call (.seq 0) body)] := by
  refine ⟨[0, 0, 0, 1, 1, 1, 1, 0], _, rfl, rfl, ⟨by decide, ?_⟩, rfl⟩
  intro h; cases h

/-- A sequence constructed after the list was copied is not waited for either. -/
theorem wait_later_violated (body : List Act) (v v' : Int) : ∃ is w, exec (init [[.start 0 [.start 1 body v] v'] ++ waitAll 1]) is = some w ∧ (w.th 0).todo = [] ∧
    Running 1 w 2 ∧ (w.th 2).todo = [.act (.call (.seq 1) body)] := by
  refine ⟨[0, 0, 1, 1, 1, 1, 0], _, rfl, rfl, ⟨by decide, ?_⟩, rfl⟩
  intro h; cases h

example : ∃ is w, exec (init [[.start 1 [.start 0 [.call (.block 3) []] 1] 2] ++ waitAll 2]) is = some w ∧ (w.th 0).todo = [] ∧
    Running 1 w 2 ∧ (w.th 2).todo = [.act (.call (.seq 0) [.call (.block 3) []])] := wait_earlier_violated _ _ _
example : ∃ is w, exec (init [[.start 0 [.start 1 [.call .safety []] 1] 2] ++ waitAll 1]) is = some w ∧ (w.th 0).todo = [] ∧
    Running 1 w 2 ∧ (w.th 2).todo = [.act (.call (.seq 1) [.call .safety []])] := wait_later_violated _ _ _

end Verif.Sequencer.WaitAll
