import Mathlib.Tactic.ByContra
/-!
Data races of the member variables of an object whose methods are called by several threads.

The C++ standard gives a program with a data race no meaning at all ([intro.races]): two accesses of the same
ordinary variable by two threads, at least one of them a write, which nothing orders.  The framework orders
accesses with `std::mutex` only, so this file models exactly that: a method is the list of its lock and unlock
operations and of its accesses of ordinary member variables (accesses of `std::atomic` variables, of local
variables and of arguments cannot race and are left out), and any number of threads call any number of methods, in
every interleaving.  No class of the framework appears here; the tables of the classes are in
`Verif/Control/BlockRaces.lean`.
-/
namespace Verif.Common.Race

/-- One step of a method: `V` names the member variables, `X` the mutexes. -/
inductive Instr (V X : Type) where
  | lock (m : X)
  | unlock (m : X)
  | rd (v : V)
  | wr (v : V)
deriving DecidableEq, Repr

/-- Two steps which form a data race when two threads are about to do them. -/
def Conflict {V X : Type} : Instr V X → Instr V X → Prop
  | .wr v, .wr w => v = w
  | .wr v, .rd w => v = w
  | .rd v, .wr w => v = w
  | _, _ => False

/-- The definition of the C++ standard: both access the same variable, and one of them writes. -/
theorem conflict_iff {V X : Type} (a b : Instr V X) :
    Conflict a b ↔ ∃ v, (a = .rd v ∨ a = .wr v) ∧ (b = .rd v ∨ b = .wr v) ∧ (a = .wr v ∨ b = .wr v) := by
  cases a <;> cases b <;> simp [Conflict, eq_comm]

example : Conflict (V := Nat) (X := Unit) (.wr 3) (.wr 3) ∧ ¬ Conflict (V := Nat) (X := Unit) (.rd 3) (.rd 3) ∧ ¬ Conflict (V := Nat) (X := Unit) (.wr 3) (.rd 4) := by
  refine ⟨rfl, id, by simp [Conflict]⟩

instance {V X : Type} [DecidableEq V] (a b : Instr V X) : Decidable (Conflict a b) := by
  cases a <;> cases b <;> simp only [Conflict] <;> infer_instance

section
variable {V X T : Type} [DecidableEq X] [DecidableEq T]

/-- The mutexes and, for every thread, what it still has to do of the method it called.  `owner m = none`: the mutex
is free. -/
structure St (V X T : Type) where
  owner : X → Option T
  rest : T → List (Instr V X)

/-- All mutexes are free and no thread has called a method. -/
def init : St V X T := ⟨fun _ => none, fun _ => []⟩

/-- One step of the thread `t`.  `can t p`: the thread may call a method whose steps are `p`.
* A thread which has finished its method calls another one.
* `lock` waits until the mutex is free.
* `unlock` and the accesses of variables never wait. -/
inductive Step (can : T → List (Instr V X) → Prop) : St V X T → St V X T → Prop
  | call (s : St V X T) (t : T) (p : List (Instr V X)) (h : s.rest t = []) (hp : can t p) :
      Step can s ⟨s.owner, fun u => if u = t then p else s.rest u⟩
  | lock (s : St V X T) (t : T) (m : X) (r : List (Instr V X)) (h : s.rest t = .lock m :: r)
      (hf : s.owner m = none) :
      Step can s ⟨fun k => if k = m then some t else s.owner k, fun u => if u = t then r else s.rest u⟩
  | unlock (s : St V X T) (t : T) (m : X) (r : List (Instr V X)) (h : s.rest t = .unlock m :: r) :
      Step can s ⟨fun k => if k = m then none else s.owner k, fun u => if u = t then r else s.rest u⟩
  | rd (s : St V X T) (t : T) (v : V) (r : List (Instr V X)) (h : s.rest t = .rd v :: r) :
      Step can s ⟨s.owner, fun u => if u = t then r else s.rest u⟩
  | wr (s : St V X T) (t : T) (v : V) (r : List (Instr V X)) (h : s.rest t = .wr v :: r) :
      Step can s ⟨s.owner, fun u => if u = t then r else s.rest u⟩

/-- The states the threads can reach. -/
inductive Reach (can : T → List (Instr V X) → Prop) : St V X T → Prop
  | init : Reach can init
  | step {s s' : St V X T} : Reach can s → Step can s s' → Reach can s'

/-- Two different threads are about to do conflicting accesses. -/
def RaceIn (s : St V X T) : Prop :=
  ∃ t u, t ≠ u ∧ ∃ a b r q, s.rest t = a :: r ∧ s.rest u = b :: q ∧ Conflict a b

/-- No reachable state has a data race. -/
def RaceFree (can : T → List (Instr V X) → Prop) : Prop := ∀ s, Reach can s → ¬ RaceIn s

/-! ### The rule of the locks -/

/-- The mutexes a thread holds after the steps `p`, when it held `h` before. -/
def held (h : List X) : List (Instr V X) → List X
  | [] => h
  | .lock m :: r => held (m :: h) r
  | .unlock m :: r => held (h.erase m) r
  | .rd _ :: r => held h r
  | .wr _ :: r => held h r

/-- A method which locks no mutex it holds, unlocks only mutexes it holds and holds none at its end. -/
def Balanced (h : List X) : List (Instr V X) → Prop
  | [] => h = []
  | .lock m :: r => m ∉ h ∧ Balanced (m :: h) r
  | .unlock m :: r => m ∈ h ∧ Balanced (h.erase m) r
  | .rd _ :: r => Balanced h r
  | .wr _ :: r => Balanced h r

instance decBalanced (h : List X) : (p : List (Instr V X)) → Decidable (Balanced h p)
  | [] => by unfold Balanced; exact inferInstanceAs (Decidable (h = []))
  | .lock m :: r => by
      unfold Balanced
      exact @instDecidableAnd _ _ inferInstance (decBalanced (m :: h) r)
  | .unlock m :: r => by
      unfold Balanced
      exact @instDecidableAnd _ _ inferInstance (decBalanced (h.erase m) r)
  | .rd _ :: r => by unfold Balanced; exact decBalanced h r
  | .wr _ :: r => by unfold Balanced; exact decBalanced h r

/-- The steps of a method together with the mutexes held at each. -/
def annotate (h : List X) : List (Instr V X) → List (Instr V X × List X)
  | [] => []
  | .lock m :: r => (.lock m, h) :: annotate (m :: h) r
  | .unlock m :: r => (.unlock m, h) :: annotate (h.erase m) r
  | .rd v :: r => (.rd v, h) :: annotate h r
  | .wr v :: r => (.wr v, h) :: annotate h r

/-- Every two conflicting accesses of two methods have a mutex in common. -/
def Guarded (p q : List (Instr V X)) : Prop :=
  ∀ a ∈ annotate [] p, ∀ b ∈ annotate [] q, Conflict a.1 b.1 → ∃ m ∈ a.2, m ∈ b.2

instance [DecidableEq V] (p q : List (Instr V X)) : Decidable (Guarded p q) := by
  unfold Guarded; infer_instance

omit [DecidableEq T] in
theorem held_append (h : List X) (p q : List (Instr V X)) : held h (p ++ q) = held (held h p) q := by
  induction p generalizing h with
  | nil => rfl
  | cons i r ih => cases i <;> simp only [held, List.cons_append, ih]

omit [DecidableEq T] in
theorem balanced_append (h : List X) (p q : List (Instr V X)) (hb : Balanced h (p ++ q)) :
    Balanced (held h p) q := by
  induction p generalizing h with
  | nil => exact hb
  | cons i r ih =>
    cases i with
    | lock m => exact ih _ hb.2
    | unlock m => exact ih _ hb.2
    | rd v => exact ih _ hb
    | wr v => exact ih _ hb

omit [DecidableEq T] in
theorem mem_annotate (h : List X) (p : List (Instr V X)) (a : Instr V X) (r : List (Instr V X)) :
    (a, held h p) ∈ annotate h (p ++ a :: r) := by
  induction p generalizing h with
  | nil => cases a <;> simp [annotate, held]
  | cons i q ih => cases i <;> simp [annotate, held, ih]

omit [DecidableEq T] in
theorem annotate_split (h : List X) (p : List (Instr V X)) (a : Instr V X) (l : List X)
    (hm : (a, l) ∈ annotate h p) : ∃ q r, p = q ++ a :: r ∧ l = held h q := by
  induction p generalizing h with
  | nil => simp [annotate] at hm
  | cons i r ih =>
    have key : ∀ h', (a, l) ∈ annotate h' r → held h [i] = h' →
        ∃ q r', i :: r = q ++ a :: r' ∧ l = held h q := by
      intro h' hm' he
      obtain ⟨q, r', h1, h2⟩ := ih h' hm'
      refine ⟨i :: q, r', by rw [h1]; rfl, ?_⟩
      rw [h2, ← he, ← held_append]; rfl
    have first : (a, l) = (i, h) → ∃ q r', i :: r = q ++ a :: r' ∧ l = held h q := by
      intro he
      simp only [Prod.mk.injEq] at he
      exact ⟨[], r, by rw [he.1]; rfl, by rw [he.2]; rfl⟩
    cases i <;> simp only [annotate, List.mem_cons] at hm <;> rcases hm with hm | hm
    · exact first hm
    · exact key _ hm rfl
    · exact first hm
    · exact key _ hm rfl
    · exact first hm
    · exact key _ hm rfl
    · exact first hm
    · exact key _ hm rfl

omit [DecidableEq T] in
theorem held_nodup (h : List X) (p : List (Instr V X)) (hn : h.Nodup) (r : List (Instr V X))
    (hb : Balanced h (p ++ r)) : (held h p).Nodup := by
  induction p generalizing h with
  | nil => exact hn
  | cons i q ih =>
    cases i with
    | lock m => exact ih _ (List.nodup_cons.2 ⟨hb.1, hn⟩) hb.2
    | unlock m => exact ih _ (hn.erase m) hb.2
    | rd v => exact ih _ hn hb
    | wr v => exact ih _ hn hb

/-- What holds in every reachable state: every thread is somewhere in a method it may call, and it owns exactly the
mutexes which the steps done so far have locked. -/
structure Inv (can : T → List (Instr V X) → Prop) (s : St V X T) : Prop where
  pos : ∀ t, ∃ d, (d ++ s.rest t = [] ∨ can t (d ++ s.rest t)) ∧ ∀ m, s.owner m = some t ↔ m ∈ held [] d

omit [DecidableEq T] in
theorem pos_adv (can : T → List (Instr V X) → Prop) (t : T) (d r : List (Instr V X)) (i : Instr V X)
    (h : d ++ i :: r = [] ∨ can t (d ++ i :: r)) :
    (d ++ [i]) ++ r = [] ∨ can t ((d ++ [i]) ++ r) := by
  rw [List.append_assoc]; exact h

theorem inv_reach (can : T → List (Instr V X) → Prop) (hb : ∀ t p, can t p → Balanced [] p) (s : St V X T)
    (h : Reach can s) : Inv can s := by
  induction h with
  | init => exact ⟨fun t => ⟨[], Or.inl rfl, fun m => by simp [init, held]⟩⟩
  | @step s _ _ hs ih =>
    cases hs with
    | call t p h hp =>
      constructor
      intro u
      by_cases hu : u = t
      · subst hu
        obtain ⟨d, hd, ho⟩ := ih.pos u
        refine ⟨[], Or.inr (by simpa using hp), fun m => ?_⟩
        rw [h, List.append_nil] at hd
        have he : held [] d = ([] : List X) := by
          rcases hd with hd | hd
          · rw [hd]; rfl
          · have := balanced_append [] d [] (by simpa using hb u d hd)
            exact this
        rw [he] at ho
        exact ho m
      · obtain ⟨d, hd, ho⟩ := ih.pos u
        exact ⟨d, by simpa [hu] using hd, ho⟩
    | lock t m r h hf =>
      constructor
      intro u
      obtain ⟨d, hd, ho⟩ := ih.pos u
      by_cases hu : u = t
      · subst hu
        rw [h] at hd
        refine ⟨d ++ [.lock m], by simpa using pos_adv can u d r _ hd, fun k => ?_⟩
        rw [held_append]
        simp only [held, List.mem_cons]
        by_cases hk : k = m
        · simp [hk]
        · simp [hk, ho k]
      · refine ⟨d, by simpa [hu] using hd, fun k => ?_⟩
        by_cases hk : k = m
        · subst hk
          simp only [if_true, Option.some.injEq]
          constructor
          · intro h1; exact absurd h1.symm hu
          · intro h1
            have := (ho k).2 h1
            rw [hf] at this; cases this
        · simp [hk, ho k]
    | unlock t m r h =>
      have howner : s.owner m = some t := by
        obtain ⟨d, hd, ho⟩ := ih.pos t
        rw [h] at hd
        rcases hd with hd | hd
        · simp at hd
        · have := balanced_append [] d _ (hb t _ hd)
          exact (ho m).2 this.1
      constructor
      intro u
      obtain ⟨d, hd, ho⟩ := ih.pos u
      by_cases hu : u = t
      · subst hu
        rw [h] at hd
        refine ⟨d ++ [.unlock m], by simpa using pos_adv can u d r _ hd, fun k => ?_⟩
        have hn : (held [] d).Nodup := by
          rcases hd with hd | hd
          · simp at hd
          · exact held_nodup [] d (by simp) _ (hb u _ hd)
        rw [held_append]
        simp only [held]
        by_cases hk : k = m
        · subst hk
          simp [hn.mem_erase_iff]
        · rw [List.mem_erase_of_ne hk]
          simp [hk, ho k]
      · refine ⟨d, by simpa [hu] using hd, fun k => ?_⟩
        by_cases hk : k = m
        · subst hk
          constructor
          · intro h1; simp at h1
          · intro h1
            have := (ho k).2 h1
            rw [howner] at this
            simp only [Option.some.injEq] at this
            exact absurd this.symm hu
        · simp [hk, ho k]
    | rd t v r h =>
      constructor
      intro u
      obtain ⟨d, hd, ho⟩ := ih.pos u
      by_cases hu : u = t
      · subst hu
        rw [h] at hd
        refine ⟨d ++ [.rd v], by simpa using pos_adv can u d r _ hd, fun k => ?_⟩
        rw [held_append]
        exact ho k
      · exact ⟨d, by simpa [hu] using hd, ho⟩
    | wr t v r h =>
      constructor
      intro u
      obtain ⟨d, hd, ho⟩ := ih.pos u
      by_cases hu : u = t
      · subst hu
        rw [h] at hd
        refine ⟨d ++ [.wr v], by simpa using pos_adv can u d r _ hd, fun k => ?_⟩
        rw [held_append]
        exact ho k
      · exact ⟨d, by simpa [hu] using hd, ho⟩

/-- **The rule of the locks is enough.**  When every two conflicting accesses of methods which two different threads
may call have a mutex in common, no execution has a data race: any number of threads, of calls and of steps, every
interleaving. -/
theorem guarded_race_free (can : T → List (Instr V X) → Prop) (hb : ∀ t p, can t p → Balanced [] p)
    (hg : ∀ t u p q, t ≠ u → can t p → can u q → Guarded p q) : RaceFree can := by
  intro s hs ⟨t, u, htu, a, b, r, q, h1, h2, hc⟩
  have hi := inv_reach can hb s hs
  obtain ⟨d, hd, ho⟩ := hi.pos t
  obtain ⟨e, he, hp⟩ := hi.pos u
  rw [h1] at hd
  rw [h2] at he
  rcases hd with hd | hd
  · simp at hd
  rcases he with he | he
  · simp at he
  obtain ⟨m, hm1, hm2⟩ := hg t u _ _ htu hd he _ (mem_annotate [] d a r) _ (mem_annotate [] e b q) hc
  have e1 := (ho m).2 hm1
  have e2 := (hp m).2 hm2
  rw [e1] at e2
  simp only [Option.some.injEq] at e2
  exact htu e2

/-! ### The rule is needed -/

/-- Running one thread through the first part of a method, while nobody else holds any mutex it needs. -/
theorem drive (can : T → List (Instr V X) → Prop) (t : T) (p r : List (Instr V X)) (h : List X) (s : St V X T)
    (hr : Reach can s) (hs : s.rest t = p ++ r) (hb : Balanced h (p ++ r)) (hn : h.Nodup)
    (ho : ∀ m, s.owner m = if m ∈ h then some t else none) :
    ∃ s', Reach can s' ∧ s'.rest t = r ∧ (∀ u, u ≠ t → s'.rest u = s.rest u) ∧
      ∀ m, s'.owner m = if m ∈ held h p then some t else none := by
  induction p generalizing h s with
  | nil => exact ⟨s, hr, hs, fun _ _ => rfl, ho⟩
  | cons i q ih =>
    cases i with
    | lock m =>
      have hf : s.owner m = none := by rw [ho m, if_neg hb.1]
      obtain ⟨s', k1, k2, k3, k4⟩ := ih (m :: h)
        ⟨fun k => if k = m then some t else s.owner k, fun u => if u = t then q ++ r else s.rest u⟩
        (hr.step (.lock s t m (q ++ r) hs hf)) (by simp) hb.2 (List.nodup_cons.2 ⟨hb.1, hn⟩)
        (fun k => by
          by_cases hk : k = m
          · simp [hk]
          · simp [hk, ho k])
      refine ⟨s', k1, k2, fun u hu => ?_, k4⟩
      rw [k3 u hu]; simp [hu]
    | unlock m =>
      obtain ⟨s', k1, k2, k3, k4⟩ := ih (h.erase m)
        ⟨fun k => if k = m then none else s.owner k, fun u => if u = t then q ++ r else s.rest u⟩
        (hr.step (.unlock s t m (q ++ r) hs)) (by simp) hb.2 (hn.erase m)
        (fun k => by
          by_cases hk : k = m
          · simp [hk, hn.mem_erase_iff]
          · simp [hk, ho k, List.mem_erase_of_ne hk])
      refine ⟨s', k1, k2, fun u hu => ?_, k4⟩
      rw [k3 u hu]; simp [hu]
    | rd v =>
      obtain ⟨s', k1, k2, k3, k4⟩ := ih h ⟨s.owner, fun u => if u = t then q ++ r else s.rest u⟩
        (hr.step (.rd s t v (q ++ r) hs)) (by simp) hb hn ho
      refine ⟨s', k1, k2, fun u hu => ?_, k4⟩
      rw [k3 u hu]; simp [hu]
    | wr v =>
      obtain ⟨s', k1, k2, k3, k4⟩ := ih h ⟨s.owner, fun u => if u = t then q ++ r else s.rest u⟩
        (hr.step (.wr s t v (q ++ r) hs)) (by simp) hb hn ho
      refine ⟨s', k1, k2, fun u hu => ?_, k4⟩
      rw [k3 u hu]; simp [hu]

/-- **One access without a mutex is enough for a race.**  When a thread may do an access while it holds no mutex at all
and another thread may do a conflicting access, an execution reaches a data race. -/
theorem unlocked_races (can : T → List (Instr V X) → Prop) (t u : T) (htu : t ≠ u) (p q : List (Instr V X))
    (hp : can t p) (hq : can u q) (bp : Balanced [] p) (bq : Balanced [] q) (a b : Instr V X) (l : List X)
    (ha : (a, ([] : List X)) ∈ annotate [] p) (hb : (b, l) ∈ annotate [] q) (hc : Conflict a b) :
    ¬ RaceFree can := by
  intro hfree
  obtain ⟨d, r, h1, h2⟩ := annotate_split [] p a [] ha
  obtain ⟨e, o, h3, _⟩ := annotate_split [] q b l hb
  have r1 : Reach can (⟨fun _ => none, fun v => if v = t then p else []⟩ : St V X T) :=
    Reach.init.step (.call init t p rfl hp)
  obtain ⟨s, k1, k2, k3, k4⟩ := drive can t d (a :: r) [] _ r1 (by simp [h1]) (by rw [← h1]; exact bp) (by simp)
    (fun m => by simp)
  rw [← h2] at k4
  have ku : s.rest u = [] := by rw [k3 u (Ne.symm htu)]; simp [Ne.symm htu]
  have r2 := k1.step (.call s u q ku hq)
  obtain ⟨s', j1, j2, j3, _⟩ := drive can u e (b :: o) [] _ r2 (by simp [h3]) (by rw [← h3]; exact bq) (by simp)
    (fun m => by simp [k4])
  refine hfree s' j1 ⟨t, u, htu, a, b, r, o, ?_, j2, hc⟩
  rw [j3 t htu]
  simp [htu, k2]

end

/-! ### Objects with one mutex -/

section
variable {V T : Type} [DecidableEq T]

omit [DecidableEq T] in
/-- With one mutex a thread holds it or nothing. -/
theorem held_unit (h : List Unit) (hh : h = [] ∨ h = [()]) (p r : List (Instr V Unit)) (hb : Balanced h (p ++ r)) :
    held h p = [] ∨ held h p = [()] := by
  have := held_nodup h p (by rcases hh with h | h <;> simp [h]) r hb
  match hx : held h p with
  | [] => exact Or.inl rfl
  | [()] => exact Or.inr rfl
  | () :: () :: l => rw [hx] at this; simp at this

/-- **With one mutex the rule is exact**: the object has no data race if and only if of every two conflicting accesses of
methods which two different threads may call both hold the mutex. -/
theorem race_free_iff (can : T → List (Instr V Unit) → Prop) (hb : ∀ t p, can t p → Balanced [] p) :
    RaceFree can ↔ ∀ t u p q, t ≠ u → can t p → can u q → Guarded p q := by
  constructor
  · intro hf t u p q htu hp hq
    by_contra hg
    simp only [Guarded, not_forall] at hg
    obtain ⟨⟨a, la⟩, ha, ⟨b, lb⟩, hb', hc, hn⟩ := hg
    obtain ⟨d, r, h1, h2⟩ := annotate_split [] p a la ha
    obtain ⟨e, o, h3, h4⟩ := annotate_split [] q b lb hb'
    have ka := held_unit [] (Or.inl rfl) d (a :: r) (by rw [← h1]; exact hb t p hp)
    have kb := held_unit [] (Or.inl rfl) e (b :: o) (by rw [← h3]; exact hb u q hq)
    rw [← h2] at ka
    rw [← h4] at kb
    rcases ka with ka | ka
    · rw [ka] at ha
      exact unlocked_races can t u htu p q hp hq (hb t p hp) (hb u q hq) a b lb ha hb' hc hf
    rcases kb with kb | kb
    · rw [kb] at hb'
      have hc' : Conflict b a := by
        cases a <;> cases b <;> simp only [Conflict] at hc ⊢ <;> exact hc.symm
      exact unlocked_races can u t (Ne.symm htu) q p hq hp (hb u q hq) (hb t p hp) b a la hb' ha hc' hf
    · exact hn ⟨(), by simp [ka], by simp [kb]⟩
  · exact guarded_race_free can hb

end

/-! ### Examples -/

/-- A counter whose increment is locked and whose getter is not: 0 = counter. -/
example : ¬ RaceFree (T := Nat)
    (fun t p => (t = 0 ∧ p = [.lock (), .rd 0, .wr 0, .unlock ()]) ∨ (t = 1 ∧ p = [.rd (0 : Nat)])) :=
  unlocked_races _ 1 0 (by decide) [.rd 0] [.lock (), .rd 0, .wr 0, .unlock ()] (Or.inr ⟨rfl, rfl⟩)
    (Or.inl ⟨rfl, rfl⟩) (by decide) (by decide) (.rd 0) (.wr 0) [()] (by decide) (by decide) (by decide)

/-- The same counter with a locked getter, called by any number of threads. -/
example : RaceFree (T := Nat)
    (fun _ p => p = [.lock (), .rd 0, .wr 0, .unlock ()] ∨ p = [.lock (), .rd (0 : Nat), .unlock ()]) := by
  apply guarded_race_free
  · rintro t p (rfl | rfl) <;> decide
  · rintro t u p q _ (rfl | rfl) (rfl | rfl) <;> decide

/-- Two mutexes: the writer holds both, the two readers one each. -/
example : RaceFree (T := Nat) (fun t p =>
    (t = 0 ∧ p = [.lock 1, .lock 2, .wr 0, .unlock 2, .unlock 1]) ∨
    (1 ≤ t ∧ (p = [.lock 1, .rd 0, .unlock 1] ∨ p = [.lock 2, .rd (0 : Nat), .unlock (2 : Nat)]))) := by
  apply guarded_race_free
  · rintro t p (⟨_, rfl⟩ | ⟨_, rfl | rfl⟩) <;> decide
  · rintro t u p q h (⟨h1, rfl⟩ | ⟨_, rfl | rfl⟩) (⟨h2, rfl⟩ | ⟨_, rfl | rfl⟩) <;>
      first | decide | (exact absurd (h1.trans h2.symm) h)

end Verif.Common.Race
