import Mathlib.Algebra.BigOperators.Group.Finset.Basic
import Mathlib.Algebra.Order.BigOperators.Group.Finset
import Mathlib.Data.Fintype.Basic
import Mathlib.Data.Finset.Max
import Mathlib.Tactic.ByContra
import Mathlib.Tactic.Linarith
/-!
Threads, locks and signal handlers.

A thread executes a list of actions, of which only taking and releasing locks matters.  A signal interrupts a thread at any place: the thread executes the
handler to its end before it goes on (a signal is blocked while its handler runs, so that there is at most one handler per thread; other signals are
left out).  The locks are not recursive: a lock which is held, by whomever, cannot be taken.  No class of the framework appears here.
-/
namespace Verif.Common.SignalLocks
variable {L T : Type} [DecidableEq L] [DecidableEq T]

inductive Act (L : Type) where
  | acq (l : L)
  | rel (l : L)
  | work
deriving DecidableEq

/-- What the threads still have to do and the locks they hold, for the program and for the handler which interrupts it. -/
structure St (L T : Type) where
  main : T → List (Act L)
  heldM : T → List L
  hand : T → Option (List (Act L))
  heldH : T → List L

/-- Nobody does anything. -/
def idle : St L T := ⟨fun _ => [], fun _ => [], fun _ => none, fun _ => []⟩

def Holds (s : St L T) (t : T) (l : L) : Prop := l ∈ s.heldM t ∨ l ∈ s.heldH t
def Free (s : St L T) (l : L) : Prop := ∀ t, ¬ Holds s t l

def upd {A B : Type} [DecidableEq A] (f : A → B) (a : A) (b : B) : A → B := fun x => if x = a then b else f x

@[simp] theorem upd_same {A B : Type} [DecidableEq A] (f : A → B) (a : A) (b : B) : upd f a b a = b := by simp [upd]
theorem upd_ne {A B : Type} [DecidableEq A] (f : A → B) {a x : A} (b : B) (h : x ≠ a) : upd f a b x = f x := by simp [upd, h]

/-- A step of a thread which goes on with what it does. -/
inductive Inner : St L T → St L T → Prop
  | acqM (s t l p) : s.hand t = none → s.main t = .acq l :: p → Free s l →
      Inner s { s with main := upd s.main t p, heldM := upd s.heldM t (l :: s.heldM t) }
  | relM (s t l p) : s.hand t = none → s.main t = .rel l :: p →
      Inner s { s with main := upd s.main t p, heldM := upd s.heldM t ((s.heldM t).erase l) }
  | workM (s t p) : s.hand t = none → s.main t = .work :: p → Inner s { s with main := upd s.main t p }
  | acqH (s t l p) : s.hand t = some (.acq l :: p) → Free s l →
      Inner s { s with hand := upd s.hand t (some p), heldH := upd s.heldH t (l :: s.heldH t) }
  | relH (s t l p) : s.hand t = some (.rel l :: p) →
      Inner s { s with hand := upd s.hand t (some p), heldH := upd s.heldH t ((s.heldH t).erase l) }
  | workH (s t p) : s.hand t = some (.work :: p) → Inner s { s with hand := upd s.hand t (some p) }
  | ret (s t) : s.hand t = some [] → Inner s { s with hand := upd s.hand t none }

/-- All steps: also a thread begins something new, or a signal arrives.  `progs`: what the threads may do; `may`: when a thread may be interrupted. -/
inductive Step (progs : List (Act L) → Prop) (handler : List (Act L)) (may : St L T → T → Prop) : St L T → St L T → Prop
  | inner (s s') : Inner s s' → Step progs handler may s s'
  | begin (s t p) : s.hand t = none → s.main t = [] → progs p → Step progs handler may s { s with main := upd s.main t p }
  | signal (s t) : s.hand t = none → may s t → Step progs handler may s { s with hand := upd s.hand t (some handler) }

inductive Reach (R : St L T → St L T → Prop) (s : St L T) : St L T → Prop
  | refl : Reach R s s
  | tail (a b) : Reach R s a → R a b → Reach R s b

/-! ### A handler which needs a lock of the thread it interrupts -/

/-- The thread holds the lock and is interrupted by a handler which will take it. -/
def SelfLock (s : St L T) (t : T) (l : L) : Prop := l ∈ s.heldM t ∧ ∃ p, s.hand t = some p ∧ .acq l ∈ p

theorem selfLock_step {progs : List (Act L) → Prop} {handler : List (Act L)} {may : St L T → T → Prop} {s s' : St L T} {t : T} {l : L}
    (h : SelfLock s t l) (hs : Step progs handler may s s') :
    SelfLock s' t l ∧ s'.main t = s.main t ∧ ∀ u, Holds s' u l → Holds s u l := by
  obtain ⟨hl, p, hp, ha⟩ := h
  have nf : ¬ Free s l := fun hf => hf t (Or.inl hl)
  cases hs with
  | inner _ hi =>
    cases hi with
    | acqM u k q h1 h2 h3 =>
      have hu : t ≠ u := by rintro rfl; rw [hp] at h1; cases h1
      have hk : k ≠ l := by rintro rfl; exact nf h3
      refine ⟨⟨?_, p, hp, ha⟩, ?_, ?_⟩
      · simp only [upd_ne _ _ hu]; exact hl
      · simp only [upd_ne _ _ hu]
      · intro v hv
        by_cases hvu : v = u
        · subst hvu
          rcases hv with hv | hv
          · simp only [upd_same, List.mem_cons] at hv
            rcases hv with hv | hv
            · exact absurd hv.symm hk
            · exact Or.inl hv
          · exact Or.inr hv
        · rcases hv with hv | hv
          · simp only [upd_ne _ _ hvu] at hv; exact Or.inl hv
          · exact Or.inr hv
    | relM u k q h1 h2 =>
      have hu : t ≠ u := by rintro rfl; rw [hp] at h1; cases h1
      refine ⟨⟨?_, p, hp, ha⟩, ?_, ?_⟩
      · simp only [upd_ne _ _ hu]; exact hl
      · simp only [upd_ne _ _ hu]
      · intro v hv
        rcases hv with hv | hv
        · by_cases hvu : v = u
          · subst hvu; simp only [upd_same] at hv; exact Or.inl (List.mem_of_mem_erase hv)
          · simp only [upd_ne _ _ hvu] at hv; exact Or.inl hv
        · exact Or.inr hv
    | workM u q h1 h2 =>
      have hu : t ≠ u := by rintro rfl; rw [hp] at h1; cases h1
      exact ⟨⟨hl, p, hp, ha⟩, by simp only [upd_ne _ _ hu], fun v hv => hv⟩
    | acqH u k q h1 h3 =>
      have hk : k ≠ l := by rintro rfl; exact nf h3
      refine ⟨⟨hl, ?_⟩, rfl, ?_⟩
      · by_cases hu : t = u
        · subst hu
          rw [hp] at h1; cases h1
          refine ⟨q, upd_same _ _ _, ?_⟩
          rcases List.mem_cons.1 ha with h | h
          · cases h; exact absurd rfl hk
          · exact h
        · exact ⟨p, by simp only [upd_ne _ _ hu]; exact hp, ha⟩
      · intro v hv
        rcases hv with hv | hv
        · exact Or.inl hv
        · by_cases hvu : v = u
          · subst hvu
            simp only [upd_same, List.mem_cons] at hv
            rcases hv with hv | hv
            · exact absurd hv.symm hk
            · exact Or.inr hv
          · simp only [upd_ne _ _ hvu] at hv; exact Or.inr hv
    | relH u k q h1 =>
      refine ⟨⟨hl, ?_⟩, rfl, ?_⟩
      · by_cases hu : t = u
        · subst hu
          rw [hp] at h1; cases h1
          exact ⟨q, upd_same _ _ _, by simpa using ha⟩
        · exact ⟨p, by simp only [upd_ne _ _ hu]; exact hp, ha⟩
      · intro v hv
        rcases hv with hv | hv
        · exact Or.inl hv
        · by_cases hvu : v = u
          · subst hvu; simp only [upd_same] at hv; exact Or.inr (List.mem_of_mem_erase hv)
          · simp only [upd_ne _ _ hvu] at hv; exact Or.inr hv
    | workH u q h1 =>
      refine ⟨⟨hl, ?_⟩, rfl, fun v hv => hv⟩
      by_cases hu : t = u
      · subst hu
        rw [hp] at h1; cases h1
        exact ⟨q, upd_same _ _ _, by simpa using ha⟩
      · exact ⟨p, by simp only [upd_ne _ _ hu]; exact hp, ha⟩
    | ret u h1 =>
      refine ⟨⟨hl, ?_⟩, rfl, fun v hv => hv⟩
      by_cases hu : t = u
      · subst hu
        rw [hp] at h1; cases h1
        simp at ha
      · exact ⟨p, by simp only [upd_ne _ _ hu]; exact hp, ha⟩
  | begin u q h1 h2 h3 =>
    have hu : t ≠ u := by rintro rfl; rw [hp] at h1; cases h1
    exact ⟨⟨hl, p, hp, ha⟩, by simp only [upd_ne _ _ hu], fun v hv => hv⟩
  | signal u h1 h2 =>
    have hu : t ≠ u := by rintro rfl; rw [hp] at h1; cases h1
    exact ⟨⟨hl, p, by simp only [upd_ne _ _ hu]; exact hp, ha⟩, rfl, fun v hv => hv⟩

/-- A handler which needs a lock of the thread it interrupts never returns, whatever the threads do: the lock stays taken for ever, the interrupted thread never
goes on, and no thread gets the lock which did not have it. -/
theorem selfLock_forever {progs : List (Act L) → Prop} {handler : List (Act L)} {may : St L T → T → Prop} {s s' : St L T} {t : T} {l : L}
    (h : SelfLock s t l) (hr : Reach (Step progs handler may) s s') :
    SelfLock s' t l ∧ s'.main t = s.main t ∧ ∀ u, Holds s' u l → Holds s u l := by
  induction hr with
  | refl => exact ⟨h, rfl, fun _ hu => hu⟩
  | tail a b _ hs ih =>
    obtain ⟨h1, h2, h3⟩ := ih
    obtain ⟨g1, g2, g3⟩ := selfLock_step h1 hs
    exact ⟨g1, g2.trans h2, fun u hu => h3 u (g3 u hu)⟩

/-! ### Ordered locks -/

/-- A program which holds `held` (above the locks `base` of the program it interrupts) takes locks in ascending order only, releases what it holds and ends without
a lock. -/
def Ordered (rank : L → Nat) (base : List L) : List L → List (Act L) → Prop
  | held, [] => held = []
  | held, .acq l :: p => (∀ k ∈ base ++ held, rank k < rank l) ∧ Ordered rank base (l :: held) p
  | held, .rel l :: p => l ∈ held ∧ Ordered rank base (held.erase l) p
  | held, .work :: p => Ordered rank base held p

/-- The locks which a list of actions takes. -/
def Takes (p : List (Act L)) (l : L) : Prop := .acq l ∈ p

theorem Ordered.rebase {rank : L → Nat} {b : List L} : ∀ {p : List (Act L)} {held : List L}, Ordered rank [] held p →
    (∀ l, Takes p l → ∀ k ∈ b, rank k < rank l) → Ordered rank b held p
  | [], _, h, _ => h
  | .acq l :: p, held, h, hb => by
    refine ⟨?_, Ordered.rebase h.2 (fun k hk => hb k (List.mem_cons_of_mem _ hk))⟩
    intro k hk
    rcases List.mem_append.1 hk with hk | hk
    · exact hb l (by simp [Takes]) k hk
    · exact h.1 k (by simpa using hk)
  | .rel l :: p, held, h, hb => ⟨h.1, Ordered.rebase h.2 (fun k hk => hb k (List.mem_cons_of_mem _ hk))⟩
  | .work :: p, held, h, hb => Ordered.rebase (p := p) (held := held) h (fun k hk => hb k (List.mem_cons_of_mem _ hk))

/-- A thread may be interrupted only while it holds no lock which comes at or after one which the handler takes. -/
def Below (rank : L → Nat) (handler : List (Act L)) (s : St L T) (t : T) : Prop := ∀ k ∈ s.heldM t, ∀ l, Takes handler l → rank k < rank l

structure Inv (rank : L → Nat) (s : St L T) : Prop where
  main : ∀ t, Ordered rank [] (s.heldM t) (s.main t)
  hand : ∀ t p, s.hand t = some p → Ordered rank (s.heldM t) (s.heldH t) p
  none : ∀ t, s.hand t = none → s.heldH t = []

omit [DecidableEq T] in
theorem inv_idle (rank : L → Nat) : Inv rank (idle : St L T) := ⟨fun _ => rfl, fun _ p h => (by cases h), fun _ _ => rfl⟩

theorem inv_inner {rank : L → Nat} {s s' : St L T} (h : Inv rank s) (hs : Inner s s') : Inv rank s' := by
  obtain ⟨hm, hh, hn⟩ := h
  cases hs with
  | acqM t l p h1 h2 h3 =>
    have hmt := hm t; rw [h2] at hmt
    refine ⟨fun u => ?_, fun u q hq => ?_, hn⟩
    · by_cases hu : u = t
      · subst hu; simp only [upd_same]; exact hmt.2
      · simp only [upd_ne _ _ hu]; exact hm u
    · have hu : u ≠ t := by rintro rfl; rw [h1] at hq; cases hq
      simp only [upd_ne _ _ hu]; exact hh u q hq
  | relM t l p h1 h2 =>
    have hmt := hm t; rw [h2] at hmt
    refine ⟨fun u => ?_, fun u q hq => ?_, hn⟩
    · by_cases hu : u = t
      · subst hu; simp only [upd_same]; exact hmt.2
      · simp only [upd_ne _ _ hu]; exact hm u
    · have hu : u ≠ t := by rintro rfl; rw [h1] at hq; cases hq
      simp only [upd_ne _ _ hu]; exact hh u q hq
  | workM t p h1 h2 =>
    have hmt := hm t; rw [h2] at hmt
    refine ⟨fun u => ?_, hh, hn⟩
    by_cases hu : u = t
    · subst hu; simp only [upd_same]; exact hmt
    · simp only [upd_ne _ _ hu]; exact hm u
  | acqH t l p h1 h3 =>
    have hht := hh t _ h1
    refine ⟨hm, fun u q hq => ?_, fun u hq => ?_⟩
    · by_cases hu : u = t
      · subst hu; simp only [upd_same] at hq ⊢; cases hq; exact hht.2
      · simp only [upd_ne _ _ hu] at hq ⊢; exact hh u q hq
    · by_cases hu : u = t
      · subst hu; simp only [upd_same] at hq; cases hq
      · simp only [upd_ne _ _ hu] at hq ⊢; exact hn u hq
  | relH t l p h1 =>
    have hht := hh t _ h1
    refine ⟨hm, fun u q hq => ?_, fun u hq => ?_⟩
    · by_cases hu : u = t
      · subst hu; simp only [upd_same] at hq ⊢; cases hq; exact hht.2
      · simp only [upd_ne _ _ hu] at hq ⊢; exact hh u q hq
    · by_cases hu : u = t
      · subst hu; simp only [upd_same] at hq; cases hq
      · simp only [upd_ne _ _ hu] at hq ⊢; exact hn u hq
  | workH t p h1 =>
    have hht := hh t _ h1
    refine ⟨hm, fun u q hq => ?_, fun u hq => ?_⟩
    · by_cases hu : u = t
      · subst hu; simp only [upd_same] at hq; cases hq; exact hht
      · simp only [upd_ne _ _ hu] at hq; exact hh u q hq
    · by_cases hu : u = t
      · subst hu; simp only [upd_same] at hq; cases hq
      · simp only [upd_ne _ _ hu] at hq; exact hn u hq
  | ret t h1 =>
    have hht := hh t _ h1
    refine ⟨hm, fun u q hq => ?_, fun u hq => ?_⟩
    · by_cases hu : u = t
      · subst hu; simp only [upd_same] at hq; cases hq
      · simp only [upd_ne _ _ hu] at hq; exact hh u q hq
    · by_cases hu : u = t
      · subst hu; exact hht
      · simp only [upd_ne _ _ hu] at hq; exact hn u hq

theorem inv_reach {rank : L → Nat} {progs : List (Act L) → Prop} {handler : List (Act L)} (hp : ∀ p, progs p → Ordered rank [] [] p)
    (hh : Ordered rank [] [] handler) {s : St L T} (hr : Reach (Step progs handler (Below rank handler)) idle s) : Inv rank s := by
  induction hr with
  | refl => exact inv_idle rank
  | tail a b _ hs ih =>
    cases hs with
    | inner _ hi => exact inv_inner ih hi
    | begin t p h1 h2 h3 =>
      refine ⟨fun u => ?_, ih.hand, ih.none⟩
      by_cases hu : u = t
      · subst hu
        have := ih.main u
        rw [h2] at this
        have h0 : a.heldM u = [] := this
        simp only [upd_same, h0]; exact hp p h3
      · simp only [upd_ne _ _ hu]; exact ih.main u
    | signal t h1 h2 =>
      refine ⟨ih.main, fun u q hq => ?_, fun u hq => ?_⟩
      · by_cases hu : u = t
        · subst hu; simp only [upd_same] at hq; cases hq
          rw [ih.none u h1]
          exact hh.rebase (fun l hl k hk => h2 k hk l hl)
        · simp only [upd_ne _ _ hu] at hq; exact ih.hand u q hq
      · by_cases hu : u = t
        · subst hu; simp only [upd_same] at hq; cases hq
        · simp only [upd_ne _ _ hu] at hq; exact ih.none u hq

/-- A thread has something to do. -/
def Active (s : St L T) (t : T) : Prop := s.hand t ≠ none ∨ s.main t ≠ []

/-- Specification: the thread waits for this lock. -/
def Waits (s : St L T) (t : T) (l : L) : Prop :=
  (∃ p, s.hand t = some (.acq l :: p)) ∨ (s.hand t = none ∧ ∃ p, s.main t = .acq l :: p)

omit [DecidableEq T] in
theorem waits_above {rank : L → Nat} {s : St L T} (h : Inv rank s) {t : T} {l k : L} (hw : Waits s t l) (hk : Holds s t k) : rank k < rank l := by
  rcases hw with ⟨p, hp⟩ | ⟨hn, p, hp⟩
  · have := (h.hand t _ hp).1
    exact this k (List.mem_append.2 hk)
  · have := h.main t
    rw [hp] at this
    rcases hk with hk | hk
    · exact this.1 k (by simpa using hk)
    · rw [h.none t hn] at hk; simp at hk

omit [DecidableEq T] in
theorem active_of_holds {rank : L → Nat} {s : St L T} (h : Inv rank s) {t : T} {k : L} (hk : Holds s t k) : Active s t := by
  by_contra hc
  simp only [Active, not_or, not_not] at hc
  have hm := h.main t
  rw [hc.2] at hm
  have h0 : s.heldM t = [] := hm
  rcases hk with hk | hk
  · rw [h0] at hk; simp at hk
  · rw [h.none t hc.1] at hk; simp at hk

/-- An active thread which does not wait for a lock that is held can go on. -/
theorem goes_on {s : St L T} {t : T} (ha : Active s t) (hf : ∀ l, Waits s t l → Free s l) : ∃ s', Inner s s' := by
  cases hh : s.hand t with
  | none =>
    have hm : s.main t ≠ [] := by
      rcases ha with h | h
      · exact absurd hh h
      · exact h
    cases hp : s.main t with
    | nil => exact absurd hp hm
    | cons a p =>
      cases a with
      | acq l => exact ⟨_, .acqM s t l p hh hp (hf l (Or.inr ⟨hh, p, hp⟩))⟩
      | rel l => exact ⟨_, .relM s t l p hh hp⟩
      | work => exact ⟨_, .workM s t p hh hp⟩
  | some q =>
    cases q with
    | nil => exact ⟨_, .ret s t hh⟩
    | cons a p =>
      cases a with
      | acq l => exact ⟨_, .acqH s t l p hh (hf l (Or.inl ⟨p, hh⟩))⟩
      | rel l => exact ⟨_, .relH s t l p hh⟩
      | work => exact ⟨_, .workH s t p hh⟩

variable [Fintype T]

/-- **No deadlock.** With ordered locks, and signals which respect the order, some thread can always go on. -/
theorem never_stuck {rank : L → Nat} {s : St L T} (h : Inv rank s) (t : T) (ha : Active s t) : ∃ s', Inner s s' := by
  classical
  by_contra hc
  -- every active thread waits for a lock which is held
  have hw : ∀ u, Active s u → ∃ l, Waits s u l ∧ ∃ v, Holds s v l := by
    intro u hu
    by_contra hn
    apply hc
    refine goes_on hu (fun l hl => ?_)
    intro v hv
    exact hn ⟨l, hl, v, hv⟩
  -- the waiting thread whose lock has the highest rank
  obtain ⟨l0, hl0, v0, hv0⟩ := hw t ha
  let W : Finset T := Finset.univ.filter (fun u => Active s u)
  have hW : W.Nonempty := ⟨t, by simp [W, ha]⟩
  let f : T → Nat := fun u => if hu : Active s u then rank (hw u hu).choose else 0
  obtain ⟨u, huW, hmax⟩ := W.exists_max_image f hW
  have hu : Active s u := by simpa [W] using huW
  have hsp := (hw u hu).choose_spec
  obtain ⟨v, hv⟩ := hsp.2
  have hva := active_of_holds h hv
  have hvs := (hw v hva).choose_spec
  have hlt := waits_above h hvs.1 hv
  have hle := hmax v (by simp [W, hva])
  simp only [f, hu, hva, dif_pos] at hle
  omega

/-- The number of actions which are left. -/
def left (s : St L T) : Nat := ∑ t, ((s.main t).length + (match s.hand t with | none => 0 | some p => p.length + 1))

omit [DecidableEq L] in
theorem sum_lt {f g : T → Nat} (t : T) (ht : g t < f t) (h : ∀ u, u ≠ t → g u = f u) : ∑ u, g u < ∑ u, f u := by
  refine Finset.sum_lt_sum (fun u _ => ?_) ⟨t, Finset.mem_univ t, ht⟩
  by_cases hu : u = t
  · subst hu; omega
  · rw [h u hu]

theorem left_decreases {s s' : St L T} (hs : Inner s s') : left s' < left s := by
  cases hs with
  | acqM t l p h1 h2 _ => exact sum_lt t (by simp [h1, h2]) (fun u hu => by simp [upd_ne _ _ hu])
  | relM t l p h1 h2 => exact sum_lt t (by simp [h1, h2]) (fun u hu => by simp [upd_ne _ _ hu])
  | workM t p h1 h2 => exact sum_lt t (by simp [h1, h2]) (fun u hu => by simp [upd_ne _ _ hu])
  | acqH t l p h1 _ => exact sum_lt t (by simp [h1]) (fun u hu => by simp [upd_ne _ _ hu])
  | relH t l p h1 => exact sum_lt t (by simp [h1]) (fun u hu => by simp [upd_ne _ _ hu])
  | workH t p h1 => exact sum_lt t (by simp [h1]) (fun u hu => by simp [upd_ne _ _ hu])
  | ret t h1 => exact sum_lt t (by simp [h1]) (fun u hu => by simp [upd_ne _ _ hu])

/-- A run of `n` steps without new calls and signals. -/
inductive Run : Nat → St L T → St L T → Prop
  | nil (s) : Run 0 s s
  | cons (n s s' s'') : Inner s s' → Run n s' s'' → Run (n + 1) s s''

theorem run_bound {n : Nat} {s s' : St L T} (h : Run n s s') : n + left s' ≤ left s := by
  induction h with
  | nil => omega
  | cons n s s' s'' hi _ ih => have := left_decreases hi; omega

omit [Fintype T] in
theorem inv_run {rank : L → Nat} {n : Nat} {s s' : St L T} (hi : Inv rank s) (h : Run n s s') : Inv rank s' := by
  induction h with
  | nil => exact hi
  | cons n s s' s'' hs _ ih => exact ih (inv_inner hi hs)

/-- **All threads and handlers come to their end.** Without new calls and signals at most `left s` steps follow, and when no step is possible any more all
handlers have returned and all threads have done what they had to do. -/
theorem all_return {rank : L → Nat} {s s' : St L T} {n : Nat} (h : Inv rank s) (hr : Run n s s') :
    n ≤ left s ∧ ((¬ ∃ s'', Inner s' s'') → ∀ t, s'.hand t = none ∧ s'.main t = []) := by
  refine ⟨by have := run_bound hr; omega, fun hend t => ?_⟩
  by_contra hc
  have ha : Active s' t := by
    by_contra hn
    simp only [Active, not_or, not_not] at hn
    exact hc hn
  exact hend (never_stuck (inv_run h hr) t ha)

end Verif.Common.SignalLocks
