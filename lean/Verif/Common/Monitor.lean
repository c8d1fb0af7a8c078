/-!
Objects whose methods hold the mutex of the object from their first to their last access (`std::lock_guard` at the
beginning of every method): every concurrent execution is linearizable, that is, looks like one in which the calls happen
one after the other, each of them at one instant between its call and its return.

The models of the blocks describe a concurrent execution as a list of whole method calls.  This file justifies that: the
calls here consist of single steps, threads are interrupted anywhere, and the order of the calls is the order of the
critical sections.  No class of the framework appears here.
-/
namespace Verif.Common.Monitor

/-- An object.  A method with its arguments is an `Op`.  It starts with local variables `enter op`, does the steps `body op`
on the members and its local variables, and returns `result op`. -/
structure Obj (S Op L R : Type) where
  enter : Op → L
  body : Op → List (S × L → S × L)
  result : Op → L → R

section
variable {S Op L R T : Type}

/-- The steps of a method one after the other. -/
def steps (l : List (S × L → S × L)) (x : S × L) : S × L := l.foldl (fun x f => f x) x

/-- The call of a method which nobody interrupts. -/
def Obj.call (o : Obj S Op L R) (s : S) (op : Op) : S × R :=
  ((steps (o.body op) (s, o.enter op)).1, o.result op (steps (o.body op) (s, o.enter op)).2)

/-- Where a thread is. -/
inductive Ph (S Op L R : Type) where
  | idle
  | waiting (op : Op)
  | inside (op : Op) (rest : List (S × L → S × L)) (l : L)
  | left (op : Op) (r : R)

/-- The members of the object, the owner of the mutex and the threads. -/
structure St (S Op L R T : Type) where
  mem : S
  owner : Option T
  ph : T → Ph S Op L R

/-- What can be observed from outside: calls and returns. -/
inductive Ev (Op R T : Type) where
  | call (t : T) (op : Op)
  | ret (t : T) (op : Op) (r : R)

variable [DecidableEq T]

/-- The executions: `Exec o s₀ h s` means that the object, constructed with the members `s₀`, can be in the state `s` after
the calls and returns `h`. -/
inductive Exec (o : Obj S Op L R) (s₀ : S) : List (Ev Op R T) → St S Op L R T → Prop
  | init : Exec o s₀ [] ⟨s₀, none, fun _ => .idle⟩
  /-- A thread calls a method. -/
  | call {h : List (Ev Op R T)} {s : St S Op L R T} (e : Exec o s₀ h s) (t : T) (op : Op) (ht : s.ph t = .idle) :
      Exec o s₀ (h ++ [.call t op]) ⟨s.mem, s.owner, fun u => if u = t then .waiting op else s.ph u⟩
  /-- It gets the mutex when nobody has it. -/
  | lock {h : List (Ev Op R T)} {s : St S Op L R T} (e : Exec o s₀ h s) (t : T) (op : Op) (ht : s.ph t = .waiting op)
      (hf : s.owner = none) :
      Exec o s₀ h ⟨s.mem, some t, fun u => if u = t then .inside op (o.body op) (o.enter op) else s.ph u⟩
  /-- It does one step. -/
  | step {h : List (Ev Op R T)} {s : St S Op L R T} (e : Exec o s₀ h s) (t : T) (op : Op) (f : S × L → S × L)
      (r : List (S × L → S × L)) (l : L) (ht : s.ph t = .inside op (f :: r) l) :
      Exec o s₀ h ⟨(f (s.mem, l)).1, s.owner, fun u => if u = t then .inside op r (f (s.mem, l)).2 else s.ph u⟩
  /-- It unlocks the mutex. -/
  | unlock {h : List (Ev Op R T)} {s : St S Op L R T} (e : Exec o s₀ h s) (t : T) (op : Op) (l : L)
      (ht : s.ph t = .inside op [] l) :
      Exec o s₀ h ⟨s.mem, none, fun u => if u = t then .left op (o.result op l) else s.ph u⟩
  /-- It returns. -/
  | ret {h : List (Ev Op R T)} {s : St S Op L R T} (e : Exec o s₀ h s) (t : T) (op : Op) (r : R)
      (ht : s.ph t = .left op r) :
      Exec o s₀ (h ++ [.ret t op r]) ⟨s.mem, s.owner, fun u => if u = t then .idle else s.ph u⟩

/-! ### Specification: linearizability -/

/-- A history with the instants at which the calls take effect. -/
inductive Pt (Op R T : Type) where
  | call (t : T) (op : Op)
  | effect (t : T) (op : Op) (r : R)
  | ret (t : T) (op : Op) (r : R)

/-- The observable part. -/
def observed {Op R T : Type} : List (Pt Op R T) → List (Ev Op R T)
  | [] => []
  | .call t op :: l => .call t op :: observed l
  | .effect _ _ _ :: l => observed l
  | .ret t op r :: l => .ret t op r :: observed l

/-- The calls in the order of their effects. -/
def effects {Op R T : Type} : List (Pt Op R T) → List (Op × R)
  | [] => []
  | .effect _ op r :: l => (op, r) :: effects l
  | .call _ _ :: l => effects l
  | .ret _ _ _ :: l => effects l

/-- The results are those of the sequential object `f`, starting with `s`. -/
def Legal {S Op R : Type} (f : S → Op → S × R) : S → List (Op × R) → Prop
  | _, [] => True
  | s, (op, r) :: l => (f s op).2 = r ∧ Legal f (f s op).1 l

/-- The members after the calls. -/
def after {S Op R : Type} (f : S → Op → S × R) : S → List (Op × R) → S
  | s, [] => s
  | s, (op, _) :: l => after f (f s op).1 l

/-- What a thread is doing, as far as the history tells. -/
inductive Doing (Op R : Type) where
  | nothing
  | called (op : Op)
  | effected (op : Op) (r : R)

/-- Every thread calls, then its call takes effect, then it returns the result of the effect; and so on: `Proper t d l d'`
means that the thread, which did `d` before, does `d'` after the history. -/
inductive Proper {Op R T : Type} (t : T) : Doing Op R → List (Pt Op R T) → Doing Op R → Prop
  | nil (d : Doing Op R) : Proper t d [] d
  | call {l : List (Pt Op R T)} {d : Doing Op R} {op : Op} (h : Proper t (.called op) l d) :
      Proper t .nothing (.call t op :: l) d
  | effect {l : List (Pt Op R T)} {d : Doing Op R} {op : Op} {r : R} (h : Proper t (.effected op r) l d) :
      Proper t (.called op) (.effect t op r :: l) d
  | ret {l : List (Pt Op R T)} {d : Doing Op R} {op : Op} {r : R} (h : Proper t .nothing l d) :
      Proper t (.effected op r) (.ret t op r :: l) d
  | callOther {l : List (Pt Op R T)} {d d' : Doing Op R} {u : T} {op : Op} (hu : u ≠ t) (h : Proper t d l d') :
      Proper t d (.call u op :: l) d'
  | effectOther {l : List (Pt Op R T)} {d d' : Doing Op R} {u : T} {op : Op} {r : R} (hu : u ≠ t) (h : Proper t d l d') :
      Proper t d (.effect u op r :: l) d'
  | retOther {l : List (Pt Op R T)} {d d' : Doing Op R} {u : T} {op : Op} {r : R} (hu : u ≠ t) (h : Proper t d l d') :
      Proper t d (.ret u op r :: l) d'

/-- A history of calls and returns is linearizable: one can insert instants of effect such that every call takes effect
between its call and its return and the results are those of the sequential object. -/
def Linearizable {S Op R T : Type} (f : S → Op → S × R) (s₀ : S) (h : List (Ev Op R T)) : Prop :=
  ∃ l : List (Pt Op R T), observed l = h ∧ Legal f s₀ (effects l) ∧ ∀ t, ∃ d, Proper t .nothing l d

/-! ### Lists -/

omit [DecidableEq T] in
theorem observed_append (a b : List (Pt Op R T)) : observed (a ++ b) = observed a ++ observed b := by
  induction a with
  | nil => rfl
  | cons x a ih => cases x <;> simp [observed, ih]

omit [DecidableEq T] in
theorem effects_append (a b : List (Pt Op R T)) : effects (a ++ b) = effects a ++ effects b := by
  induction a with
  | nil => rfl
  | cons x a ih => cases x <;> simp [effects, ih]

theorem legal_append (f : S → Op → S × R) (s : S) (a : List (Op × R)) (op : Op) (r : R) (h : Legal f s a)
    (hr : (f (after f s a) op).2 = r) : Legal f s (a ++ [(op, r)]) := by
  induction a generalizing s with
  | nil => exact ⟨hr, trivial⟩
  | cons x a ih => exact ⟨h.1, ih _ h.2 hr⟩

theorem after_append (f : S → Op → S × R) (s : S) (a : List (Op × R)) (op : Op) (r : R) :
    after f s (a ++ [(op, r)]) = (f (after f s a) op).1 := by
  induction a generalizing s with
  | nil => rfl
  | cons x a ih => exact ih _

omit [DecidableEq T] in
theorem proper_append {t : T} {d d' d'' : Doing Op R} {a b : List (Pt Op R T)} (h : Proper t d a d')
    (h' : Proper t d' b d'') : Proper t d (a ++ b) d'' := by
  induction h with
  | nil => exact h'
  | call _ ih => exact .call (ih h')
  | effect _ ih => exact .effect (ih h')
  | ret _ ih => exact .ret (ih h')
  | callOther hu _ ih => exact .callOther hu (ih h')
  | effectOther hu _ ih => exact .effectOther hu (ih h')
  | retOther hu _ ih => exact .retOther hu (ih h')

/-! ### The proof -/

/-- What a thread does, seen from outside. -/
def Ph.doing : Ph S Op L R → Doing Op R
  | .idle => .nothing
  | .waiting op => .called op
  | .inside op _ _ => .called op
  | .left op r => .effected op r

/-- The members: with a free mutex they are those after the effects so far, otherwise the owner has done a part of its
method on them; all other threads are outside. -/
def MemOk (o : Obj S Op L R) (σ : S) (s : St S Op L R T) : Prop :=
  (∀ u op r l, s.ph u = .inside op r l → s.owner = some u) ∧
  (s.owner = none → s.mem = σ) ∧
  ∀ t, s.owner = some t → ∃ op d r l, s.ph t = .inside op r l ∧ o.body op = d ++ r ∧
    (s.mem, l) = steps d (σ, o.enter op)

theorem exec_inv (o : Obj S Op L R) (s₀ : S) (h : List (Ev Op R T)) (s : St S Op L R T) (e : Exec o s₀ h s) :
    ∃ l : List (Pt Op R T), observed l = h ∧ Legal o.call s₀ (effects l) ∧
      (∀ t, Proper t .nothing l (s.ph t).doing) ∧ MemOk o (after o.call s₀ (effects l)) s := by
  induction e with
  | init =>
    refine ⟨[], rfl, trivial, fun t => .nil _, ?_, fun _ => rfl, ?_⟩
    · intro u op r l h; cases h
    · intro t h; cases h
  | @call h s e t op ht ih =>
    obtain ⟨l, h1, h2, h3, h4, h5, h6⟩ := ih
    refine ⟨l ++ [.call t op], by rw [observed_append, h1]; rfl, by simpa [effects_append, effects] using h2,
      fun u => ?_, ?_⟩
    · by_cases hu : u = t
      · subst hu
        have := h3 u
        rw [ht] at this
        refine proper_append this ?_
        simpa [Ph.doing] using Proper.call (Proper.nil _)
      · refine proper_append (h3 u) ?_
        simpa [hu] using Proper.callOther (Ne.symm hu) (Proper.nil _)
    · have hσ : effects (l ++ [Pt.call t op]) = (effects l : List (Op × R)) := by simp [effects_append, effects]
      rw [hσ]
      refine ⟨fun u op' r l' hu => ?_, h5, fun u hu => ?_⟩
      · by_cases hut : u = t
        · simp [hut] at hu
        · exact h4 u op' r l' (by simpa [hut] using hu)
      · have hut : u ≠ t := by
          rintro rfl
          obtain ⟨op', d, r, l', k, _⟩ := h6 u hu
          rw [ht] at k; cases k
        simpa [hut] using h6 u hu
  | @lock h s e t op ht hf ih =>
    obtain ⟨l, h1, h2, h3, h4, h5, h6⟩ := ih
    refine ⟨l, h1, h2, fun u => ?_, fun u op' r l' hu => ?_, fun hn => by simp at hn, fun u hu => ?_⟩
    · by_cases hu : u = t
      · subst hu
        have := h3 u
        rw [ht] at this
        simpa [Ph.doing] using this
      · simpa [hu] using h3 u
    · by_cases hut : u = t
      · rw [hut]
      · have := h4 u op' r l' (by simpa [hut] using hu)
        rw [hf] at this; cases this
    · simp only [Option.some.injEq] at hu
      subst hu
      exact ⟨op, [], o.body op, o.enter op, by simp, by simp, by simp [steps, h5 hf]⟩
  | @step h s e t op f r l ht ih =>
    obtain ⟨p, h1, h2, h3, h4, h5, h6⟩ := ih
    have hown := h4 t op _ _ ht
    refine ⟨p, h1, h2, fun u => ?_, fun u op' r' l' hu => ?_, fun hn => ?_, fun u hu => ?_⟩
    · by_cases hu : u = t
      · subst hu
        have := h3 u
        rw [ht] at this
        simpa [Ph.doing] using this
      · simpa [hu] using h3 u
    · by_cases hut : u = t
      · rw [hut]; exact hown
      · exact h4 u op' r' l' (by simpa [hut] using hu)
    · simp only at hn; rw [hown] at hn; cases hn
    · have hut : u = t := by
        simp only at hu
        rw [hown] at hu
        exact (Option.some.inj hu).symm
      subst hut
      obtain ⟨op', d, r', l', k1, k2, k3⟩ := h6 u hown
      rw [ht] at k1
      injection k1 with e1 e2 e3
      subst e1 e2 e3
      refine ⟨op, d ++ [f], r, (f (s.mem, l)).2, by simp, by simp [k2], ?_⟩
      simp only [steps, List.foldl_append, List.foldl_cons, List.foldl_nil]
      rw [show d.foldl (fun x f => f x) (after o.call s₀ (effects p), o.enter op) = (s.mem, l) from k3.symm]
  | @unlock h s e t op l ht ih =>
    obtain ⟨p, h1, h2, h3, h4, h5, h6⟩ := ih
    have hown := h4 t op _ _ ht
    obtain ⟨op', d, r', l', k1, k2, k3⟩ := h6 t hown
    rw [ht] at k1
    injection k1 with e1 e2 e3
    subst e1 e2 e3
    rw [List.append_nil] at k2
    rw [← k2] at k3
    have hr : (o.call (after o.call s₀ (effects p)) op).2 = o.result op l := by
      simp only [Obj.call, ← k3]
    have hm : (o.call (after o.call s₀ (effects p)) op).1 = s.mem := by
      simp only [Obj.call, ← k3]
    have he : effects (p ++ [.effect t op (o.result op l)]) = effects p ++ [(op, o.result op l)] := by
      simp [effects_append, effects]
    refine ⟨p ++ [.effect t op (o.result op l)], by simp [observed_append, observed, h1], ?_, fun u => ?_, ?_⟩
    · rw [he]; exact legal_append _ _ _ _ _ h2 hr
    · by_cases hu : u = t
      · subst hu
        have := h3 u
        rw [ht] at this
        refine proper_append this ?_
        simpa [Ph.doing] using Proper.effect (Proper.nil _)
      · refine proper_append (h3 u) ?_
        simpa [hu] using Proper.effectOther (Ne.symm hu) (Proper.nil _)
    · rw [he, after_append, hm]
      refine ⟨fun u op' r' l' hu => ?_, fun _ => rfl, fun u hu => by cases hu⟩
      by_cases hut : u = t
      · simp [hut] at hu
      · have := h4 u op' r' l' (by simpa [hut] using hu)
        rw [hown] at this
        exact absurd (Option.some.inj this).symm hut
  | @ret h s e t op r ht ih =>
    obtain ⟨l, h1, h2, h3, h4, h5, h6⟩ := ih
    have hσ : effects (l ++ [Pt.ret t op r]) = effects l := by simp [effects_append, effects]
    refine ⟨l ++ [.ret t op r], by rw [observed_append, h1]; rfl, by rw [hσ]; exact h2, fun u => ?_, ?_⟩
    · by_cases hu : u = t
      · subst hu
        have := h3 u
        rw [ht] at this
        refine proper_append this ?_
        simpa [Ph.doing] using Proper.ret (Proper.nil _)
      · refine proper_append (h3 u) ?_
        simpa [hu] using Proper.retOther (Ne.symm hu) (Proper.nil _)
    · rw [hσ]
      refine ⟨fun u op' r' l' hu => ?_, h5, fun u hu => ?_⟩
      · by_cases hut : u = t
        · simp [hut] at hu
        · exact h4 u op' r' l' (by simpa [hut] using hu)
      · have hut : u ≠ t := by
          rintro rfl
          obtain ⟨op', d, r', l', k, _⟩ := h6 u hu
          rw [ht] at k; cases k
        simpa [hut] using h6 u hu

/-- **Objects whose methods hold the mutex throughout are linearizable**: for every number of threads and calls and every
interleaving of their steps. -/
theorem linearizable (o : Obj S Op L R) (s₀ : S) (h : List (Ev Op R T)) (s : St S Op L R T) (e : Exec o s₀ h s) :
    Linearizable o.call s₀ h := by
  obtain ⟨l, h1, h2, h3, _⟩ := exec_inv o s₀ h s e
  exact ⟨l, h1, h2, fun t => ⟨_, h3 t⟩⟩

/-- **Linearizability carries over to a specification**: when the object does what a sequential specification `g` does, step
by step and as long as `I` holds, its concurrent executions are linearizable with respect to `g`. -/
theorem linearizable_spec {Q : Type} (o : Obj S Op L R) (g : Q → Op → Q × R) (I : S → Q → Prop)
    (hI : ∀ s q op, I s q → I (o.call s op).1 (g q op).1 ∧ (o.call s op).2 = (g q op).2) (s₀ : S) (q₀ : Q) (h₀ : I s₀ q₀)
    (h : List (Ev Op R T)) (s : St S Op L R T) (e : Exec o s₀ h s) : Linearizable g q₀ h := by
  obtain ⟨l, h1, h2, h3⟩ := linearizable o s₀ h s e
  refine ⟨l, h1, ?_, h3⟩
  clear h1 h3 e
  generalize effects l = a at h2
  induction a generalizing s₀ q₀ with
  | nil => trivial
  | cons x a ih =>
    obtain ⟨op, r⟩ := x
    have := hI s₀ q₀ op h₀
    exact ⟨by rw [← this.2]; exact h2.1, ih _ _ this.1 h2.2⟩

end

/-! ### What is required of a class, and an example -/

/-- A counter with increments (`some n`) and readings (`none`), in three steps: read, add, write. -/
def counter : Obj Nat (Option Nat) Nat Nat where
  enter _ := 0
  body
    | some n => [fun x => (x.1, x.1), fun x => (x.1, x.2 + n), fun x => (x.2, x.2)]
    | none => [fun x => (x.1, x.1)]
  result _ l := l

example : counter.call 5 (some 3) = (8, 8) ∧ counter.call 5 none = (5, 5) := by decide

/-- Two threads increment at the same time: thread 1 called first, but thread 0 gets the mutex first. -/
example : ∃ s, Exec (T := Nat) counter 0 [.call 1 (some 1), .call 0 (some 2), .ret 1 (some 1) 3] s := by
  have e := Exec.init (T := Nat) (o := counter) (s₀ := 0)
  have e := e.call 1 (some 1) rfl
  have e := e.call 0 (some 2) rfl
  have e := e.lock 0 (some 2) rfl rfl
  have e := e.step 0 _ _ _ _ rfl
  have e := e.step 0 _ _ _ _ rfl
  have e := e.step 0 _ _ _ _ rfl
  have e := e.unlock 0 _ _ rfl
  have e := e.lock 1 (some 1) rfl rfl
  have e := e.step 1 _ _ _ _ rfl
  have e := e.step 1 _ _ _ _ rfl
  have e := e.step 1 _ _ _ _ rfl
  have e := e.unlock 1 _ _ rfl
  have e := e.ret 1 _ _ rfl
  exact ⟨_, e⟩

section
variable {Op R T : Type} [DecidableEq T]

/-- All threads behave, when they do `f` at the start. -/
def All (f : T → Doing Op R) (l : List (Pt Op R T)) : Prop := ∀ t, ∃ d, Proper t (f t) l d

def upd (f : T → Doing Op R) (t : T) (d : Doing Op R) (u : T) : Doing Op R := if u = t then d else f u

theorem all_call {f : T → Doing Op R} {t : T} {op : Op} {l : List (Pt Op R T)} (h : All f (.call t op :: l)) :
    f t = .nothing ∧ All (upd f t (.called op)) l := by
  constructor
  · obtain ⟨d, hd⟩ := h t
    generalize f t = x at hd
    cases hd with
    | call => rfl
    | callOther hu => exact absurd rfl hu
  · intro u
    obtain ⟨d, hd⟩ := h u
    by_cases hu : u = t
    · subst hu
      simp only [upd, if_true]
      generalize f u = x at hd
      cases hd with
      | call h => exact ⟨d, h⟩
      | callOther hu => exact absurd rfl hu
    · simp only [upd, if_neg hu]
      generalize f u = x at hd ⊢
      cases hd with
      | call h => exact absurd rfl hu
      | callOther _ h => exact ⟨d, h⟩

theorem all_effect {f : T → Doing Op R} {t : T} {op : Op} {r : R} {l : List (Pt Op R T)}
    (h : All f (.effect t op r :: l)) : f t = .called op ∧ All (upd f t (.effected op r)) l := by
  constructor
  · obtain ⟨d, hd⟩ := h t
    generalize f t = x at hd
    cases hd with
    | effect => rfl
    | effectOther hu => exact absurd rfl hu
  · intro u
    obtain ⟨d, hd⟩ := h u
    by_cases hu : u = t
    · subst hu
      simp only [upd, if_true]
      generalize f u = x at hd
      cases hd with
      | effect h => exact ⟨d, h⟩
      | effectOther hu => exact absurd rfl hu
    · simp only [upd, if_neg hu]
      generalize f u = x at hd ⊢
      cases hd with
      | effect h => exact absurd rfl hu
      | effectOther _ h => exact ⟨d, h⟩

theorem all_ret {f : T → Doing Op R} {t : T} {op : Op} {r : R} {l : List (Pt Op R T)}
    (h : All f (.ret t op r :: l)) : f t = .effected op r ∧ All (upd f t .nothing) l := by
  constructor
  · obtain ⟨d, hd⟩ := h t
    generalize f t = x at hd
    cases hd with
    | ret => rfl
    | retOther hu => exact absurd rfl hu
  · intro u
    obtain ⟨d, hd⟩ := h u
    by_cases hu : u = t
    · subst hu
      simp only [upd, if_true]
      generalize f u = x at hd
      cases hd with
      | ret h => exact ⟨d, h⟩
      | retOther hu => exact absurd rfl hu
    · simp only [upd, if_neg hu]
      generalize f u = x at hd ⊢
      cases hd with
      | ret h => exact absurd rfl hu
      | retOther _ h => exact ⟨d, h⟩

end

/-- The specification is not empty: a reading after an increment has returned must not return the old value. -/
example : ¬ Linearizable (T := Nat) counter.call 0
    [.call 0 (some 1), .ret 0 (some 1) 1, .call 1 none, .ret 1 none 0] := by
  rintro ⟨l, h1, h2, h3⟩
  have h3 : All (fun _ => .nothing) l := h3
  -- the first point is the call of thread 0
  match l with
  | [] => cases h1
  | .effect t op r :: l => cases (all_effect h3).1
  | .ret t op r :: l => cases (all_ret h3).1
  | .call t op :: l =>
    simp only [observed, List.cons.injEq, Ev.call.injEq] at h1
    obtain ⟨⟨rfl, rfl⟩, h1⟩ := h1
    have h3 := (all_call h3).2
    -- the second one its effect
    match l with
    | [] => cases h1
    | .call t op :: l => simp [observed] at h1
    | .ret t op r :: l =>
      have := (all_ret h3).1
      simp only [upd] at this
      repeat' (first | cases this | split at this)
    | .effect t op r :: l =>
      have h4 := (all_effect h3).1
      have h3 := (all_effect h3).2
      simp only [upd] at h4
      split at h4
      case isFalse => cases h4
      case isTrue ht =>
      subst ht
      injection h4 with h4
      subst h4
      -- the third one its return
      match l with
      | [] => cases h1
      | .call t op :: l => simp [observed] at h1
      | .effect t op r :: l =>
        have := (all_effect h3).1
        simp only [upd] at this
        repeat' (first | cases this | split at this)
      | .ret t op r :: l =>
        simp only [observed, List.cons.injEq, Ev.ret.injEq] at h1
        obtain ⟨⟨rfl, rfl, rfl⟩, h1⟩ := h1
        have h3 := (all_ret h3).2
        -- the fourth one the call of thread 1
        match l with
        | [] => cases h1
        | .ret t op r :: l => simp [observed] at h1
        | .effect t op r :: l =>
          have := (all_effect h3).1
          simp only [upd] at this
          repeat' (first | cases this | split at this)
        | .call t op :: l =>
          simp only [observed, List.cons.injEq, Ev.call.injEq] at h1
          obtain ⟨⟨rfl, rfl⟩, h1⟩ := h1
          have h3 := (all_call h3).2
          -- the fifth one its effect
          match l with
          | [] => cases h1
          | .call t op :: l => simp [observed] at h1
          | .ret t op r :: l =>
            have := (all_ret h3).1
            simp only [upd] at this
            repeat' (first | cases this | split at this)
          | .effect t op r' :: l =>
            have h4 := (all_effect h3).1
            have h3 := (all_effect h3).2
            simp only [upd] at h4
            split at h4
            case isFalse =>
              repeat' (first | cases h4 | split at h4)
            case isTrue ht =>
            subst ht
            injection h4 with h4
            subst h4
            simp only [effects, Legal] at h2
            -- which reads 1
            have hr : r' = 1 := by
              obtain ⟨_, k, _⟩ := h2
              rw [← k]; rfl
            subst hr
            match l with
            | [] => cases h1
            | .call t op :: l => simp [observed] at h1
            | .effect t op r :: l =>
              have := (all_effect h3).1
              simp only [upd] at this
              repeat' (first | cases this | split at this)
            | .ret t op r :: l =>
              simp only [observed, List.cons.injEq, Ev.ret.injEq] at h1
              obtain ⟨⟨rfl, rfl, rfl⟩, h1⟩ := h1
              have := (all_ret h3).1
              simp [upd] at this

end Verif.Common.Monitor
