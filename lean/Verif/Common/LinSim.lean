import Verif.Common.Monitor
/-!
Linearizability of objects which do not hold a mutex from the beginning to the end of every method: a simulation with freely chosen instants of effect.
The specification is `Linearizable` of `Monitor.lean`.  No class of the framework appears here.
-/
namespace Verif.Common.LinSim
open Verif.Common.Monitor

variable {S Q Op R T : Type} [DecidableEq T]

/-- What a step looks like from outside. -/
inductive Lab (Op R T : Type) where
  | call (t : T) (op : Op)
  | ret (t : T) (op : Op) (r : R)
  | tau

/-- The executions of a machine with steps `Step` which starts in `s₀`. -/
inductive Exec (Step : S → Lab Op R T → S → Prop) (s₀ : S) : List (Ev Op R T) → S → Prop
  | init : Exec Step s₀ [] s₀
  | call {h : List (Ev Op R T)} {s s' : S} (e : Exec Step s₀ h s) (t : T) (op : Op) (st : Step s (.call t op) s') :
      Exec Step s₀ (h ++ [.call t op]) s'
  | ret {h : List (Ev Op R T)} {s s' : S} (e : Exec Step s₀ h s) (t : T) (op : Op) (r : R) (st : Step s (.ret t op r) s') :
      Exec Step s₀ (h ++ [.ret t op r]) s'
  | tau {h : List (Ev Op R T)} {s s' : S} (e : Exec Step s₀ h s) (st : Step s .tau s') : Exec Step s₀ h s'

/-- What has to be shown for every step: `q` is the state of the sequential object `f`, `doing s t` says how far the thread `t` is. -/
def Good (f : Q → Op → Q × R) (doing : S → T → Doing Op R) (I : Q → S → Prop) (q : Q) (s : S) (s' : S) : Lab Op R T → Prop
  | .call t op => doing s t = .nothing ∧ doing s' = upd (doing s) t (.called op) ∧ I q s'
  | .ret t op r => doing s t = .effected op r ∧ doing s' = upd (doing s) t .nothing ∧ I q s'
  | .tau => (doing s' = doing s ∧ I q s') ∨
      ∃ t op, doing s t = .called op ∧ doing s' = upd (doing s) t (.effected op (f q op).2) ∧ I (f q op).1 s'

theorem exec_inv (Step : S → Lab Op R T → S → Prop) (f : Q → Op → Q × R) (doing : S → T → Doing Op R) (I : Q → S → Prop) (s₀ : S) (q₀ : Q)
    (h0 : I q₀ s₀) (hd : ∀ t, doing s₀ t = .nothing) (hstep : ∀ q s lab s', I q s → Step s lab s' → Good f doing I q s s' lab)
    (h : List (Ev Op R T)) (s : S) (e : Exec Step s₀ h s) :
    ∃ l : List (Pt Op R T), observed l = h ∧ Legal f q₀ (effects l) ∧ (∀ t, Proper t .nothing l (doing s t)) ∧ I (after f q₀ (effects l)) s := by
  induction e with
  | init => exact ⟨[], rfl, trivial, fun t => by rw [hd t]; exact .nil _, h0⟩
  | @call h s s' e t op st ih =>
    obtain ⟨l, h1, h2, h3, h4⟩ := ih
    obtain ⟨g1, g2, g3⟩ := hstep _ _ _ _ h4 st
    refine ⟨l ++ [.call t op], by rw [observed_append, h1]; rfl, by simpa [effects_append, effects] using h2, fun u => ?_,
      by simpa [effects_append, effects] using g3⟩
    rw [g2]
    by_cases hu : u = t
    · subst hu
      have := h3 u
      rw [g1] at this
      refine proper_append this ?_
      simpa [upd] using Proper.call (Proper.nil _)
    · refine proper_append (h3 u) ?_
      simpa [upd, hu] using Proper.callOther (Ne.symm hu) (Proper.nil _)
  | @ret h s s' e t op r st ih =>
    obtain ⟨l, h1, h2, h3, h4⟩ := ih
    obtain ⟨g1, g2, g3⟩ := hstep _ _ _ _ h4 st
    refine ⟨l ++ [.ret t op r], by rw [observed_append, h1]; rfl, by simpa [effects_append, effects] using h2, fun u => ?_,
      by simpa [effects_append, effects] using g3⟩
    rw [g2]
    by_cases hu : u = t
    · subst hu
      have := h3 u
      rw [g1] at this
      refine proper_append this ?_
      simpa [upd] using Proper.ret (Proper.nil _)
    · refine proper_append (h3 u) ?_
      simpa [upd, hu] using Proper.retOther (Ne.symm hu) (Proper.nil _)
  | @tau h s s' e st ih =>
    obtain ⟨l, h1, h2, h3, h4⟩ := ih
    rcases hstep _ _ _ _ h4 st with ⟨g1, g2⟩ | ⟨t, op, g1, g2, g3⟩
    · exact ⟨l, h1, h2, fun t => by rw [g1]; exact h3 t, g2⟩
    · have he : effects (l ++ [.effect t op (f (after f q₀ (effects l)) op).2]) = effects l ++ [(op, (f (after f q₀ (effects l)) op).2)] := by
        simp [effects_append, effects]
      refine ⟨l ++ [.effect t op (f (after f q₀ (effects l)) op).2], by simp [observed_append, observed, h1], ?_, fun u => ?_, ?_⟩
      · rw [he]; exact legal_append _ _ _ _ _ h2 rfl
      · rw [g2]
        by_cases hu : u = t
        · subst hu
          have := h3 u
          rw [g1] at this
          refine proper_append this ?_
          simpa [upd] using Proper.effect (Proper.nil _)
        · refine proper_append (h3 u) ?_
          simpa [upd, hu] using Proper.effectOther (Ne.symm hu) (Proper.nil _)
      · rw [he, after_append]; exact g3

/-- **A machine which is simulated by a sequential object, every call taking effect in one of its own steps, is linearizable.** -/
theorem linearizable (Step : S → Lab Op R T → S → Prop) (f : Q → Op → Q × R) (doing : S → T → Doing Op R) (I : Q → S → Prop) (s₀ : S) (q₀ : Q)
    (h0 : I q₀ s₀) (hd : ∀ t, doing s₀ t = .nothing) (hstep : ∀ q s lab s', I q s → Step s lab s' → Good f doing I q s s' lab)
    (h : List (Ev Op R T)) (s : S) (e : Exec Step s₀ h s) : Linearizable f q₀ h := by
  obtain ⟨l, h1, h2, h3, _⟩ := exec_inv Step f doing I s₀ q₀ h0 hd hstep h s e
  exact ⟨l, h1, h2, fun t => ⟨_, h3 t⟩⟩

/-! ### What linearizability says about the order of time -/

/-- The operations which a thread called, in a list of events. -/
def called (t : T) : List (Ev Op R T) → List Op
  | [] => []
  | .call u op :: l => if u = t then op :: called t l else called t l
  | .ret _ _ _ :: l => called t l

/-- The operations from which a thread returned. -/
def returned (t : T) : List (Ev Op R T) → List Op
  | [] => []
  | .call _ _ :: l => returned t l
  | .ret u op _ :: l => if u = t then op :: returned t l else returned t l

/-- The operations of a thread which took effect. -/
def effected (t : T) : List (Pt Op R T) → List Op
  | [] => []
  | .effect u op _ :: l => if u = t then op :: effected t l else effected t l
  | .call _ _ :: l => effected t l
  | .ret _ _ _ :: l => effected t l

theorem called_append (t : T) (a b : List (Ev Op R T)) : called t (a ++ b) = called t a ++ called t b := by
  induction a with
  | nil => rfl
  | cons x a ih => cases x <;> simp only [called, List.cons_append, ih]; split <;> rfl

theorem returned_append (t : T) (a b : List (Ev Op R T)) : returned t (a ++ b) = returned t a ++ returned t b := by
  induction a with
  | nil => rfl
  | cons x a ih => cases x <;> simp only [returned, List.cons_append, ih]; split <;> rfl

theorem effected_append (t : T) (a b : List (Pt Op R T)) : effected t (a ++ b) = effected t a ++ effected t b := by
  induction a with
  | nil => rfl
  | cons x a ih => cases x <;> simp only [effected, List.cons_append, ih]; split <;> rfl

/-- A history of points which looks like two parts consists of two parts. -/
theorem observed_split (l : List (Pt Op R T)) (x y : List (Ev Op R T)) (h : observed l = x ++ y) :
    ∃ l1 l2, l = l1 ++ l2 ∧ observed l1 = x ∧ observed l2 = y := by
  induction l generalizing x with
  | nil =>
    obtain ⟨rfl, rfl⟩ := List.append_eq_nil_iff.1 h.symm
    exact ⟨[], [], rfl, rfl, rfl⟩
  | cons p l ih =>
    cases x with
    | nil => exact ⟨[], p :: l, rfl, rfl, h⟩
    | cons e x =>
      cases p with
      | effect t op r =>
        obtain ⟨l1, l2, e1, e2, e3⟩ := ih (e :: x) h
        exact ⟨.effect t op r :: l1, l2, by rw [e1]; rfl, e2, e3⟩
      | call t op =>
        simp only [observed, List.cons_append, List.cons.injEq] at h
        obtain ⟨l1, l2, e1, e2, e3⟩ := ih x h.2
        exact ⟨.call t op :: l1, l2, by rw [e1]; rfl, by simp [observed, e2, h.1], e3⟩
      | ret t op r =>
        simp only [observed, List.cons_append, List.cons.injEq] at h
        obtain ⟨l1, l2, e1, e2, e3⟩ := ih x h.2
        exact ⟨.ret t op r :: l1, l2, by rw [e1]; rfl, by simp [observed, e2, h.1], e3⟩

def Doing.toEffect : Doing Op R → List Op
  | .called op => [op]
  | _ => []

def Doing.toReturn : Doing Op R → List Op
  | .effected op _ => [op]
  | _ => []

omit [DecidableEq T] in
theorem proper_split {t : T} {d d'' : Doing Op R} {a b : List (Pt Op R T)} (h : Proper t d (a ++ b) d'') :
    ∃ d', Proper t d a d' ∧ Proper t d' b d'' := by
  induction a generalizing d with
  | nil => exact ⟨d, .nil _, h⟩
  | cons p a ih =>
    cases h with
    | call h => obtain ⟨d', k1, k2⟩ := ih h; exact ⟨d', .call k1, k2⟩
    | effect h => obtain ⟨d', k1, k2⟩ := ih h; exact ⟨d', .effect k1, k2⟩
    | ret h => obtain ⟨d', k1, k2⟩ := ih h; exact ⟨d', .ret k1, k2⟩
    | callOther hu h => obtain ⟨d', k1, k2⟩ := ih h; exact ⟨d', .callOther hu k1, k2⟩
    | effectOther hu h => obtain ⟨d', k1, k2⟩ := ih h; exact ⟨d', .effectOther hu k1, k2⟩
    | retOther hu h => obtain ⟨d', k1, k2⟩ := ih h; exact ⟨d', .retOther hu k1, k2⟩

/-- The calls of a thread take effect in their order, at most one is waiting for it. -/
theorem proper_called {t : T} {d d' : Doing Op R} {l : List (Pt Op R T)} (h : Proper t d l d') :
    Doing.toEffect d ++ called t (observed l) = effected t l ++ Doing.toEffect d' := by
  induction h with
  | nil => simp [observed, called, effected]
  | call _ ih => simpa [observed, called, effected, Doing.toEffect] using ih
  | effect _ ih => simpa [observed, called, effected, Doing.toEffect] using ih
  | ret _ ih => simpa [observed, called, effected, Doing.toEffect] using ih
  | callOther hu _ ih => simpa [observed, called, effected, hu] using ih
  | effectOther hu _ ih => simpa [observed, called, effected, hu] using ih
  | retOther hu _ ih => simpa [observed, called, effected, hu] using ih

/-- ... and return in their order. -/
theorem proper_returned {t : T} {d d' : Doing Op R} {l : List (Pt Op R T)} (h : Proper t d l d') :
    Doing.toReturn d ++ effected t l = returned t (observed l) ++ Doing.toReturn d' := by
  induction h with
  | nil => simp [observed, returned, effected]
  | call _ ih => simpa [observed, returned, effected, Doing.toReturn] using ih
  | effect _ ih => simpa [observed, returned, effected, Doing.toReturn] using ih
  | ret _ ih => simpa [observed, returned, effected, Doing.toReturn] using ih
  | callOther hu _ ih => simpa [observed, returned, effected, hu] using ih
  | effectOther hu _ ih => simpa [observed, returned, effected, hu] using ih
  | retOther hu _ ih => simpa [observed, returned, effected, hu] using ih

/-- No event of the thread. -/
def Quiet (t : T) (h : List (Ev Op R T)) : Prop := called t h = [] ∧ returned t h = []

/-- Between a call and its return there is its effect. -/
theorem proper_effect {t : T} {op : Op} {r : R} {l : List (Pt Op R T)} {d : Doing Op R} (h : Proper t (.called op) (l ++ [.ret t op r]) d)
    (hq : Quiet t (observed l)) : ∃ a b, l = a ++ .effect t op r :: b ∧ effected t a = [] := by
  induction l with
  | nil =>
    cases h with
    | retOther hu _ => exact absurd rfl hu
  | cons p l ih =>
    cases h with
    | @effect _ _ _ r' h' =>
      refine ⟨[], l, ?_, rfl⟩
      -- the result is that of the effect
      have key : ∀ (l : List (Pt Op R T)), Quiet t (observed l) → Proper t (.effected op r') (l ++ [.ret t op r]) d → r' = r := by
        intro l
        induction l with
        | nil =>
          intro _ h
          cases h with
          | ret => rfl
          | retOther hu _ => exact absurd rfl hu
        | cons p l ih =>
          intro hq h
          cases h with
          | ret h => simp [Quiet, observed, returned] at hq
          | callOther hu h => exact ih (by simpa [Quiet, observed, called, returned, hu] using hq) h
          | effectOther hu h => exact ih (by simpa [Quiet, observed, called, returned, hu] using hq) h
          | retOther hu h => exact ih (by simpa [Quiet, observed, called, returned, hu] using hq) h
      rw [key l (by simpa [Quiet, observed] using hq) h']
      rfl
    | callOther hu h' =>
      obtain ⟨a, b, e1, e2⟩ := ih h' (by simpa [Quiet, observed, called, returned, hu] using hq)
      exact ⟨_ :: a, b, by rw [e1]; rfl, by simpa [effected] using e2⟩
    | effectOther hu h' =>
      obtain ⟨a, b, e1, e2⟩ := ih h' (by simpa [Quiet, observed, called, returned, hu] using hq)
      exact ⟨_ :: a, b, by rw [e1]; rfl, by simpa [effected, hu] using e2⟩
    | retOther hu h' =>
      obtain ⟨a, b, e1, e2⟩ := ih h' (by simpa [Quiet, observed, called, returned, hu] using hq)
      exact ⟨_ :: a, b, by rw [e1]; rfl, by simpa [effected] using e2⟩

theorem legal_split (f : Q → Op → Q × R) (q : Q) (a b : List (Op × R)) (h : Legal f q (a ++ b)) : Legal f q a ∧ Legal f (after f q a) b := by
  induction a generalizing q with
  | nil => exact ⟨trivial, h⟩
  | cons x a ih => exact ⟨⟨h.1, (ih _ h.2).1⟩, (ih _ h.2).2⟩

/-- **What the result of a call may depend on.**  In a linearizable history let the thread `t` call `op` after `h1` and return `r` after `h2` more.  Then `r` is the
result of the sequential object after effects of which every thread has contributed its first calls: at least those from which it returned before the call, at most those
which it had called before the return. -/
theorem realtime (f : Q → Op → Q × R) (q : Q) (h1 h2 h3 : List (Ev Op R T)) (t : T) (op : Op) (r : R) (hq : Quiet t h2)
    (h : Linearizable f q (h1 ++ .call t op :: (h2 ++ .ret t op r :: h3))) :
    ∃ p : List (Pt Op R T), r = (f (after f q (effects p)) op).2 ∧ Legal f q (effects p) ∧ ∀ u, effected u p <+: called u (h1 ++ .call t op :: h2) ∧
      returned u h1 <+: effected u p := by
  obtain ⟨l, e, hl, hp⟩ := h
  obtain ⟨l1, l', rfl, e1, e⟩ := observed_split l h1 _ e
  obtain ⟨lc, l', rfl, ec, e⟩ := observed_split l' [.call t op] _ e
  obtain ⟨l2, l', rfl, e2, e⟩ := observed_split l' h2 _ e
  obtain ⟨lr, l3, rfl, er, e3⟩ := observed_split l' [.ret t op r] _ e
  -- the call and the return are points
  have point : ∀ (x : List (Pt Op R T)), observed x = [.call t op] → ∃ a b, x = a ++ .call t op :: b ∧ observed a = [] ∧ observed b = [] := by
    intro x
    induction x with
    | nil => intro h; cases h
    | cons p x ih =>
      intro h
      cases p with
      | call u o =>
        simp only [observed, List.cons.injEq] at h
        obtain ⟨h, h'⟩ := h
        injection h with a b
        subst a b
        exact ⟨[], x, rfl, rfl, h'⟩
      | ret u o r => simp [observed] at h
      | effect u o r =>
        obtain ⟨a, b, e1, e2, e3⟩ := ih h
        exact ⟨.effect u o r :: a, b, by rw [e1]; rfl, e2, e3⟩
  have point' : ∀ (x : List (Pt Op R T)), observed x = [.ret t op r] → ∃ a b, x = a ++ .ret t op r :: b ∧ observed a = [] ∧ observed b = [] := by
    intro x
    induction x with
    | nil => intro h; cases h
    | cons p x ih =>
      intro h
      cases p with
      | ret u o r =>
        simp only [observed, List.cons.injEq] at h
        obtain ⟨h, h'⟩ := h
        injection h with a b c
        subst a b c
        exact ⟨[], x, rfl, rfl, h'⟩
      | call u o => simp [observed] at h
      | effect u o r =>
        obtain ⟨a, b, e1, e2, e3⟩ := ih h
        exact ⟨.effect u o r :: a, b, by rw [e1]; rfl, e2, e3⟩
  obtain ⟨c1, c2, rfl, ec1, ec2⟩ := point lc ec
  obtain ⟨r1, r2, rfl, er1, er2⟩ := point' lr er
  -- the effect
  obtain ⟨d, hd⟩ := hp t
  have hd' : Proper t .nothing ((l1 ++ c1) ++ (.call t op :: ((c2 ++ l2 ++ r1) ++ ([.ret t op r] ++ (r2 ++ l3))))) d := by simpa using hd
  obtain ⟨d1, hd1, hd2⟩ := proper_split hd'
  have hd2' : Proper t (.called op) ((c2 ++ l2 ++ r1) ++ ([.ret t op r] ++ (r2 ++ l3))) d := by
    cases hd2 with
    | call h => exact h
    | callOther hu _ => exact absurd rfl hu
  rw [← List.append_assoc] at hd2'
  obtain ⟨d3, hd3, _⟩ := proper_split hd2'
  have hobs : observed (c2 ++ l2 ++ r1) = h2 := by simp [observed_append, ec2, er1, e2]
  obtain ⟨a, b, eab, _⟩ := proper_effect hd3 (by rw [hobs]; exact hq)
  have hsplit : l1 ++ (c1 ++ Pt.call t op :: c2 ++ (l2 ++ (r1 ++ Pt.ret t op r :: r2 ++ l3))) =
      (l1 ++ c1 ++ .call t op :: a) ++ (.effect t op r :: (b ++ ([.ret t op r] ++ (r2 ++ l3)))) := by
    have : l1 ++ (c1 ++ Pt.call t op :: c2 ++ (l2 ++ (r1 ++ Pt.ret t op r :: r2 ++ l3))) =
      (l1 ++ c1) ++ (.call t op :: ((c2 ++ l2 ++ r1) ++ ([.ret t op r] ++ (r2 ++ l3)))) := by simp
    rw [this, eab]
    simp
  rw [hsplit] at hl hp
  rw [effects_append] at hl
  obtain ⟨hl1, hl2⟩ := legal_split _ _ _ _ hl
  refine ⟨l1 ++ c1 ++ .call t op :: a, hl2.1.symm, hl1, fun u => ?_⟩
  obtain ⟨du, hu⟩ := hp u
  obtain ⟨du', hu1, _⟩ := proper_split hu
  have hc := proper_called hu1
  have hoa : observed (l1 ++ c1 ++ .call t op :: a) = h1 ++ .call t op :: observed a := by simp [observed_append, observed, e1, ec1]
  have hoab : h2 = observed a ++ observed b := by rw [← hobs, eab]; simp [observed_append, observed]
  refine ⟨⟨Doing.toEffect du' ++ called u (observed b), ?_⟩, ?_⟩
  · rw [← List.append_assoc, ← hc, hoa, hoab]
    simp only [Doing.toEffect, List.nil_append]
    rw [← called_append]
    simp
  · have hu1' : Proper u .nothing (l1 ++ (c1 ++ .call t op :: a)) du' := by simpa using hu1
    obtain ⟨d4, hd4, _⟩ := proper_split hu1'
    have hr := proper_returned hd4
    rw [e1] at hr
    simp only [Doing.toReturn, List.nil_append] at hr
    rw [List.append_assoc, effected_append, hr, List.append_assoc]
    exact List.prefix_append _ _

end Verif.Common.LinSim
