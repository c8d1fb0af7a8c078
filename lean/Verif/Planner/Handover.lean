import Mathlib.Tactic.Ring
import Mathlib.Logic.Function.Basic
/-!
The handover of a motion between the thread which runs a path planner and the thread which orders the motions
(includes/eeros/control/PathPlannerConstAcc.hpp, PathPlannerConstJerk.hpp).  `Verif/Control/BlockRaces.lean` does not follow the values of the
members; here the flag `finished` is followed, which the two threads use to take turns.

One step is one access of a member.  The values of `finished`, `range`, `endPos` and `last` (the position) are modelled, those of the time, of
the intervals and of the coefficients are not: a position on the way may be anything, and a range may be over or not.  `top` is the range which
ends the motion, 4 for the planner with constant acceleration and 6 for the one with constant jerk; `d` is the number of components.

Ghost: `goal` is the end of the motion which has been started last, nothing before the first one and after `setStart`.
-/
namespace Verif.Planner.Handover

/-- The members which both threads use.  `coeff` stands for all coefficients, `dT` for all intervals. -/
inductive Var | finished | range | t | dT | coeff | endPos | last
deriving DecidableEq

/-- Where the thread of the executor is: PathPlannerConstAcc.hpp:73-136, PathPlannerConstJerk.hpp:75-169.
* `idle`: outside of `run`
* `copy`, `time`, `test`: lines 75, 76, 78
* `comp i`: the `switch` of component `i` (80), or the end of the loop when `i = d`
* `traj i`, `over i p`: one of the cases on the way (82-113), the position `p` calculated, then the test whether the range is over
* `fin i`, `goTo i`: the last case (115, 116)
* `keep i p`: lines 122-124
* `leave`: the mutex is unlocked. -/
inductive Run (P : Type)
  | idle | copy | time | test | comp (i : Nat) | traj (i : Nat) | over (i : Nat) (p : P) | fin (i : Nat) | goTo (i : Nat) | keep (i : Nat) (p : P) | leave

/-- Where the thread is which orders motions.
* `ask e`, `told e b`: `endReached` (63-66), with the mutex; the answer `b`
* `from_ e`: `move(T end)` reads the last position (TrajectoryGenerator.hpp:91), `check e`: line 155
* `dest e j`: `endPos = end[0]` (159), component `j`
* `plan e`: the intervals and the coefficients (178-215)
* `enter e`, `clear e`, `first`, `zero`: lines 217-220
* `place s`, `set`: `setStart` (231-235)
* `leave`: the mutex is unlocked. -/
inductive Mover (P : Type)
  | idle | ask (e : Nat → P) | told (e : Nat → P) (b : Bool) | from_ (e : Nat → P) | check (e : Nat → P) | dest (e : Nat → P) (j : Nat)
  | plan (e : Nat → P) | enter (e : Nat → P) | clear (e : Nat → P) | first | zero | place (s : Nat → P) | set | leave

inductive Who | run | mover
deriving DecidableEq

structure St (P : Type) where
  owner : Option Who
  finished : Bool
  range : Nat
  endPos : Nat → P
  last : Nat → P
  goal : Option (Nat → P)
  r : Run P
  m : Mover P

/-- The constructor (46-52): finished, the range is left open. -/
def init {P : Type} (range : Nat) (endPos last : Nat → P) : St P := ⟨none, true, range, endPos, last, none, .idle, .idle⟩

/-- How motions are ordered: after `endReached` has returned true, or at any time (the answer of `move` says whether the motion was taken). -/
inductive Style | asking | trying
deriving DecidableEq

section
variable {P : Type} (top d : Nat) (style : Style)

/-- One access of one of the two threads. -/
inductive Step : St P → St P → Prop
  -- run
  | lock (s) : s.r = .idle → s.owner = none → Step s { s with r := .copy, owner := some .run }
  | copy (s) : s.r = .copy → Step s { s with r := .time }
  | time (s) : s.r = .time → Step s { s with r := .test }
  | test (s) : s.r = .test → Step s { s with r := if s.finished then .leave else .comp 0 }
  | way (s i) : s.r = .comp i → i < d → s.range ≠ top → Step s { s with r := .traj i }
  | last (s i) : s.r = .comp i → i < d → s.range = top → Step s { s with r := .fin i }
  | done (s i) : s.r = .comp i → d ≤ i → Step s { s with r := .leave }
  | traj (s i p) : s.r = .traj i → Step s { s with r := .over i p }
  | stay (s i p) : s.r = .over i p → Step s { s with r := .keep i p }
  | next (s i p) : s.r = .over i p → (s.range + 1 = top → i + 1 = d) → Step s { s with r := .keep i p, range := s.range + 1 }
  | fin (s i) : s.r = .fin i → Step s { s with r := .goTo i, finished := true }
  | goTo (s i) : s.r = .goTo i → Step s { s with r := .keep i (s.endPos i) }
  | keep (s i p) : s.r = .keep i p → Step s { s with r := .comp (i + 1), last := Function.update s.last i p }
  | unlock (s) : s.r = .leave → Step s { s with r := .idle, owner := none }
  -- move
  | ask (s e) : s.m = .idle → style = .asking → s.owner = none → Step s { s with m := .ask e, owner := some .mover }
  | answer (s e) : s.m = .ask e → Step s { s with m := .told e s.finished }
  | told (s e b) : s.m = .told e b → Step s { s with m := if b then .from_ e else .idle, owner := none }
  | try_ (s e) : s.m = .idle → style = .trying → Step s { s with m := .from_ e }
  | from_ (s e) : s.m = .from_ e → Step s { s with m := .check e }
  | check (s e) : s.m = .check e → Step s { s with m := if s.finished then .dest e 0 else .idle }
  | dest (s e j) : s.m = .dest e j → j < d → Step s { s with m := .dest e (j + 1), endPos := Function.update s.endPos j (e j) }
  | same (s e j) : s.m = .dest e j → d ≤ j → Step s { s with m := .idle }
  | other (s e j) : s.m = .dest e j → d ≤ j → Step s { s with m := .plan e }
  | plan (s e) : s.m = .plan e → Step s { s with m := .enter e }
  | enter (s e) : s.m = .enter e → s.owner = none → Step s { s with m := .clear e, owner := some .mover }
  | clear (s e) : s.m = .clear e → Step s { s with m := .first, finished := false, goal := some e }
  | first (s) : s.m = .first → Step s { s with m := .zero, range := 1 }
  | zero (s) : s.m = .zero → Step s { s with m := .leave }
  | start (s x) : s.m = .idle → s.owner = none → Step s { s with m := .place x, owner := some .mover }
  | place (s x) : s.m = .place x → Step s { s with m := .set, last := x, goal := none }
  | set (s) : s.m = .set → Step s { s with m := .leave, finished := true }
  | leave (s) : s.m = .leave → Step s { s with m := .idle, owner := none }

inductive Reach : St P → Prop
  | init (range : Nat) (endPos last : Nat → P) : Reach (init range endPos last)
  | step {s s' : St P} : Reach s → Step top d style s s' → Reach s'

end

/-! ### Specification -/

/-- The members which the next step of `run` uses, `true` for a write (75-124). -/
def Run.uses {P : Type} : Run P → List (Var × Bool)
  | .copy => [(.last, false)]
  | .time => [(.t, true)]
  | .test => [(.finished, false)]
  | .comp _ => [(.range, false)]
  | .traj _ => [(.t, false), (.dT, false), (.coeff, false)]
  | .over _ _ => [(.t, false), (.dT, false), (.range, true), (.t, true)]
  | .fin _ => [(.finished, true)]
  | .goTo _ => [(.endPos, false)]
  | .keep _ _ => [(.last, true)]
  | .idle | .leave => []

/-- The members which the next step of the other thread uses (155-220, 231-235). -/
def Mover.uses {P : Type} : Mover P → List (Var × Bool)
  | .ask _ => [(.finished, false)]
  | .from_ _ => [(.last, false)]
  | .check _ => [(.finished, false)]
  | .dest _ _ => [(.endPos, true)]
  | .plan _ => [(.dT, true), (.coeff, true)]
  | .clear _ => [(.finished, true)]
  | .first => [(.range, true)]
  | .zero => [(.t, true)]
  | .place _ => [(.last, true)]
  | .set => [(.finished, true)]
  | .idle | .told _ _ | .enter _ | .leave => []

/-- The two threads are about to use the same member, one of them to write it. -/
def Race {P : Type} (s : St P) (v : Var) : Prop :=
  ∃ a b, (v, a) ∈ s.r.uses ∧ (v, b) ∈ s.m.uses ∧ (a = true ∨ b = true)

/-! ### Where the threads are -/

def Run.locked {P : Type} : Run P → Bool
  | .idle => false
  | .copy | .time | .test | .comp _ | .traj _ | .over _ _ | .fin _ | .goTo _ | .keep _ _ | .leave => true

def Mover.locked {P : Type} : Mover P → Bool
  | .ask _ | .told _ _ | .clear _ | .first | .zero | .place _ | .set | .leave => true
  | .idle | .from_ _ | .check _ | .dest _ _ | .plan _ | .enter _ => false

/-- In the loop of `run`. -/
def Run.loop {P : Type} : Run P → Bool
  | .comp _ | .traj _ | .over _ _ | .fin _ | .goTo _ | .keep _ _ => true
  | .idle | .copy | .time | .test | .leave => false

/-- After the test of `finished` in `move`, before the mutex is locked. -/
def Mover.sure {P : Type} : Mover P → Bool
  | .dest _ _ | .plan _ | .enter _ => true
  | .idle | .ask _ | .told _ _ | .from_ _ | .check _ | .clear _ | .first | .zero | .place _ | .set | .leave => false

/-- After a positive answer of `endReached`. -/
def Mover.granted {P : Type} : Mover P → Bool
  | .from_ _ | .check _ | .dest _ _ | .plan _ | .enter _ => true
  | .told _ b => b
  | .idle | .ask _ | .clear _ | .first | .zero | .place _ | .set | .leave => false

attribute [local simp] Run.locked.eq_1 Run.locked.eq_2 Run.locked.eq_3 Run.locked.eq_4 Run.locked.eq_5 Run.locked.eq_6 Run.locked.eq_7 Run.locked.eq_8 Run.locked.eq_9 Run.locked.eq_10 Run.locked.eq_11 Mover.locked.eq_1 Mover.locked.eq_2 Mover.locked.eq_3 Mover.locked.eq_4 Mover.locked.eq_5 Mover.locked.eq_6 Mover.locked.eq_7 Mover.locked.eq_8 Mover.locked.eq_9 Mover.locked.eq_10 Mover.locked.eq_11 Mover.locked.eq_12 Mover.locked.eq_13 Mover.locked.eq_14
attribute [local simp] Run.loop.eq_1 Run.loop.eq_2 Run.loop.eq_3 Run.loop.eq_4 Run.loop.eq_5 Run.loop.eq_6 Run.loop.eq_7 Run.loop.eq_8 Run.loop.eq_9 Run.loop.eq_10 Run.loop.eq_11 Mover.sure.eq_1 Mover.sure.eq_2 Mover.sure.eq_3 Mover.sure.eq_4 Mover.sure.eq_5 Mover.sure.eq_6 Mover.sure.eq_7 Mover.sure.eq_8 Mover.sure.eq_9 Mover.sure.eq_10 Mover.sure.eq_11 Mover.sure.eq_12 Mover.sure.eq_13 Mover.sure.eq_14
attribute [local simp] Mover.granted.eq_1 Mover.granted.eq_2 Mover.granted.eq_3 Mover.granted.eq_4 Mover.granted.eq_5 Mover.granted.eq_6 Mover.granted.eq_7 Mover.granted.eq_8 Mover.granted.eq_9 Mover.granted.eq_10 Mover.granted.eq_11 Mover.granted.eq_12 Mover.granted.eq_13 Mover.granted.eq_14

/-- The mutex. -/
structure Mutex {P : Type} (s : St P) : Prop where
  run : s.r.locked = true ↔ s.owner = some .run
  mover : s.m.locked = true ↔ s.owner = some .mover

/-- What is true for both styles.
* `way`: once the flag is set, the loop of `run` is in the last range and does not follow the trajectory any more
* `sure`: the flag stays set while a motion is prepared. -/
structure Inv {P : Type} (top : Nat) (s : St P) : Prop extends Mutex s where
  way : s.finished = true → s.r.loop = true → s.range = top ∧ (∀ i, s.r ≠ .traj i) ∧ (∀ i p, s.r ≠ .over i p)
  fin : ∀ i, s.r = .fin i ∨ s.r = .goTo i → s.range = top
  sure : s.m.sure = true → s.finished = true
  goTo : ∀ i, s.r = .goTo i → s.finished = true
  clear : ∀ e, s.m = .clear e → s.finished = true

theorem loop_locked {P : Type} (r : Run P) (h : r.loop = true) : r.locked = true := by cases r <;> simp_all

theorem inv_reach {P : Type} (top d : Nat) (style : Style) (s : St P) (h : Reach top d style s) : Inv top s := by
  induction h with
  | init => exact ⟨⟨by simp [init], by simp [init]⟩, by simp [init], by simp [init], by simp [init], by simp [init], by simp [init]⟩
  | @step s s' _ h ih =>
    obtain ⟨⟨i1, i2⟩, i3, i4, i5, i6, i7⟩ := ih
    obtain ⟨o, f, rg, ep, la, g, r, m⟩ := s
    cases h
    case test h =>
      simp only at *; subst h
      cases f
      · refine ⟨⟨?_, ?_⟩, ?_, ?_, ?_, ?_, ?_⟩ <;> first | assumption | simp_all
      · refine ⟨⟨?_, ?_⟩, ?_, ?_, ?_, ?_, ?_⟩ <;> first | assumption | simp_all
    case told b h =>
      simp only at *; subst h
      cases b
      · refine ⟨⟨?_, ?_⟩, ?_, ?_, ?_, ?_, ?_⟩ <;> first | assumption | simp_all
      · refine ⟨⟨?_, ?_⟩, ?_, ?_, ?_, ?_, ?_⟩ <;> first | assumption | simp_all
    case check h =>
      simp only at *; subst h
      cases f
      · refine ⟨⟨?_, ?_⟩, ?_, ?_, ?_, ?_, ?_⟩ <;> first | assumption | simp_all
      · refine ⟨⟨?_, ?_⟩, ?_, ?_, ?_, ?_, ?_⟩ <;> first | assumption | simp_all
    case clear h =>
      simp only at *; subst h
      have hr : r = .idle := by cases r <;> simp_all
      subst hr
      refine ⟨⟨?_, ?_⟩, ?_, ?_, ?_, ?_, ?_⟩ <;> first | assumption | simp_all
    case set h =>
      simp only at *; subst h
      have hr : r = .idle := by cases r <;> simp_all
      subst hr
      refine ⟨⟨?_, ?_⟩, ?_, ?_, ?_, ?_, ?_⟩ <;> first | assumption | simp_all
    case first h =>
      simp only at *; subst h
      have hr : r = .idle := by cases r <;> simp_all
      subst hr
      refine ⟨⟨?_, ?_⟩, ?_, ?_, ?_, ?_, ?_⟩ <;> first | assumption | simp_all
    all_goals
      simp only at *; subst_vars
      refine ⟨⟨?_, ?_⟩, ?_, ?_, ?_, ?_, ?_⟩ <;> first | assumption | simp_all

/-- After a positive answer the flag stays set and `run` stays out of its loop. -/
structure Granted {P : Type} (s : St P) : Prop where
  flag : s.m.granted = true → s.finished = true
  out : s.m.granted = true → s.r.loop = false

theorem granted_reach {P : Type} (top d : Nat) (s : St P) (h : Reach top d .asking s) : Granted s := by
  induction h with
  | init => exact ⟨by simp [init], by simp [init]⟩
  | @step s s' h0 h ih =>
    obtain ⟨⟨i1, i2⟩, i3, i4, i5, i6, i7⟩ := inv_reach _ _ _ _ h0
    obtain ⟨j1, j2⟩ := ih
    clear h0
    obtain ⟨o, f, rg, ep, la, g, r, m⟩ := s
    cases h
    case answer h =>
      simp only at *; subst h
      have hr : r = .idle := by cases r <;> simp_all
      subst hr
      refine ⟨?_, ?_⟩ <;> simp_all
    case test h =>
      simp only at *; subst h
      cases f <;> refine ⟨?_, ?_⟩ <;> first | assumption | simp_all
    case told b h =>
      simp only at *; subst h
      cases b <;> refine ⟨?_, ?_⟩ <;> first | assumption | simp_all
    case check h =>
      simp only at *; subst h
      cases f <;> refine ⟨?_, ?_⟩ <;> first | assumption | simp_all
    all_goals
      simp only at *; subst_vars
      refine ⟨?_, ?_⟩ <;> first | assumption | simp_all

/-! ### Races -/

/-- **Whoever waits for `endReached` before the next motion shares the planner without a data race**, although `move` reads and writes most
members without the mutex: on no member, in no interleaving, for any number of motions and cycles. -/
theorem asking_race_free {P : Type} (top d : Nat) (s : St P) (h : Reach top d .asking s) (v : Var) : ¬ Race s v := by
  obtain ⟨⟨i1, i2⟩, i3, i4, i5, i6, i7⟩ := inv_reach _ _ _ _ h
  obtain ⟨j1, j2⟩ := granted_reach _ _ _ h
  rintro ⟨a, b, ha, hb, hab⟩
  clear h
  obtain ⟨o, f, rg, ep, la, g, r, m⟩ := s
  cases m <;> simp only [Mover.uses, List.not_mem_nil, List.mem_cons, Prod.mk.injEq, or_false] at hb <;>
    cases r <;> simp_all [Run.uses]

/-- **Whoever relies on the answer of `move` alone races with `run`, but on three members only**: the flag, the end position and the last
position.  The coefficients, the intervals, the time and the range are safe in both styles, without a mutex. -/
theorem races_on {P : Type} (top d : Nat) (style : Style) (s : St P) (h : Reach top d style s) (v : Var) (hr : Race s v) :
    v = .finished ∨ v = .endPos ∨ v = .last := by
  obtain ⟨⟨i1, i2⟩, i3, i4, i5, i6, i7⟩ := inv_reach _ _ _ _ h
  obtain ⟨a, b, ha, hb, hab⟩ := hr
  clear h
  obtain ⟨o, f, rg, ep, la, g, r, m⟩ := s
  cases m <;> simp only [Mover.uses, List.not_mem_nil, List.mem_cons, Prod.mk.injEq, or_false] at hb <;>
    cases r <;> simp_all [Run.uses]

/-! ### The end of a motion -/

/-- The end position which is being prepared. -/
structure Prepared {P : Type} (d : Nat) (s : St P) : Prop where
  dest : ∀ e j, s.m = .dest e j → ∀ k, k < j → k < d → s.endPos k = e k
  ready : ∀ e, s.m = .plan e ∨ s.m = .enter e ∨ s.m = .clear e → ∀ k, k < d → s.endPos k = e k

theorem prepared_reach {P : Type} (top d : Nat) (style : Style) (s : St P) (h : Reach top d style s) : Prepared d s := by
  induction h with
  | init => exact ⟨by simp [init], by simp [init]⟩
  | @step s s' h0 h ih =>
    obtain ⟨j1, j2⟩ := ih
    clear h0
    obtain ⟨o, f, rg, ep, la, g, r, m⟩ := s
    cases h
    case told b h =>
      simp only at *; subst h
      cases b <;> refine ⟨?_, ?_⟩ <;> simp_all
    case check h =>
      simp only at *; subst h
      cases f <;> refine ⟨?_, ?_⟩ <;> simp_all
    case dest e j h hj =>
      simp only at *; subst h
      refine ⟨?_, by simp_all⟩
      rintro e' j' he k hk hd
      simp only [Mover.dest.injEq] at he
      obtain ⟨rfl, rfl⟩ := he
      by_cases hkj : k = j
      · subst hkj; simp
      · show Function.update ep j (e j) k = e k
        rw [Function.update_of_ne hkj]
        exact j1 e j rfl k (by omega) hd
    case other e j h hj =>
      simp only at *; subst h
      refine ⟨by simp_all, ?_⟩
      rintro e' he k hk
      simp only [Mover.plan.injEq, reduceCtorEq, or_false] at he
      subst he
      exact j1 e j rfl k (by omega) hk
    all_goals
      simp only at *; subst_vars
      refine ⟨?_, ?_⟩ <;> first | assumption | simp_all

/-- The values during and after a motion to `e`, in the style `asking`. -/
def Good {P : Type} (top d : Nat) (e : Nat → P) (f : Bool) (range : Nat) (endPos last : Nat → P) : Run P → Prop
  | .comp i => (∀ k, k < d → endPos k = e k) ∧
      (f = false ∧ (range = top → i = 0 ∨ d ≤ i) ∨ f = true ∧ range = top ∧ ∀ k, k < i → k < d → last k = e k)
  | .traj i => (∀ k, k < d → endPos k = e k) ∧ f = false ∧ range ≠ top ∧ i < d
  | .over i _ => (∀ k, k < d → endPos k = e k) ∧ f = false ∧ range ≠ top ∧ i < d
  | .fin i => (∀ k, k < d → endPos k = e k) ∧ range = top ∧ i < d ∧ ∀ k, k < i → k < d → last k = e k
  | .goTo i => (∀ k, k < d → endPos k = e k) ∧ range = top ∧ i < d ∧ f = true ∧ ∀ k, k < i → k < d → last k = e k
  | .keep i p => (∀ k, k < d → endPos k = e k) ∧
      (f = false ∧ (range = top → i + 1 = d) ∨ f = true ∧ range = top ∧ i < d ∧ p = e i ∧ ∀ k, k < i → k < d → last k = e k)
  | _ => (f = true → ∀ k, k < d → last k = e k) ∧ (f = false → ∀ k, k < d → endPos k = e k)

structure Ends {P : Type} (top d : Nat) (s : St P) : Prop where
  set : s.m = .set → s.goal = none
  good : ∀ e, s.goal = some e → Good top d e s.finished s.range s.endPos s.last s.r

theorem ends_reach {P : Type} (top d : Nat) (s : St P) (h : Reach top d .asking s) : Ends top d s := by
  induction h with
  | init => exact ⟨by simp [init], by simp [init]⟩
  | @step s s' h0 h ih =>
    obtain ⟨⟨i1, i2⟩, i3, i4, i5, i6, i7⟩ := inv_reach _ _ _ _ h0
    obtain ⟨j1, j2⟩ := granted_reach _ _ _ h0
    obtain ⟨p1, p2⟩ := prepared_reach _ _ _ _ h0
    obtain ⟨e1, e2⟩ := ih
    clear h0
    obtain ⟨o, f, rg, ep, la, g, r, m⟩ := s
    -- the mover does not run while the loop does
    have hl : m.granted = true → ∀ e, g = some e → Good top d e true rg ep la r → ∀ ep', Good top d e true rg ep' la r := by
      intro hg e _ hgood ep'
      have := j2 hg
      cases r <;> simp_all [Good]
    cases h
    case lock h ho => subst h; exact ⟨e1, e2⟩
    case copy h => simp only at h; subst h; exact ⟨e1, e2⟩
    case time h => simp only at h; subst h; exact ⟨e1, e2⟩
    case test h =>
      simp only at h; subst h
      refine ⟨e1, fun e he => ?_⟩
      have := e2 e he
      cases f
      · exact ⟨this.2 rfl, Or.inl ⟨rfl, fun _ => Or.inl rfl⟩⟩
      · exact this
    case way i h hi hn =>
      simp only at h hn; subst h
      refine ⟨e1, fun e he => ?_⟩
      obtain ⟨h1, h2⟩ := e2 e he
      refine ⟨h1, ?_, hn, hi⟩
      rcases h2 with h2 | h2
      · exact h2.1
      · exact absurd h2.2.1 hn
    case last i h hi hn =>
      simp only at h hn; subst h
      refine ⟨e1, fun e he => ?_⟩
      obtain ⟨h1, h2⟩ := e2 e he
      refine ⟨h1, hn, hi, fun k hk hd => ?_⟩
      rcases h2 with h2 | h2
      · have := h2.2 hn
        omega
      · exact h2.2.2 k hk hd
    case done i h hi =>
      simp only at h; subst h
      refine ⟨e1, fun e he => ?_⟩
      obtain ⟨h1, h2⟩ := e2 e he
      refine ⟨fun hf k hk => ?_, fun _ => h1⟩
      rcases h2 with h2 | h2
      · simp only at hf h2; rw [hf] at h2; simp at h2
      · exact h2.2.2 k (by omega) hk
    case traj i p h => simp only at h; subst h; exact ⟨e1, e2⟩
    case stay i p h =>
      simp only at h; subst h
      refine ⟨e1, fun e he => ?_⟩
      obtain ⟨h1, h2, h3, h4⟩ := e2 e he
      exact ⟨h1, Or.inl ⟨h2, fun h => absurd h h3⟩⟩
    case next i p h hn =>
      simp only at h; subst h
      refine ⟨e1, fun e he => ?_⟩
      obtain ⟨h1, h2, h3, h4⟩ := e2 e he
      exact ⟨h1, Or.inl ⟨h2, hn⟩⟩
    case fin i h =>
      simp only at h; subst h
      refine ⟨e1, fun e he => ?_⟩
      obtain ⟨h1, h2, h3, h4⟩ := e2 e he
      exact ⟨h1, h2, h3, rfl, h4⟩
    case goTo i h =>
      simp only at h; subst h
      refine ⟨e1, fun e he => ?_⟩
      obtain ⟨h1, h2, h3, h4, h5⟩ := e2 e he
      exact ⟨h1, Or.inr ⟨h4, h2, h3, h1 i h3, h5⟩⟩
    case keep i p h =>
      simp only at h; subst h
      refine ⟨e1, fun e he => ?_⟩
      obtain ⟨h1, h2⟩ := e2 e he
      refine ⟨h1, ?_⟩
      rcases h2 with ⟨h2, h3⟩ | ⟨h2, h3, h4, h5, h6⟩
      · exact Or.inl ⟨h2, fun h => Or.inr (by have := h3 h; omega)⟩
      · refine Or.inr ⟨h2, h3, fun k hk hd => ?_⟩
        show Function.update la i p k = e k
        by_cases hki : k = i
        · rw [hki, Function.update_self, h5]
        · rw [Function.update_of_ne hki]
          exact h6 k (by omega) hd
    case unlock h => simp only at h; subst h; exact ⟨e1, e2⟩
    case ask e h _ _ => exact ⟨by simp, e2⟩
    case answer e h => exact ⟨by simp, e2⟩
    case told e b h => exact ⟨by cases b <;> simp, e2⟩
    case try_ e h hs => exact absurd hs (by decide)
    case from_ e h => exact ⟨by simp, e2⟩
    case check e h => exact ⟨by cases f <;> simp, e2⟩
    case dest e j h hj =>
      simp only at h; subst h
      have hf : f = true := j1 rfl
      subst hf
      exact ⟨by simp, fun e he => hl rfl e he (e2 e he) _⟩
    case same e j h hj => exact ⟨by simp, e2⟩
    case other e j h hj => exact ⟨by simp, e2⟩
    case plan e h => exact ⟨by simp, e2⟩
    case enter e h ho => exact ⟨by simp, e2⟩
    case clear e h =>
      simp only at *; subst h
      have hr : r = .idle := by cases r <;> simp_all
      subst hr
      refine ⟨by simp, fun e' he => ⟨by simp, fun _ => ?_⟩⟩
      simp only [Option.some.injEq] at he
      subst he
      exact p2 e (Or.inr (Or.inr rfl))
    case first h =>
      simp only at *; subst h
      have hr : r = .idle := by cases r <;> simp_all
      subst hr
      exact ⟨by simp, e2⟩
    case zero h => exact ⟨by simp, e2⟩
    case start x h ho => exact ⟨by simp, e2⟩
    case place x h => exact ⟨fun _ => rfl, by simp⟩
    case set h =>
      have := e1 h
      simp only at this; subst this
      exact ⟨by simp, by simp⟩
    case leave h => exact ⟨by simp, e2⟩

/-- **Every motion ends where it was sent**: when the thread which orders the motions waits for `endReached`, the last position after the
motion is its end, in every component, whatever is ordered next. -/
theorem ends_at_goal {P : Type} (top d : Nat) (s : St P) (h : Reach top d .asking s) (e : Nat → P) (hg : s.goal = some e)
    (hf : s.finished = true) (hr : s.r = .idle) (k : Nat) (hk : k < d) : s.last k = e k := by
  have := (ends_reach top d s h).good e hg
  rw [hr] at this
  exact this.1 hf k hk

/-! ### What goes wrong without the question -/

section
variable {P : Type} {top d : Nat} {style : Style}

/-- `e` in the first `n` components. -/
def over (n : Nat) (e f : Nat → P) : Nat → P := fun k => if k < n then e k else f k

theorem over_succ (n : Nat) (e f : Nat → P) : Function.update (over n e f) n (e n) = over (n + 1) e f := by
  funext k
  by_cases h : k = n
  · subst h; simp [over]
  · rw [Function.update_of_ne h]
    unfold over
    by_cases hk : k < n
    · rw [if_pos hk, if_pos (by omega)]
    · rw [if_neg hk, if_neg (by omega)]

theorem over_zero (e f : Nat → P) : over 0 e f = f := by funext k; simp [over]

/-- The end position is written, whatever `run` does. -/
theorem reach_dest (o : Option Who) (f : Bool) (rg : Nat) (ep la : Nat → P) (g : Option (Nat → P)) (r : Run P) (e : Nat → P) (j : Nat) (hj : j ≤ d)
    (h : Reach top d style ⟨o, f, rg, ep, la, g, r, .dest e 0⟩) : Reach top d style ⟨o, f, rg, over j e ep, la, g, r, .dest e j⟩ := by
  induction j with
  | zero => rw [over_zero]; exact h
  | succ j ih =>
    have := (ih (by omega)).step (.dest _ e j rfl (by omega))
    simp only [over_succ] at this
    exact this

/-- A motion from a planner at rest. -/
theorem reach_move (rg : Nat) (ep la : Nat → P) (g : Option (Nat → P)) (e : Nat → P)
    (h : Reach top d .trying ⟨none, true, rg, ep, la, g, .idle, .idle⟩) :
    Reach top d .trying ⟨none, false, 1, over d e ep, la, some e, .idle, .idle⟩ := by
  have h1 := h.step (.try_ _ e rfl rfl)
  have h2 := h1.step (.from_ _ e rfl)
  have h3 := h2.step (.check _ e rfl)
  have h4 := reach_dest none true rg ep la g .idle e d le_rfl h3
  have h5 := h4.step (.other _ e d rfl le_rfl)
  have h6 := h5.step (.plan _ e rfl)
  have h7 := h6.step (.enter _ e rfl rfl)
  have h8 := h7.step (.clear _ e rfl)
  have h9 := h8.step (.first _ rfl)
  have h10 := h9.step (.zero _ rfl)
  exact h10.step (.leave _ rfl)

/-- The loop on the way: the range is over after the last component. -/
theorem reach_way (rg : Nat) (hrg : rg ≠ top) (ep : Nat → P) (g : Option (Nat → P)) (m : Mover P) (n i : Nat) (hn : i + n + 1 = d) (la : Nat → P)
    (h : Reach top d style ⟨some .run, false, rg, ep, la, g, .comp i, m⟩) :
    ∃ la', Reach top d style ⟨some .run, false, rg + 1, ep, la', g, .comp d, m⟩ := by
  induction n generalizing i la with
  | zero =>
    have h1 := h.step (.way _ i rfl (by omega) hrg)
    have h2 := h1.step (.traj _ i (la i) rfl)
    have h3 := h2.step (.next _ i (la i) rfl (fun _ => by omega))
    have h4 := h3.step (.keep _ i (la i) rfl)
    rw [show i + 1 = d by omega] at h4
    exact ⟨_, h4⟩
  | succ n ih =>
    have h1 := h.step (.way _ i rfl (by omega) hrg)
    have h2 := h1.step (.traj _ i (la i) rfl)
    have h3 := h2.step (.stay _ i (la i) rfl)
    have h4 := h3.step (.keep _ i (la i) rfl)
    exact ih (i + 1) (by omega) _ h4

/-- `run` reaches the last range. -/
theorem reach_top (hd : 0 < d) (ep : Nat → P) (g : Option (Nat → P)) (n rg : Nat) (hn : rg + n = top) (la : Nat → P)
    (h : Reach top d style ⟨none, false, rg, ep, la, g, .idle, .idle⟩) :
    ∃ la', Reach top d style ⟨none, false, top, ep, la', g, .idle, .idle⟩ := by
  induction n generalizing rg la with
  | zero => rw [Nat.add_zero] at hn; subst hn; exact ⟨la, h⟩
  | succ n ih =>
    have h1 := h.step (.lock _ rfl rfl)
    have h2 := h1.step (.copy _ rfl)
    have h3 := h2.step (.time _ rfl)
    have h4 := h3.step (.test _ rfl)
    obtain ⟨la', h5⟩ := reach_way rg (by omega) ep g .idle (d - 1) 0 (by omega) la h4
    have h6 := h5.step (.done _ d rfl le_rfl)
    have h7 := h6.step (.unlock _ rfl)
    exact ih (rg + 1) (by omega) la' h7

/-- The last cycle of a motion to `a`, up to the flag in the first component. -/
theorem reach_fin (hd : 0 < d) (ht : 0 < top) (a : Nat → P) (rg : Nat) (ep la : Nat → P) :
    ∃ la', Reach top d .trying ⟨some .run, false, top, over d a ep, la', some a, .fin 0, .idle⟩ := by
  have h0 := reach_move (top := top) (d := d) rg ep la none a (.init rg ep la)
  obtain ⟨la', h1⟩ := reach_top hd _ _ (top - 1) 1 (by omega) la h0
  have h2 := h1.step (.lock _ rfl rfl)
  have h3 := h2.step (.copy _ rfl)
  have h4 := h3.step (.time _ rfl)
  have h5 := h4.step (.test _ rfl)
  exact ⟨la', h5.step (.last _ 0 rfl hd rfl)⟩

/-- The rest of the loop of the last cycle. -/
theorem reach_rest (ep : Nat → P) (g : Option (Nat → P)) (m : Mover P) (n i : Nat) (hn : i + n = d) (la : Nat → P)
    (h : Reach top d style ⟨some .run, true, top, ep, over i ep la, g, .comp i, m⟩) :
    Reach top d style ⟨some .run, true, top, ep, over d ep la, g, .comp d, m⟩ := by
  induction n generalizing i with
  | zero => rw [Nat.add_zero] at hn; subst hn; exact h
  | succ n ih =>
    have h1 := h.step (.last _ i rfl (by omega) rfl)
    have h2 := h1.step (.fin _ i rfl)
    have h3 := h2.step (.goTo _ i rfl)
    have h4 := h3.step (.keep _ i _ rfl)
    simp only [over_succ] at h4
    exact ih (i + 1) (by omega) h4

end

/-- **The planner jumps to the end of the next motion.**  `run` sets `finished` before it reads the end position.  When the next motion is ordered
in between, the last cycle of the motion to `a` puts out the position `b`, in all components, at once; the motion to `b` has not even
been started.  For all ends `a` and `b`, every number of components, both planners. -/
theorem jump_violated {P : Type} (top d : Nat) (ht : 0 < top) (hd : 0 < d) (a b : Nat → P) (rg : Nat) (ep la : Nat → P) :
    ∃ s : St P, Reach top d .trying s ∧ s.r = .idle ∧ s.finished = true ∧ s.goal = some a ∧ ∀ k, k < d → s.last k = b k := by
  obtain ⟨la', h0⟩ := reach_fin (P := P) hd ht a rg ep la
  have h1 := h0.step (.fin _ 0 rfl)
  have h2 := h1.step (.try_ _ b rfl rfl)
  have h3 := h2.step (.from_ _ b rfl)
  have h4 := h3.step (.check _ b rfl)
  have h5 := reach_dest (some .run) true top _ la' (some a) (.goTo 0) b d le_rfl h4
  have h6 := h5.step (.goTo _ 0 rfl)
  have h7 := h6.step (.keep _ 0 _ rfl)
  have h8 := reach_rest (top := top) (d := d) (style := .trying) (over d b (over d a ep)) (some a) (.dest b d) (d - 1) 1 (by omega) la' (by
    rw [← over_succ, over_zero]
    exact h7)
  have h9 := h8.step (.done _ d rfl le_rfl)
  have h10 := h9.step (.unlock _ rfl)
  refine ⟨_, h10, rfl, rfl, rfl, fun k hk => ?_⟩
  simp [over, hk]

/-- The three members of `races_on` do race: the flag, the end position, the last position. -/
theorem races_violated {P : Type} (top d : Nat) (ht : 0 < top) (hd : 0 < d) (a b : Nat → P) (rg : Nat) (ep la : Nat → P) (v : Var)
    (hv : v = .finished ∨ v = .endPos ∨ v = .last) : ∃ s : St P, Reach top d .trying s ∧ Race s v := by
  obtain ⟨la', h0⟩ := reach_fin (P := P) hd ht a rg ep la
  rcases hv with rfl | rfl | rfl
  · exact ⟨_, (h0.step (.try_ _ b rfl rfl)).step (.from_ _ b rfl), true, false, by simp [Run.uses], by simp [Mover.uses], by simp⟩
  · exact ⟨_, (((h0.step (.fin _ 0 rfl)).step (.try_ _ b rfl rfl)).step (.from_ _ b rfl)).step (.check _ b rfl), false, true,
      by simp [Run.uses], by simp [Mover.uses], by simp⟩
  · exact ⟨_, ((h0.step (.fin _ 0 rfl)).step (.goTo _ 0 rfl)).step (.try_ _ b rfl rfl), true, false, by simp [Run.uses],
      by simp [Mover.uses], by simp⟩

/-! ### Examples -/

/-- Constant acceleration, two components: the axis is sent to (1, 2), ordered to go on to (7, 8), and stands at (7, 8) one cycle later. -/
example : ∃ s : St Int, Reach 4 2 .trying s ∧ s.goal = some (fun k : Nat => (k : Int) + 1) ∧ s.last 0 = 7 ∧ s.last 1 = 8 := by
  obtain ⟨s, h1, _, _, h4, h5⟩ := jump_violated 4 2 (by decide) (by decide) (fun k : Nat => (k : Int) + 1) (fun k => (k : Int) + 7) 0 (fun _ => 0) (fun _ => 0)
  exact ⟨s, h1, h4, h5 0 (by decide), h5 1 (by decide)⟩
/-- The first motion of the style `asking`, as far as the flag: it is reachable, so the theorems about it say something. -/
example : ∃ s : St Int, Reach 6 1 .asking s ∧ s.finished = false ∧ s.goal = some (fun _ => 5) := by
  have h0 : Reach 6 1 .asking (init 0 (fun _ => (0 : Int)) (fun _ => 0)) := .init 0 _ _
  have h1 := h0.step (.ask _ (fun _ => 5) rfl rfl rfl)
  have h2 := h1.step (.answer _ _ rfl)
  have h3 := h2.step (.told _ _ _ rfl)
  have h4 := h3.step (.from_ _ _ rfl)
  have h5 := h4.step (.check _ _ rfl)
  have h6 := h5.step (.dest _ _ 0 rfl (by decide))
  have h7 := h6.step (.other _ _ 1 rfl le_rfl)
  have h8 := h7.step (.plan _ _ rfl)
  have h9 := h8.step (.enter _ _ rfl rfl)
  exact ⟨_, h9.step (.clear _ _ rfl), rfl, rfl⟩

end Verif.Planner.Handover
