/-!
The mutex of `Transition` (includes/eeros/control/Transition.hpp) when reading an input throws (C229).

`TransitionInBlock::run` (82-101) and `TransitionOutBlock::run` (114-150) lock and unlock the mutex of the container by hand.  The in block reads its input
while it holds the mutex; an unconnected input throws `NotConnectedFault` (Input.hpp:82-87), which leaves `run` without `unlock`.  `TimeDomain::run`
(src/control/TimeDomain.cpp:27-33) catches the fault and runs the block again in the next period.

Simplified: the values are left out (see `Transition.lean`).  A run is a list of actions; one step of a block executes its next action.  Locking a mutex
which the thread holds already is undefined behaviour.
-/
namespace Verif.Control.TransitionLock

/-- Kind of the transition: `steady`, `up` (slow to fast) or down (44-53). -/
inductive Mode where
  | steady | up | down
deriving DecidableEq

/-- The two blocks, each run by its own time domain. -/
inductive Side where
  | inp | out
deriving DecidableEq

inductive Act where
  | lock
  | unlock
  /-- `getIn().getSignal()` -/
  | read
  /-- copying of values in the container -/
  | work
  /-- `refresh = b` -/
  | refresh (b : Bool)
deriving DecidableEq

/-- The actions of a run; `r` is `refresh` when the run of the out block starts (122). -/
def prog : Mode → Side → Bool → List Act
  | .steady, .inp, _ => [.lock, .read, .unlock]
  | .up, .inp, _ => [.lock, .work, .read, .refresh true, .unlock]
  | .down, .inp, _ => [.lock, .read, .work, .unlock]
  | .steady, .out, _ => [.lock, .work, .unlock]
  | .up, .out, r => if r then [.lock, .work, .refresh false, .unlock, .work] else [.work]
  | .down, .out, _ => [.read, .lock, .work, .unlock, .work]

structure St where
  /-- who holds the mutex -/
  owner : Option Side
  refresh : Bool
  /-- the input of the block is connected -/
  conn : Side → Bool
  /-- the rest of the current run; `none`: between two runs -/
  todo : Side → Option (List Act)
  /-- completed runs -/
  done : Side → Nat
  /-- undefined behaviour occurred -/
  ub : Bool

def init : St := ⟨none, false, fun _ => true, fun _ => none, fun _ => 0, false⟩

def set {α : Type} (f : Side → α) (a : Side) (v : α) : Side → α := fun b => if b = a then v else f b

inductive Ev where
  /-- the time domain of the block goes on -/
  | step (a : Side)
  /-- the input of the block is connected or disconnected (Input.hpp:46-66) -/
  | connect (a : Side) (b : Bool)

/-- One action; `none` if the block waits for the mutex. -/
def step (m : Mode) (s : St) : Ev → Option St
  | .connect a b => some { s with conn := set s.conn a b }
  | .step a =>
    match s.todo a with
    | none => some { s with todo := set s.todo a (some (prog m a s.refresh)) }
    | some [] => some { s with todo := set s.todo a none, done := set s.done a (s.done a + 1) }
    | some (.lock :: l) =>
      match s.owner with
      | none => some { s with owner := some a, todo := set s.todo a (some l) }
      | some b => if b = a then some { s with ub := true } else none
    | some (.unlock :: l) =>
      if s.owner = some a then some { s with owner := none, todo := set s.todo a (some l) } else some { s with ub := true }
    | some (.read :: l) =>
      -- the fault ends the run
      if s.conn a then some { s with todo := set s.todo a (some l) } else some { s with todo := set s.todo a none }
    | some (.work :: l) => some { s with todo := set s.todo a (some l) }
    | some (.refresh b :: l) => some { s with refresh := b, todo := set s.todo a (some l) }

/-- Runs: any interleaving of the two time domains.  A block which waits does not move. -/
inductive Run (m : Mode) (s0 : St) : List Ev → St → Prop where
  | refl : Run m s0 [] s0
  | step (es s e s') : Run m s0 es s → step m s e = some s' → Run m s0 (es ++ [e]) s'

/-- The rest of a run is inside the locked section: the next operation on the mutex is `unlock`. -/
def holds : List Act → Bool
  | [] => false
  | .lock :: _ => false
  | .unlock :: _ => true
  | _ :: l => holds l

/-- `lock` and `unlock` alternate; `h`: the mutex is held now. -/
def Alt : Bool → List Act → Prop
  | h, [] => h = false
  | h, .lock :: l => h = false ∧ Alt true l
  | h, .unlock :: l => h = true ∧ Alt false l
  | h, _ :: l => Alt h l

theorem alt_holds : ∀ (l : List Act) (h : Bool), Alt h l → holds l = h
  | [], h, hl => by rw [Alt] at hl; rw [hl]; rfl
  | .lock :: l, h, hl => by rw [Alt] at hl; rw [hl.1]; rfl
  | .unlock :: l, h, hl => by rw [Alt] at hl; rw [hl.1]; rfl
  | .read :: l, h, hl => alt_holds l h hl
  | .work :: l, h, hl => alt_holds l h hl
  | .refresh _ :: l, h, hl => alt_holds l h hl

theorem prog_alt (m : Mode) (a : Side) (r : Bool) : Alt false (prog m a r) := by
  cases m <;> cases a <;> cases r <;> simp [prog, Alt]

def other : Side → Side
  | .inp => .out
  | .out => .inp

theorem other_ne (a : Side) : other a ≠ a := by cases a <;> decide
theorem eq_other {a b : Side} (h : b ≠ a) : b = other a := by cases a <;> cases b <;> first | rfl | exact absurd rfl h

/-- The mutex is held by `a` exactly if `a` is in its locked section, and no block reads its input there without being connected. -/
structure Inv (s : St) : Prop where
  alt : ∀ a l, s.todo a = some l → Alt (decide (s.owner = some a)) l
  idle : ∀ a, s.todo a = none → s.owner ≠ some a
  ub : s.ub = false

theorem set_same {α : Type} (f : Side → α) (a : Side) (v : α) : set f a v a = v := by simp [set]
theorem set_other {α : Type} (f : Side → α) (a b : Side) (v : α) (h : b ≠ a) : set f a v b = f b := by simp [set, h]

/-- The out block never reads its input inside the locked section. -/
def Safe (s : St) : Prop := ∀ l, s.todo .out = some l → s.owner = some .out → .read ∉ l

theorem inv_step (m : Mode) (s s' : St) (e : Ev) (h : Inv s) (hsafe : Safe s) (hc : s.conn .inp = true) (hs : step m s e = some s') : Inv s' := by
  cases e with
  | connect a b => simp only [step, Option.some.injEq] at hs; subst hs; exact ⟨h.alt, h.idle, h.ub⟩
  | step a =>
    simp only [step] at hs
    -- effects which change neither the owner nor the lock structure
    have keep : ∀ (l l' : List Act) (t : St), s.todo a = some l → (∀ b, Alt b l → Alt b l') → t.owner = s.owner → t.ub = s.ub →
        t.todo = set s.todo a (some l') → Inv t := by
      intro l l' t hl hh ho hu ht
      refine ⟨?_, ?_, by rw [hu]; exact h.ub⟩
      · intro b l2 hb
        rw [ht] at hb
        rw [ho]
        by_cases hba : b = a
        · subst hba; rw [set_same] at hb; cases hb; exact hh _ (h.alt b l hl)
        · rw [set_other _ _ _ _ hba] at hb; exact h.alt b l2 hb
      · intro b hb
        rw [ht] at hb
        rw [ho]
        by_cases hba : b = a
        · subst hba; rw [set_same] at hb; cases hb
        · rw [set_other _ _ _ _ hba] at hb; exact h.idle b hb
    split at hs
    · rename_i ht
      simp only [Option.some.injEq] at hs; subst hs
      refine ⟨?_, ?_, h.ub⟩
      · intro b l hb
        by_cases hba : b = a
        · subst hba
          simp only [set_same, Option.some.injEq] at hb
          subst hb
          have := h.idle b ht
          simp only [this, decide_false]
          exact prog_alt m b s.refresh
        · simp only [set_other _ _ _ _ hba] at hb; exact h.alt b l hb
      · intro b hb
        by_cases hba : b = a
        · subst hba; simp only [set_same] at hb; cases hb
        · simp only [set_other _ _ _ _ hba] at hb; exact h.idle b hb
    · rename_i ht
      simp only [Option.some.injEq] at hs; subst hs
      have ha := h.alt a [] ht
      refine ⟨?_, ?_, h.ub⟩
      · intro b l hb
        by_cases hba : b = a
        · subst hba; simp only [set_same] at hb; cases hb
        · simp only [set_other _ _ _ _ hba] at hb; exact h.alt b l hb
      · intro b hb
        by_cases hba : b = a
        · subst hba; simpa [Alt] using ha
        · simp only [set_other _ _ _ _ hba] at hb; exact h.idle b hb
    · rename_i l ht
      have ha := h.alt a _ ht
      simp only [Alt, decide_eq_false_iff_not] at ha
      split at hs
      · rename_i ho
        simp only [Option.some.injEq] at hs; subst hs
        refine ⟨?_, ?_, h.ub⟩
        · intro b l2 hb
          by_cases hba : b = a
          · subst hba; simp only [set_same, Option.some.injEq] at hb; subst hb; simpa using ha.2
          · simp only [set_other _ _ _ _ hba] at hb
            have := h.alt b l2 hb
            simpa [ho, Ne.symm hba] using this
        · intro b hb
          by_cases hba : b = a
          · subst hba; simp only [set_same] at hb; cases hb
          · simpa using Ne.symm hba
      · rename_i b ho
        split at hs
        · rename_i hba; subst hba; exact absurd ho ha.1
        · cases hs
    · rename_i l ht
      have ha := h.alt a _ ht
      simp only [Alt, decide_eq_true_eq] at ha
      rw [if_pos ha.1] at hs
      simp only [Option.some.injEq] at hs; subst hs
      refine ⟨?_, by simp, h.ub⟩
      intro b l2 hb
      by_cases hba : b = a
      · subst hba; simp only [set_same, Option.some.injEq] at hb; subst hb; simpa using ha.2
      · simp only [set_other _ _ _ _ hba] at hb
        have := h.alt b l2 hb
        have hn : s.owner ≠ some b := by rw [ha.1]; simpa using Ne.symm hba
        simpa [hn] using this
    · rename_i l ht
      split at hs
      · simp only [Option.some.injEq] at hs; subst hs
        exact keep _ l _ ht (fun b hb => hb) rfl rfl rfl
      · rename_i hconn
        have hao : a = .out := by cases a <;> first | rfl | exact absurd hc hconn
        subst hao
        simp only [Option.some.injEq] at hs; subst hs
        have hno : s.owner ≠ some .out := fun ho => hsafe _ ht ho (by simp)
        refine ⟨?_, ?_, h.ub⟩
        · intro b l2 hb
          by_cases hba : b = .out
          · subst hba; simp only [set_same] at hb; cases hb
          · simp only [set_other _ _ _ _ hba] at hb; exact h.alt b l2 hb
        · intro b hb
          by_cases hba : b = .out
          · subst hba; exact hno
          · simp only [set_other _ _ _ _ hba] at hb; exact h.idle b hb
    · rename_i l ht
      simp only [Option.some.injEq] at hs; subst hs
      exact keep _ l _ ht (fun b hb => hb) rfl rfl rfl
    · rename_i c l ht
      simp only [Option.some.injEq] at hs; subst hs
      exact keep _ l _ ht (fun b hb => hb) rfl rfl rfl

/-- Reading happens only before locking. -/
def Early : List Act → Prop
  | [] => True
  | .lock :: l => .read ∉ l
  | _ :: l => Early l

theorem early_of : ∀ l : List Act, .read ∉ l → Early l
  | [], _ => trivial
  | .lock :: l, h => fun hm => h (by simp [hm])
  | .unlock :: l, h => early_of l (fun hm => h (by simp [hm]))
  | .read :: l, h => early_of l (fun hm => h (by simp [hm]))
  | .work :: l, h => early_of l (fun hm => h (by simp [hm]))
  | .refresh _ :: l, h => early_of l (fun hm => h (by simp [hm]))

/-- The out block reads its input before it locks the mutex. -/
def OutInv (s : St) : Prop := ∀ l, s.todo .out = some l → if s.owner = some .out then .read ∉ l else Early l

theorem out_step (m : Mode) (s s' : St) (e : Ev) (h : Inv s) (ho : OutInv s) (hs : step m s e = some s') : OutInv s' := by
  cases e with
  | connect a b => simp only [step, Option.some.injEq] at hs; subst hs; exact ho
  | step a =>
    simp only [step] at hs
    cases a with
    | inp =>
      -- only the owner can change: to the in block or from it
      have keep : ∀ t : St, t.todo .out = s.todo .out → (t.owner = some .out ↔ s.owner = some .out) → OutInv t := by
        intro t h1 h2 l hl
        rw [h1] at hl
        have := ho l hl
        by_cases hown : s.owner = some .out
        · rw [if_pos hown] at this; rw [if_pos (h2.2 hown)]; exact this
        · rw [if_neg hown] at this; rw [if_neg (fun hh => hown (h2.1 hh))]; exact this
      split at hs
      · simp only [Option.some.injEq] at hs; subst hs; exact keep _ (by simp [set]) Iff.rfl
      · simp only [Option.some.injEq] at hs; subst hs; exact keep _ (by simp [set]) Iff.rfl
      · split at hs
        · rename_i hown
          simp only [Option.some.injEq] at hs; subst hs; exact keep _ (by simp [set]) (by simp [hown])
        · split at hs
          · simp only [Option.some.injEq] at hs; subst hs; exact keep _ rfl Iff.rfl
          · cases hs
      · split at hs
        · rename_i hown
          simp only [Option.some.injEq] at hs; subst hs; exact keep _ (by simp [set]) (by simp [hown])
        · simp only [Option.some.injEq] at hs; subst hs; exact keep _ rfl Iff.rfl
      · split at hs <;>
        · simp only [Option.some.injEq] at hs; subst hs; exact keep _ (by simp [set]) Iff.rfl
      · simp only [Option.some.injEq] at hs; subst hs; exact keep _ (by simp [set]) Iff.rfl
      · simp only [Option.some.injEq] at hs; subst hs; exact keep _ (by simp [set]) Iff.rfl
    | out =>
      split at hs
      · rename_i ht
        simp only [Option.some.injEq] at hs; subst hs
        intro l hl
        simp only [set_same, Option.some.injEq] at hl
        subst hl
        rw [if_neg (h.idle .out ht)]
        cases m <;> cases s.refresh <;> simp [prog, Early]
      · simp only [Option.some.injEq] at hs; subst hs
        intro l hl
        simp [set] at hl
      · rename_i l ht
        have h1 := ho _ ht
        split at hs
        · rename_i hown
          simp only [Option.some.injEq] at hs; subst hs
          intro l2 hl
          simp only [set_same, Option.some.injEq] at hl
          subst hl
          rw [hown] at h1
          simpa [Early] using h1
        · split at hs
          · simp only [Option.some.injEq] at hs; subst hs; exact ho
          · cases hs
      · rename_i l ht
        have h1 := ho _ ht
        split at hs
        · rename_i hown
          rw [if_pos hown] at h1
          simp only [Option.some.injEq] at hs; subst hs
          intro l2 hl
          simp only [set_same, Option.some.injEq] at hl
          subst hl
          rw [if_neg (by simp)]
          exact early_of _ (fun hm => h1 (by simp [hm]))
        · simp only [Option.some.injEq] at hs; subst hs; exact ho
      all_goals
        rename_i l ht
        have h1 := ho _ ht
        have key : ∀ t : St, t.owner = s.owner → t.todo = set s.todo .out (some l) → OutInv t := by
          intro t e1 e2 l2 hl
          rw [e2, set_same, Option.some.injEq] at hl
          subst hl
          rw [e1]
          by_cases hown : s.owner = some .out
          · rw [if_pos hown] at h1 ⊢; exact fun hm => h1 (by simp [hm])
          · rw [if_neg hown] at h1 ⊢; exact h1
        first
          | (simp only [Option.some.injEq] at hs; subst hs; exact key _ rfl rfl)
          | (split at hs
             · simp only [Option.some.injEq] at hs; subst hs; exact key _ rfl rfl
             · simp only [Option.some.injEq] at hs; subst hs
               intro l2 hl
               simp [set] at hl)

theorem reach_inv (m : Mode) (es : List Ev) (s : St) (h : Run m init es s) (hc : .connect .inp false ∉ es) :
    Inv s ∧ OutInv s ∧ s.conn .inp = true := by
  induction h with
  | refl => exact ⟨⟨by simp [init], by simp [init], rfl⟩, by simp [OutInv, init], rfl⟩
  | step es s e s' _ hs ih =>
    simp only [List.mem_append, List.mem_singleton, not_or] at hc
    obtain ⟨h1, h2, h3⟩ := ih hc.1
    have hsafe : Safe s := by
      intro l hl hown
      have := h2 l hl
      rwa [if_pos hown] at this
    refine ⟨inv_step m s s' e h1 hsafe h3 hs, out_step m s s' e h1 h2 hs, ?_⟩
    cases e with
    | connect a b =>
      simp only [step, Option.some.injEq] at hs; subst hs
      cases a with
      | inp =>
        cases b with
        | true => simp [set]
        | false => exact absurd rfl hc.2
      | out => simpa [set] using h3
    | step a =>
      have : s'.conn = s.conn := by
        simp only [step] at hs
        split at hs <;> (try split at hs) <;> (try split at hs) <;> first | (cases hs; done) | (simp only [Option.some.injEq] at hs; subst hs; rfl)
      rw [this]; exact h3

/-! ### With a connected input -/

/-- As long as the input of the in block is connected the mutex is used properly, whatever happens to the input of the out block: no undefined behaviour, and the
mutex is held only by a block which is in its locked section, so never between two runs. -/
theorem connected_partial (m : Mode) (es : List Ev) (s : St) (h : Run m init es s) (hc : .connect .inp false ∉ es) :
    s.ub = false ∧ ∀ a, s.owner = some a → ∃ l, s.todo a = some l ∧ holds l = true := by
  obtain ⟨h1, -, -⟩ := reach_inv m es s h hc
  refine ⟨h1.ub, fun a ha => ?_⟩
  cases ht : s.todo a with
  | none => exact absurd ha (h1.idle a ht)
  | some l =>
    have := h1.alt a l ht
    rw [ha] at this
    exact ⟨l, rfl, by simpa using alt_holds l _ this⟩

theorem run_head {m : Mode} {s s1 : St} {e : Ev} (hs : step m s e = some s1) {es : List Ev} {s2 : St} (h : Run m s1 es s2) : Run m s (e :: es) s2 := by
  induction h with
  | refl => exact Run.step [] s e s1 .refl hs
  | step es s' e' s'' _ hs' ih => exact Run.step (e :: es) s' e' s'' ih hs'

theorem releases (m : Mode) (b : Side) : ∀ (l : List Act) (s : St), s.todo b = some l → s.owner = some b → Alt true l →
    (b = .inp → s.conn .inp = true) → (b = .out → .read ∉ l) →
    ∃ n s', n ≤ l.length ∧ Run m s (List.replicate n (.step b)) s' ∧ s'.owner = none ∧ s'.todo (other b) = s.todo (other b) := by
  intro l
  induction l with
  | nil => intro s _ _ h; simp [Alt] at h
  | cons x l ih =>
    intro s ht ho ha hi hout
    have go : ∀ s1 : St, step m s (.step b) = some s1 → s1.todo = set s.todo b (some l) → s1.owner = some b → Alt true l → s1.conn = s.conn →
        ∃ n s', n ≤ (x :: l).length ∧ Run m s (List.replicate n (.step b)) s' ∧ s'.owner = none ∧ s'.todo (other b) = s.todo (other b) := by
      intro s1 e1 e2 e3 e4 e5
      obtain ⟨n, s', hn, hr, h1, h2⟩ := ih s1 (by rw [e2, set_same]) e3 e4 (by rw [e5]; exact hi) (fun hb hm => hout hb (by simp [hm]))
      refine ⟨n + 1, s', by simpa using hn, by rw [List.replicate_succ]; exact run_head e1 hr, h1, ?_⟩
      rw [h2, e2, set_other _ _ _ _ (other_ne b)]
    cases x with
    | lock => simp [Alt] at ha
    | unlock =>
      have e1 : step m s (.step b) = some { s with owner := none, todo := set s.todo b (some l) } := by simp [step, ht, ho]
      exact ⟨1, _, by simp, run_head e1 .refl, rfl, by simp [set_other _ _ _ _ (other_ne b)]⟩
    | read =>
      have hcb : s.conn b = true := by
        cases b with
        | inp => exact hi rfl
        | out => exact absurd (List.mem_cons_self) (hout rfl)
      exact go { s with todo := set s.todo b (some l) } (by simp [step, ht, hcb]) rfl ho ha rfl
    | work => exact go { s with todo := set s.todo b (some l) } (by simp [step, ht]) rfl ho ha rfl
    | refresh c => exact go { s with refresh := c, todo := set s.todo b (some l) } (by simp [step, ht]) rfl ho ha rfl

/-- As long as the input of the in block is connected, a block which waits for the mutex can go on after finitely many actions of the other block, which cannot
be blocked meanwhile. -/
theorem waiting_ends_partial (m : Mode) (es : List Ev) (s : St) (h : Run m init es s) (hc : .connect .inp false ∉ es) (a : Side)
    (hw : step m s (.step a) = none) :
    ∃ l n s', s.todo (other a) = some l ∧ n ≤ l.length ∧ Run m s (List.replicate n (.step (other a))) s' ∧ step m s' (.step a) ≠ none := by
  obtain ⟨h1, h2, h3⟩ := reach_inv m es s h hc
  have hw' : ∃ l0, s.todo a = some (.lock :: l0) ∧ s.owner = some (other a) := by
    simp only [step] at hw
    split at hw <;> (try split at hw) <;> (try split at hw) <;> first | (cases hw; done) | skip
    rename_i ht _ b ho hba
    exact ⟨_, ht, by rw [ho, eq_other hba]⟩
  obtain ⟨l0, ht, ho⟩ := hw'
  cases hto : s.todo (other a) with
  | none => exact absurd ho (h1.idle _ hto)
  | some l =>
    have halt := h1.alt _ l hto
    rw [ho] at halt
    obtain ⟨n, s', hn, hr, h4, h5⟩ := releases m (other a) l s hto ho (by simpa using halt) (fun _ => h3)
      (fun hb => by
        rw [hb] at hto ho
        have := h2 l hto
        rwa [if_pos ho] at this)
    refine ⟨l, n, s', rfl, hn, hr, ?_⟩
    have hoo : other (other a) = a := by cases a <;> rfl
    rw [hoo, ht] at h5
    simp [step, h5, h4]

/-! ### Without -/

/-- The in block left `run` holding the mutex. -/
def Stuck (s : St) : Prop := s.owner = some .inp ∧ (s.todo .inp = none ∨ ∃ l, s.todo .inp = some (.lock :: l))

theorem stuck_step (m : Mode) (s s' : St) (e : Ev) (h : Stuck s) (hub : Alt false ((s.todo .out).getD [])) (hs : step m s e = some s') :
    Stuck s' ∧ Alt false ((s'.todo .out).getD []) ∧ s'.done .inp = s.done .inp := by
  obtain ⟨ho, ht⟩ := h
  cases e with
  | connect a b => simp only [step, Option.some.injEq] at hs; subst hs; exact ⟨⟨ho, ht⟩, hub, rfl⟩
  | step a =>
    simp only [step] at hs
    cases a with
    | inp =>
      rcases ht with ht | ⟨l, ht⟩
      · rw [ht] at hs
        simp only [Option.some.injEq] at hs; subst hs
        refine ⟨⟨ho, Or.inr ?_⟩, by simpa [set] using hub, rfl⟩
        simp only [set_same]
        cases m <;> exact ⟨_, rfl⟩
      · rw [ht] at hs
        simp only [ho, if_true, Option.some.injEq] at hs; subst hs
        exact ⟨⟨rfl, Or.inr ⟨l, ht⟩⟩, hub, rfl⟩
    | out =>
      have key : ∀ t : St, t.owner = s.owner → t.todo .inp = s.todo .inp → Alt false ((t.todo .out).getD []) → t.done .inp = s.done .inp →
          Stuck t ∧ Alt false ((t.todo .out).getD []) ∧ t.done .inp = s.done .inp :=
        fun t e1 e2 e3 e4 => ⟨⟨by rw [e1]; exact ho, by rw [e2]; exact ht⟩, e3, e4⟩
      split at hs
      · simp only [Option.some.injEq] at hs; subst hs
        exact key _ rfl (by simp [set]) (by simpa [set] using prog_alt m .out s.refresh) rfl
      · simp only [Option.some.injEq] at hs; subst hs
        exact key _ rfl (by simp [set]) (by simp [set, Alt]) (by simp [set])
      · simp [ho] at hs
      · rename_i l hto
        rw [hto] at hub
        simp [Alt] at hub
      all_goals
        rename_i l hto
        rw [hto] at hub
        first
          | (simp only [Option.some.injEq] at hs; subst hs; exact key _ rfl (by simp [set]) (by simpa [set, Alt] using hub) rfl)
          | (split at hs
             · simp only [Option.some.injEq] at hs; subst hs; exact key _ rfl (by simp [set]) (by simpa [set, Alt] using hub) rfl
             · simp only [Option.some.injEq] at hs; subst hs; exact key _ rfl (by simp [set]) (by simp [set, Alt]) rfl)

theorem stuck_run (m : Mode) (s s' : St) (es : List Ev) (h : Stuck s) (hub : Alt false ((s.todo .out).getD [])) (hr : Run m s es s') :
    Stuck s' ∧ Alt false ((s'.todo .out).getD []) ∧ s'.done .inp = s.done .inp := by
  induction hr with
  | refl => exact ⟨h, hub, rfl⟩
  | step es s1 e s2 _ hs ih =>
    obtain ⟨a, b, c⟩ := stuck_step m s1 s2 e ih.1 ih.2.1 hs
    exact ⟨a, b, c.trans ih.2.2⟩

/-- Completed runs of the out block, counting one which needs the mutex no more as completed. -/
def lead (s : St) : Nat := s.done .out + match s.todo .out with | none => 0 | some l => if .lock ∈ l then 0 else 1

theorem lead_step (m : Mode) (hm : m ≠ .up) (s s' : St) (e : Ev) (h : Stuck s) (hs : step m s e = some s') : lead s' ≤ lead s := by
  cases e with
  | connect a b => simp only [step, Option.some.injEq] at hs; subst hs; exact Nat.le_refl _
  | step a =>
    simp only [step] at hs
    cases a with
    | inp =>
      obtain ⟨ho, ht⟩ := h
      rcases ht with ht | ⟨l, ht⟩
      · rw [ht] at hs
        simp only [Option.some.injEq] at hs; subst hs
        simp [lead, set]
      · rw [ht] at hs
        simp only [ho, if_true, Option.some.injEq] at hs; subst hs
        simp [lead]
    | out =>
      split at hs
      · rename_i hto
        simp only [Option.some.injEq] at hs; subst hs
        simp only [lead, set_same, hto]
        cases m with
        | up => exact absurd rfl hm
        | steady => simp [prog]
        | down => simp [prog]
      · rename_i hto
        simp only [Option.some.injEq] at hs; subst hs
        simp [lead, set, hto]
      · simp [h.1] at hs
      · split at hs
        · rename_i ho; rw [h.1] at ho; cases ho
        · simp only [Option.some.injEq] at hs; subst hs; exact Nat.le_refl _
      all_goals
        rename_i l hto
        first
          | (simp only [Option.some.injEq] at hs; subst hs; simp [lead, set, hto]; done)
          | (split at hs
             · simp only [Option.some.injEq] at hs; subst hs; simp [lead, set, hto]
             · simp only [Option.some.injEq] at hs; subst hs; simp [lead, set, hto])

/-- The in block reads its input only inside the locked section. -/
def Late : List Act → Prop
  | [] => True
  | .read :: l => holds l = true ∧ Late l
  | _ :: l => Late l

theorem late_step (m : Mode) (s s' : St) (e : Ev) (h : ∀ l, s.todo .inp = some l → Late l) (hs : step m s e = some s') :
    ∀ l, s'.todo .inp = some l → Late l := by
  cases e with
  | connect a b => simp only [step, Option.some.injEq] at hs; subst hs; exact h
  | step a =>
    simp only [step] at hs
    cases a with
    | out =>
      have : s'.todo .inp = s.todo .inp := by
        split at hs <;> (try split at hs) <;> (try split at hs) <;> first | (cases hs; done) | (simp only [Option.some.injEq] at hs; subst hs; simp [set])
      rw [this]; exact h
    | inp =>
      split at hs <;> (try split at hs) <;> (try split at hs) <;> first
        | (cases hs; done)
        | (simp only [Option.some.injEq] at hs; subst hs; intro l hl; simp [set] at hl; done)
        | (simp only [Option.some.injEq] at hs; subst hs; exact h)
        | (rename_i ht
           simp only [Option.some.injEq] at hs; subst hs
           intro l hl
           simp only [set_same, Option.some.injEq] at hl
           subst hl
           first
             | (cases m <;> simp [prog, Late, holds]; done)
             | (have := h _ ht; simpa [Late] using this)
             | (have := h _ ht; exact this.2))
        | (rename_i ht _ _
           simp only [Option.some.injEq] at hs; subst hs
           intro l hl
           simp only [set_same, Option.some.injEq] at hl
           subst hl
           have := h _ ht
           simpa [Late] using this)
        | (rename_i ht _
           simp only [Option.some.injEq] at hs; subst hs
           intro l hl
           simp only [set_same, Option.some.injEq] at hl
           subst hl
           first
             | (have := h _ ht; simpa [Late] using this)
             | (have := h _ ht; exact this.2))

theorem late_run (m : Mode) (es : List Ev) (s : St) (h : Run m init es s) : ∀ l, s.todo .inp = some l → Late l := by
  induction h with
  | refl => simp [init]
  | step es s e s' _ hs ih => exact late_step m s s' e ih hs

/-- One read of an input which is not connected while the mutex is held, and the transition is dead for good, even if the input is connected afterwards: the
mutex is never released, the in block never completes a run again, and (for a steady transition and one from fast to slow) neither does the out block, except
for a run which was already past its locked section. -/
theorem unconnected_violated (m : Mode) (es : List Ev) (s s1 : St) (h : Run m init es s) (hc : .connect .inp false ∉ es)
    (l : List Act) (hr : s.todo .inp = some (.read :: l)) (h1 : step m { s with conn := set s.conn .inp false } (.step .inp) = some s1) :
    ∀ es2 s2, Run m s1 es2 s2 → s2.owner = some .inp ∧ s2.done .inp = s1.done .inp ∧ (m ≠ .up → s2.done .out ≤ s1.done .out + 1) := by
  obtain ⟨hi, -, -⟩ := reach_inv m es s h hc
  have hlate := late_run m es s h _ hr
  have halt := hi.alt _ _ hr
  have hown : s.owner = some .inp := by
    have := alt_holds _ _ halt
    simp only [holds, hlate.1] at this
    simpa using this.symm
  have e1 : s1 = { s with conn := set s.conn .inp false, todo := set s.todo .inp none } := by
    simp only [step, hr, set_same, Bool.false_eq_true, if_false, Option.some.injEq] at h1
    exact h1.symm
  have hstuck : Stuck s1 := by rw [e1]; exact ⟨hown, Or.inl (by simp [set])⟩
  have hout : Alt false ((s1.todo .out).getD []) := by
    have : s1.todo .out = s.todo .out := by rw [e1]; simp [set]
    rw [this]
    cases ht : s.todo .out with
    | none => simp [Alt]
    | some l2 =>
      have := hi.alt _ l2 ht
      rw [hown] at this
      simpa using this
  intro es2 s2 h2
  obtain ⟨a, -, c⟩ := stuck_run m s1 s2 es2 hstuck hout h2
  refine ⟨a.1, c, fun hm => ?_⟩
  have hlead : lead s2 ≤ lead s1 := by
    clear a c
    induction h2 with
    | refl => exact Nat.le_refl _
    | step es' s3 e s4 hr3 hs ih => exact Nat.le_trans (lead_step m hm s3 s4 e (stuck_run m s1 s3 es' hstuck hout hr3).1 hs) ih
  have hle : lead s1 ≤ s1.done .out + 1 := by
    simp only [lead]
    split
    · omega
    · split <;> omega
  have : s2.done .out ≤ lead s2 := by simp only [lead]; omega
  omega

/-- And the next run of the in block locks the mutex a second time. -/
theorem relock_violated (m : Mode) (s : St) (h : Stuck s) (ht : s.todo .inp = none) :
    ∃ s', Run m s [.step .inp, .step .inp] s' ∧ s'.ub = true := by
  have hp : ∃ l, prog m .inp s.refresh = .lock :: l := by cases m <;> exact ⟨_, rfl⟩
  obtain ⟨l, hp⟩ := hp
  have e1 : step m s (.step .inp) = some { s with todo := set s.todo .inp (some (.lock :: l)) } := by simp [step, ht, hp]
  exact ⟨_, run_head e1 (run_head (s1 := { s with todo := set s.todo .inp (some (.lock :: l)), ub := true }) (by simp [step, set, h.1]) .refl), rfl⟩

/-! ### Concrete cases -/

/-- Runs of events, for examples. -/
def exec (m : Mode) : St → List Ev → Option St
  | s, [] => some s
  | s, e :: es => (step m s e).bind (fun s' => exec m s' es)

theorem run_exec (m : Mode) : ∀ (es : List Ev) (s s' : St), exec m s es = some s' → Run m s es s'
  | [], s, s', h => by simp only [exec, Option.some.injEq] at h; subst h; exact .refl
  | e :: es, s, s', h => by
    simp only [exec] at h
    cases hs : step m s e with
    | none => rw [hs] at h; cases h
    | some s1 => rw [hs] at h; exact run_head hs (run_exec m es s1 s' h)

def reached (m : Mode) (es : List Ev) : St := (exec m init es).getD init

theorem reached_run (m : Mode) (es : List Ev) (h : (exec m init es).isSome = true) : Run m init es (reached m es) := by
  apply run_exec
  cases he : exec m init es with
  | none => rw [he] at h; cases h
  | some r => simp [reached, he]

/-- Both blocks run, the out block waits for the in block, which holds the mutex and is about to read. -/
def both : List Ev := [.step .inp, .step .out, .step .inp]

example : step .steady (reached .steady both) (.step .out) = none := by
  have : (step .steady (reached .steady both) (.step .out)).isSome = false := by decide +kernel
  cases h : step .steady (reached .steady both) (.step .out) with
  | none => rfl
  | some r => rw [h] at this; cases this
example : (reached .steady both).todo .inp = some [.read, .unlock] := by decide +kernel
example : (reached .steady both).ub = false ∧ ∀ a, (reached .steady both).owner = some a → ∃ l, (reached .steady both).todo a = some l ∧ holds l = true :=
  connected_partial .steady both _ (reached_run _ _ (by decide +kernel)) (by simp [both])
example (hw : step .steady (reached .steady both) (.step .out) = none) :
    ∃ l n s', (reached .steady both).todo .inp = some l ∧ n ≤ l.length ∧ Run .steady (reached .steady both) (List.replicate n (.step .inp)) s' ∧
      step .steady s' (.step .out) ≠ none :=
  waiting_ends_partial .steady both _ (reached_run _ _ (by decide +kernel)) (by simp [both]) .out hw
/-- After two steps of the in block the out block goes on. -/
example : ((exec .steady init (both ++ [.step .inp, .step .inp, .step .out, .step .out, .step .out, .step .out])).map (fun s => s.done .out)) = some 1 := by
  decide +kernel

/-- The input is disconnected: the out block never gets the mutex. -/
example (s1 : St) (h1 : step .steady { reached .steady both with conn := set (reached .steady both).conn .inp false } (.step .inp) = some s1) :
    ∀ es2 s2, Run .steady s1 es2 s2 → s2.owner = some .inp ∧ s2.done .inp = s1.done .inp ∧ (Mode.steady ≠ .up → s2.done .out ≤ s1.done .out + 1) :=
  unconnected_violated .steady both _ s1 (reached_run _ _ (by decide +kernel)) (by simp [both]) [.unlock] (by decide +kernel) h1
example : (exec .steady init (both ++ [.connect .inp false, .step .inp, .connect .inp true, .step .inp, .step .inp])).map (fun s => (s.owner, s.done .inp, s.ub)) =
    some (some .inp, 0, true) := by decide +kernel
example : ∃ s', Run .down (reached .down (both ++ [.connect .inp false, .step .inp])) [.step .inp, .step .inp] s' ∧ s'.ub = true :=
  relock_violated .down _ ⟨by decide +kernel, Or.inl (by decide +kernel)⟩ (by decide +kernel)

/-- The handover of a new sample (slow to fast), when the blocks run one after the other from any state in which both are between two runs: a run of the
in block is noticed by the next run of the out block, which then takes the mutex once; without a new sample the out block does not touch the mutex. -/
theorem handover (s : St) (ho : s.owner = none) (hi : s.todo .inp = none) (hu : s.todo .out = none) (hc : s.conn .inp = true) :
    (∃ s', exec .up s (List.replicate 7 (.step .inp)) = some s' ∧ s'.refresh = true ∧ s'.owner = none ∧ s'.done .inp = s.done .inp + 1 ∧
      (∃ s1, exec .up s' (List.replicate 2 (.step .out)) = some s1 ∧ s1.owner = some .out) ∧
      ∃ s2, exec .up s' (List.replicate 7 (.step .out)) = some s2 ∧ s2.refresh = false ∧ s2.owner = none ∧ s2.done .out = s.done .out + 1) ∧
    (s.refresh = false → ∃ s', exec .up s (List.replicate 3 (.step .out)) = some s' ∧ s'.refresh = false ∧ s'.done .out = s.done .out + 1 ∧
      ∀ k ≤ 3, ∃ s1, exec .up s (List.replicate k (.step .out)) = some s1 ∧ s1.owner = none) := by
  constructor
  · simp [List.replicate, exec, step, prog, set, hi, hu, hc, ho]
  · intro hr
    have h : ∃ s', exec .up s (List.replicate 3 (.step .out)) = some s' ∧ s'.refresh = false ∧ s'.done .out = s.done .out + 1 := by
      simp [List.replicate, exec, step, prog, set, hu, hr]
    obtain ⟨s', h1, h2, h3⟩ := h
    refine ⟨s', h1, h2, h3, fun k hk => ?_⟩
    match k, hk with
    | 0, _ => exact ⟨_, rfl, ho⟩
    | 1, _ => simp [List.replicate, exec, step, prog, set, hu, hr, ho]
    | 2, _ => simp [List.replicate, exec, step, prog, set, hu, hr, ho]
    | 3, _ => simp [List.replicate, exec, step, prog, set, hu, hr, ho]

example : init.owner = none ∧ init.todo .inp = none ∧ init.todo .out = none ∧ init.conn .inp = true ∧ init.refresh = false := by decide

end Verif.Control.TransitionLock
