import Verif.Common.LinSim
import Verif.Control.TransitionProps
import Mathlib.Tactic.ByContra
/-!
`Transition` (includes/eeros/control/Transition.hpp) with its two blocks in two threads, access by access (C251).

`Transition.lean` describes an execution as a list of whole runs of the two blocks.  Here every access to a member of the container is a step of its own
(82-101, 114-150); a `Signal` is copied value first, then time stamp.  The out block of a transition from slow to fast looks at `refresh` before it takes the
mutex (122).  Simplified: memory is sequentially consistent although `refresh` is neither atomic nor always read under the mutex (C213 decides that race);
the search in the vector (140-143) is one step, the thread holds the mutex; the inputs are connected (C229); the members of the out block and its output, which
only its own thread uses, change in one step at the end of the run (128-136).
-/
namespace Verif.Control.TransitionConc
open Verif.Common.Monitor Verif.Common.LinSim Verif.Control.Transition

variable {K : Type} [Field K] [LinearOrder K] [FloorRing K]

inductive Side where
  | inp | out
deriving DecidableEq

/-- What a run gives: nothing (in block), the published signal, or undefined behaviour. -/
inductive Res (K : Type) where
  | ok
  | sig (s : Sig K)
  | undefined

def Res.of : Option (Sig K) → Res K
  | some s => .sig s
  | none => .undefined

/-- The sequential object: whole runs, as in `Transition.lean`. -/
def seq (s : St K) : Op K → St K × Res K
  | .inp sig => (runIn s sig, .ok)
  | .out t => match runOut s t with
    | some (s', o) => (s', .sig o)
    | none => (s, .undefined)

/-- The in block: what it does next.  `prevV`, `prevT` (90), `inV`, `inT` (85, 91), `mark` (92), `push` (97). -/
inductive IPh (K : Type) where
  | idle
  | wait (sig : Sig K)
  | prevV (sig : Sig K)
  | prevT (sig : Sig K)
  | inV (sig : Sig K)
  | inT (sig : Sig K)
  | mark (sig : Sig K)
  | push (sig : Sig K)
  | unlock (sig : Sig K)
  | left (sig : Sig K)

/-- The out block: what it does next.  `test` (122), `cpV`, `cpT` (124), `ciV`, `ciT` (125), `clear` (126), `unlockU` (127), `fresh` (128-136),
`stale` (132-136), `rdV`, `rdT` (117-118), `search` (140-143), `erase` (144), `unlock` (119, 145). -/
inductive OPh (K : Type) where
  | idle
  | test (t : Nat)
  | wait (t : Nat)
  | cpV (t : Nat)
  | cpT (t : Nat)
  | ciV (t : Nat)
  | ciT (t : Nat)
  | clear (t : Nat)
  | unlockU (t : Nat)
  | fresh (t : Nat)
  | stale (t : Nat)
  | rdV (t : Nat)
  | rdT (t : Nat) (v : Option K)
  | search (t : Nat)
  | erase (t : Nat) (o : Option (Sig K))
  | unlock (t : Nat) (r : Res K)
  | left (t : Nat) (r : Res K)

/-- The members of the container and of the out block, the owner of the mutex and the two threads. -/
structure M (K : Type) where
  c : St K
  owner : Option Side
  pi : IPh K
  po : OPh K

/-- Lines 128-130. -/
def compute (s : St K) : St K :=
  { s with
    count := 0
    dVal := (match s.oin.val, s.oprev.val with | some a, some b => some ((a - b) / s.ratio) | _, _ => none)
    dTime := ((s.oin.ts - s.oprev.ts : Nat) : K) / s.ratio }

/-- The steps of the two threads. -/
inductive Step : M K → Lab (Op K) (Res K) Side → M K → Prop
  | callIn (s sig) : s.pi = .idle → Step s (.call .inp (.inp sig)) { s with pi := .wait sig }
  | lockIn (s sig) : s.pi = .wait sig → s.owner = none →
      Step s .tau { s with owner := some .inp, pi := if s.c.steady then .inV sig else if s.c.up then .prevV sig else .push sig }
  | prevV (s sig) : s.pi = .prevV sig → Step s .tau { s with c := { s.c with cprev := ⟨s.c.cin.val, s.c.cprev.ts⟩ }, pi := .prevT sig }
  | prevT (s sig) : s.pi = .prevT sig → Step s .tau { s with c := { s.c with cprev := ⟨s.c.cprev.val, s.c.cin.ts⟩ }, pi := .inV sig }
  | inV (s sig) : s.pi = .inV sig → Step s .tau { s with c := { s.c with cin := ⟨sig.val, s.c.cin.ts⟩ }, pi := .inT sig }
  | inT (s sig) : s.pi = .inT sig →
      Step s .tau { s with c := { s.c with cin := ⟨s.c.cin.val, sig.ts⟩ }, pi := if s.c.steady then .unlock sig else .mark sig }
  | mark (s sig) : s.pi = .mark sig → Step s .tau { s with c := { s.c with refresh := true }, pi := .unlock sig }
  | push (s sig) : s.pi = .push sig → Step s .tau { s with c := { s.c with buf := s.c.buf ++ [sig] }, pi := .unlock sig }
  | unlockIn (s sig) : s.pi = .unlock sig → Step s .tau { s with owner := none, pi := .left sig }
  | retIn (s sig) : s.pi = .left sig → Step s (.ret .inp (.inp sig) .ok) { s with pi := .idle }
  | callOut (s t) : s.po = .idle → Step s (.call .out (.out t)) { s with po := if ¬ s.c.steady ∧ s.c.up then .test t else .wait t }
  | test (s t) : s.po = .test t → Step s .tau { s with po := if s.c.refresh then .wait t else .stale t }
  | lockOut (s t) : s.po = .wait t → s.owner = none →
      Step s .tau { s with owner := some .out, po := if s.c.steady then .rdV t else if s.c.up then .cpV t else .search t }
  | cpV (s t) : s.po = .cpV t → Step s .tau { s with c := { s.c with oprev := ⟨s.c.cprev.val, s.c.oprev.ts⟩ }, po := .cpT t }
  | cpT (s t) : s.po = .cpT t → Step s .tau { s with c := { s.c with oprev := ⟨s.c.oprev.val, s.c.cprev.ts⟩ }, po := .ciV t }
  | ciV (s t) : s.po = .ciV t → Step s .tau { s with c := { s.c with oin := ⟨s.c.cin.val, s.c.oin.ts⟩ }, po := .ciT t }
  | ciT (s t) : s.po = .ciT t → Step s .tau { s with c := { s.c with oin := ⟨s.c.oin.val, s.c.cin.ts⟩ }, po := .clear t }
  | clear (s t) : s.po = .clear t → Step s .tau { s with c := { s.c with refresh := false }, po := .unlockU t }
  | unlockU (s t) : s.po = .unlockU t → Step s .tau { s with owner := none, po := .fresh t }
  | fresh (s t) : s.po = .fresh t → Step s .tau { s with c := (publish (compute s.c)).1, po := .left t (.sig (publish (compute s.c)).2) }
  | stale (s t) : s.po = .stale t → Step s .tau { s with c := (publish s.c).1, po := .left t (.sig (publish s.c).2) }
  | rdV (s t) : s.po = .rdV t → Step s .tau { s with po := .rdT t s.c.cin.val }
  | rdT (s t v) : s.po = .rdT t v → Step s .tau { s with po := .unlock t (.sig ⟨v, s.c.cin.ts⟩) }
  | search (s t) : s.po = .search t → Step s .tau { s with po := .erase t s.c.buf[pick t s.c.buf]? }
  | erase (s t o) : s.po = .erase t o → Step s .tau { s with c := { s.c with buf := [] }, po := .unlock t (Res.of o) }
  | unlockOut (s t r) : s.po = .unlock t r → Step s .tau { s with owner := none, po := .left t r }
  | retOut (s t r) : s.po = .left t r → Step s (.ret .out (.out t) r) { s with po := .idle }

/-- A new transition; both threads are outside. -/
def start (c : St K) : M K := ⟨c, none, .idle, .idle⟩

/-! ### The simulation -/

def IPh.doing : IPh K → Doing (Op K) (Res K)
  | .idle => .nothing
  | .wait s | .prevV s | .prevT s | .inV s | .inT s | .mark s | .push s => .called (.inp s)
  | .unlock s | .left s => .effected (.inp s) .ok

def OPh.doing (c : St K) : OPh K → Doing (Op K) (Res K)
  | .idle => .nothing
  | .test t | .wait t | .cpV t | .cpT t | .ciV t | .ciT t | .clear t | .rdV t | .rdT t _ | .search t | .erase t _ => .called (.out t)
  | .unlockU t | .fresh t => .effected (.out t) (.sig (publish (compute c)).2)
  | .stale t => .effected (.out t) (.sig (publish c).2)
  | .unlock t r | .left t r => .effected (.out t) r

def doing (s : M K) : Side → Doing (Op K) (Res K)
  | .inp => s.pi.doing
  | .out => s.po.doing s.c

def IPh.locked : IPh K → Bool
  | .idle | .wait _ | .left _ => false
  | _ => true

def OPh.locked : OPh K → Bool
  | .idle | .test _ | .wait _ | .fresh _ | .stale _ | .left _ _ => false
  | _ => true

/-- The two samples in the container, while the in block is changing them. -/
def Shared (q c : St K) : IPh K → Prop
  | .prevT _ => c.steady = false ∧ c.up = true ∧ c.cin = q.cin ∧ c.cprev.val = q.cin.val
  | .prevV _ => c.steady = false ∧ c.up = true ∧ c.cin = q.cin ∧ c.cprev = q.cprev
  | .inV _ => (c.steady = true ∨ c.up = true) ∧ c.cin = q.cin ∧ c.cprev = if c.steady then q.cprev else q.cin
  | .inT s => (c.steady = true ∨ c.up = true) ∧ c.cin.val = s.val ∧ c.cprev = if c.steady then q.cprev else q.cin
  | .mark s => c.steady = false ∧ c.up = true ∧ c.cin = s ∧ c.cprev = q.cin
  | .push _ => c.steady = false ∧ c.up = false ∧ c.cin = q.cin ∧ c.cprev = q.cprev
  | _ => c.cin = q.cin ∧ c.cprev = q.cprev

def private_ (s : St K) : Sig K × Sig K × Option K × K × Nat := (s.oin, s.oprev, s.dVal, s.dTime, s.count)

/-- The members of the out block, while it is changing them. -/
def Private (q c : St K) : OPh K → Prop
  | .test _ => c.steady = false ∧ c.up = true ∧ private_ c = private_ q
  | .wait _ => (c.steady = false → c.up = true → c.refresh = true) ∧ private_ c = private_ q
  | .cpV _ => c.steady = false ∧ c.up = true ∧ c.refresh = true
  | .cpT _ => c.steady = false ∧ c.up = true ∧ c.refresh = true ∧ c.oprev.val = c.cprev.val
  | .ciV _ => c.steady = false ∧ c.up = true ∧ c.refresh = true ∧ c.oprev = c.cprev
  | .ciT _ => c.steady = false ∧ c.up = true ∧ c.refresh = true ∧ c.oprev = c.cprev ∧ c.oin.val = c.cin.val
  | .clear _ => c.steady = false ∧ c.up = true ∧ c.refresh = true ∧ c.oprev = c.cprev ∧ c.oin = c.cin
  | .unlockU _ | .fresh _ => private_ (publish (compute c)).1 = private_ q
  | .stale _ => private_ (publish c).1 = private_ q
  | .rdV _ => c.steady = true ∧ private_ c = private_ q
  | .rdT _ v => c.steady = true ∧ v = c.cin.val ∧ private_ c = private_ q
  | .search _ => c.steady = false ∧ c.up = false ∧ private_ c = private_ q
  | .erase t o => c.steady = false ∧ c.up = false ∧ o = c.buf[pick t c.buf]? ∧ private_ c = private_ q
  | _ => private_ c = private_ q

structure Inv (q : St K) (s : M K) : Prop where
  st : s.c.steady = q.steady
  ra : s.c.ratio = q.ratio
  rf : s.c.refresh = q.refresh
  bf : s.c.buf = q.buf
  sh : Shared q s.c s.pi
  pr : Private q s.c s.po
  li : s.owner = some .inp ↔ s.pi.locked = true
  lo : s.owner = some .out ↔ s.po.locked = true

theorem takeRefresh_eq (s : St K) (h : s.refresh = true) :
    takeRefresh s = compute { s with oprev := s.cprev, oin := s.cin, refresh := false } := by
  simp only [takeRefresh, if_pos h]
  rfl

theorem up_congr {c c' : St K} (h : c'.ratio = c.ratio) : c'.up = c.up := by simp [St.up, h]

theorem publish_congr {c c' : St K} (h : private_ c' = private_ c) :
    private_ (publish c').1 = private_ (publish c).1 ∧ (publish c').2 = (publish c).2 := by
  simp only [private_, Prod.mk.injEq] at h
  obtain ⟨e1, e2, e3, e4, e5⟩ := h
  simp only [private_, publish, e1, e2, e3, e4, e5, and_self]

theorem compute_congr {c c' : St K} (hi : c'.oin = c.oin) (hp : c'.oprev = c.oprev) (hr : c'.ratio = c.ratio) :
    private_ (compute c') = private_ (compute c) := by
  simp only [private_, compute, hi, hp, hr]

theorem private_parts {c c' : St K} (h : private_ c' = private_ c) : c'.oin = c.oin ∧ c'.oprev = c.oprev := by
  simp only [private_, Prod.mk.injEq] at h
  exact ⟨h.1, h.2.1⟩

/-- Steps of the in block do not change what the out block is doing. -/
theorem doing_congr {c c' : St K} (h : private_ c' = private_ c) (hr : c'.ratio = c.ratio) (po : OPh K) : po.doing c' = po.doing c := by
  have h1 := publish_congr h
  have h2 := publish_congr (compute_congr (private_parts h).1 (private_parts h).2 hr)
  cases po <;> simp only [OPh.doing, h1.2, h2.2]

theorem private_congr {q q' c c' : St K} (hq : private_ q' = private_ q) (h : private_ c' = private_ c) (hs : c'.steady = c.steady)
    (hr : c'.ratio = c.ratio) (hf : c.refresh = true → c'.refresh = true) (po : OPh K) (hl : po.locked = false) (hp : Private q c po) :
    Private q' c' po := by
  have h1 := publish_congr h
  have h2 := publish_congr (compute_congr (private_parts h).1 (private_parts h).2 hr)
  have hu := up_congr hr
  cases po <;> simp only [OPh.locked, Bool.true_eq_false] at hl <;> simp only [Private, h, hs, hu, hq, h1.1, h2.1] at hp ⊢ <;>
    first
    | exact hp
    | exact ⟨fun a b => hf (hp.1 a b), hp.2⟩

theorem shared_congr {q q' c c' : St K} (hi : q'.cin = q.cin) (hp : q'.cprev = q.cprev) (hi' : c'.cin = c.cin) (hp' : c'.cprev = c.cprev)
    (hs : c'.steady = c.steady) (hr : c'.ratio = c.ratio) (pi : IPh K) (h : Shared q c pi) : Shared q' c' pi := by
  have hu := up_congr hr
  cases pi <;> simp only [Shared, hi, hp, hi', hp', hs, hu] at h ⊢ <;> exact h

/-- The owner is unique. -/
theorem Inv.excl {q : St K} {s : M K} (h : Inv q s) : s.pi.locked = true → s.po.locked = false := by
  intro hi
  have := h.li.2 hi
  cases ho : s.po.locked with
  | false => rfl
  | true => have h2 := h.lo.2 ho; rw [this] at h2; cases h2

theorem Inv.excl' {q : St K} {s : M K} (h : Inv q s) : s.po.locked = true → s.pi.locked = false := by
  intro hi
  cases ho : s.pi.locked with
  | false => rfl
  | true => rw [h.excl ho] at hi; cases hi

theorem shared_unlocked {q c : St K} {pi : IPh K} (hl : pi.locked = false) (h : Shared q c pi) : c.cin = q.cin ∧ c.cprev = q.cprev := by
  cases pi <;> simp only [IPh.locked, Bool.true_eq_false] at hl <;> exact h

theorem doing_same (s s' : M K) (hi : s'.pi.doing = s.pi.doing) (ho : s'.po.doing s'.c = s.po.doing s.c) : doing s' = doing s := by
  funext u; cases u
  · exact hi
  · exact ho

theorem doing_inp (s s' : M K) (d : Doing (Op K) (Res K)) (hi : s'.pi.doing = d) (ho : s'.po.doing s'.c = s.po.doing s.c) :
    doing s' = upd (doing s) .inp d := by
  funext u; cases u
  · simpa [upd, doing] using hi
  · simpa [upd, doing] using ho

theorem doing_out (s s' : M K) (d : Doing (Op K) (Res K)) (hi : s'.pi.doing = s.pi.doing) (ho : s'.po.doing s'.c = d) :
    doing s' = upd (doing s) .out d := by
  funext u; cases u
  · simpa [upd, doing] using hi
  · simpa [upd, doing] using ho

theorem step_good (q : St K) (s : M K) (lab : Lab (Op K) (Res K) Side) (s' : M K) (h : Inv q s) (st : Step s lab s') :
    Good seq doing Inv q s s' lab := by
  have hx := h.excl
  have hy := h.excl'
  obtain ⟨h1, h2, h3, h4, h5, h6, h7, h8⟩ := h
  cases st with
  | callIn sig hp =>
    rw [hp] at h5 h7
    exact ⟨by simp [doing, hp, IPh.doing], doing_inp _ _ _ rfl rfl, h1, h2, h3, h4, h5, h6, h7, h8⟩
  | retIn sig hp =>
    rw [hp] at h5 h7
    exact ⟨by simp [doing, hp, IPh.doing], doing_inp _ _ _ rfl rfl, h1, h2, h3, h4, h5, h6, h7, h8⟩
  | lockIn sig hp ho =>
    left
    rw [hp] at h5
    rw [ho] at h8
    refine ⟨doing_same _ _ ?_ rfl, h1, h2, h3, h4, ?_, h6, ?_, by simpa using h8⟩
    · rw [hp]; simp only; split <;> (try split) <;> rfl
    · simp only
      cases hs : s.c.steady
      · cases hu : s.c.up <;> simpa [Shared, hs, hu] using h5
      · simpa [Shared, hs] using h5
    · simp only [true_iff]; split <;> (try split) <;> rfl
  | prevV sig hp =>
    left
    rw [hp] at h5 h7 hx
    refine ⟨doing_same _ _ (by rw [hp]; rfl) (doing_congr (by rfl) (by rfl) _), h1, h2, h3, h4, ?_,
      private_congr (q := q) (c := s.c) (by rfl) (by rfl) (by rfl) (by rfl) (by exact id) _ (hx rfl) h6, h7, h8⟩
    exact ⟨h5.1, h5.2.1, h5.2.2.1, by simp only [h5.2.2.1]⟩
  | prevT sig hp =>
    left
    rw [hp] at h5 h7 hx
    refine ⟨doing_same _ _ (by rw [hp]; rfl) (doing_congr (by rfl) (by rfl) _), h1, h2, h3, h4, ?_,
      private_congr (q := q) (c := s.c) (by rfl) (by rfl) (by rfl) (by rfl) (by exact id) _ (hx rfl) h6, h7, h8⟩
    refine ⟨.inr h5.2.1, h5.2.2.1, ?_⟩
    simp only [h5.1, h5.2.2.2, h5.2.2.1, Bool.false_eq_true, if_false]
  | inV sig hp =>
    left
    rw [hp] at h5 h7 hx
    exact ⟨doing_same _ _ (by rw [hp]; rfl) (doing_congr (by rfl) (by rfl) _), h1, h2, h3, h4, ⟨h5.1, rfl, h5.2.2⟩,
      private_congr (q := q) (c := s.c) (by rfl) (by rfl) (by rfl) (by rfl) (by exact id) _ (hx rfl) h6, h7, h8⟩
  | inT sig hp =>
    rw [hp] at h5 h7 hx
    have hsig : (⟨s.c.cin.val, sig.ts⟩ : Sig K) = sig := by rw [h5.2.1]
    cases hs : s.c.steady
    · left
      simp only [Bool.false_eq_true, if_false, hsig]
      have h5' := h5
      simp only [Shared, hs, Bool.false_eq_true, false_or, if_false] at h5'
      exact ⟨doing_same _ _ (by rw [hp]; rfl) (doing_congr (by rfl) (by rfl) _), h1, h2, h3, h4, ⟨hs, h5'.1, rfl, h5'.2.2⟩,
        private_congr (q := q) (c := s.c) (by rfl) (by rfl) (by rfl) (by rfl) (by exact id) _ (hx rfl) h6, h7, h8⟩
    · right
      simp only [if_true, hsig]
      have h5' := h5
      simp only [Shared, hs, true_or, true_and, if_true] at h5'
      have hq : (seq q (.inp sig)).1 = { q with cin := sig } := by simp [seq, runIn, ← h1, hs]
      refine ⟨.inp, .inp sig, by simp [doing, hp, IPh.doing], doing_inp _ _ _ rfl (doing_congr (by rfl) (by rfl) _), ?_⟩
      rw [hq]
      exact ⟨h1, h2, h3, h4, ⟨rfl, h5'.2⟩, private_congr (q := q) (c := s.c) (by rfl) (by rfl) (by rfl) (by rfl) (by exact id) _ (hx rfl) h6, h7, h8⟩
  | mark sig hp =>
    right
    rw [hp] at h5 h7 hx
    obtain ⟨k1, k2, k3, k4⟩ := h5
    have hu : q.up = true := by rw [up_congr h2.symm]; exact k2
    have hq : (seq q (.inp sig)).1 = { q with cprev := q.cin, cin := sig, refresh := true } := by simp [seq, runIn, ← h1, k1, hu]
    refine ⟨.inp, .inp sig, by simp [doing, hp, IPh.doing], doing_inp _ _ _ rfl (doing_congr (by rfl) (by rfl) _), ?_⟩
    rw [hq]
    exact ⟨h1, h2, rfl, h4, ⟨k3, k4⟩, private_congr (q := q) (c := s.c) (by rfl) (by rfl) (by rfl) (by rfl) (by exact fun _ => rfl) _ (hx rfl) h6, h7, h8⟩
  | push sig hp =>
    right
    rw [hp] at h5 h7 hx
    obtain ⟨k1, k2, k3, k4⟩ := h5
    have hu : q.up = false := by rw [up_congr h2.symm]; exact k2
    have hq : (seq q (.inp sig)).1 = { q with buf := q.buf ++ [sig] } := by simp [seq, runIn, ← h1, k1, hu]
    refine ⟨.inp, .inp sig, by simp [doing, hp, IPh.doing], doing_inp _ _ _ rfl (doing_congr (by rfl) (by rfl) _), ?_⟩
    rw [hq]
    exact ⟨h1, h2, h3, by simp only [h4], ⟨k3, k4⟩, private_congr (q := q) (c := s.c) (by rfl) (by rfl) (by rfl) (by rfl) (by exact id) _ (hx rfl) h6, h7, h8⟩
  | unlockIn sig hp =>
    left
    rw [hp] at h5 h7 hx
    refine ⟨doing_same _ _ (by rw [hp]; rfl) rfl, h1, h2, h3, h4, h5, h6, by simp [IPh.locked], ?_⟩
    simp [hx rfl]
  | callOut t hp =>
    rw [hp] at h6 h8
    refine ⟨by simp [doing, hp, OPh.doing], doing_out _ _ _ rfl ?_, h1, h2, h3, h4, h5, ?_, h7, ?_⟩
    · simp only; split <;> rfl
    · simp only
      split
      · rename_i hm
        exact ⟨by simpa using hm.1, hm.2, h6⟩
      · rename_i hm
        refine ⟨fun a b => absurd ⟨by simp [a], b⟩ hm, h6⟩
    · rw [h8]; simp only; split <;> simp [OPh.locked]
  | test t hp =>
    rw [hp] at h6 h8
    obtain ⟨k1, k2, k3⟩ := h6
    cases hr : s.c.refresh
    · -- no new sample: the run takes effect here
      right
      have hu : q.up = true := by rw [up_congr h2.symm]; exact k2
      have hqr : q.refresh = false := by rw [← h3, hr]
      have htr : takeRefresh q = q := by simp [takeRefresh, hqr]
      have hq : seq q (.out t) = ((publish q).1, .sig (publish q).2) := by simp [seq, runOut, ← h1, k1, hu, htr]
      have hpc := publish_congr k3
      refine ⟨.out, .out t, by simp [doing, hp, OPh.doing], doing_out _ _ _ rfl ?_, ?_⟩
      · simp only [Bool.false_eq_true, if_false, OPh.doing, hq, hpc.2]
      · rw [hq]
        simp only [Bool.false_eq_true, if_false]
        exact ⟨h1, h2, h3, h4, shared_congr (q := q) (c := s.c) (by rfl) (by rfl) (by rfl) (by rfl) (by rfl) (by rfl) _ h5, hpc.1, h7, h8⟩
    · left
      simp only [if_true]
      exact ⟨doing_same _ _ rfl (by rw [hp]; rfl), h1, h2, h3, h4, h5, ⟨fun _ _ => hr, k3⟩, h7, h8⟩
  | lockOut t hp ho =>
    left
    rw [hp] at h6
    rw [ho] at h7
    refine ⟨doing_same _ _ rfl ?_, h1, h2, h3, h4, h5, ?_, by simpa using h7, ?_⟩
    · rw [hp]; simp only; split <;> (try split) <;> rfl
    · simp only
      cases hs : s.c.steady
      · cases hu : s.c.up
        · simp only [Bool.false_eq_true, if_false]
          exact ⟨hs, hu, h6.2⟩
        · simp only [Bool.false_eq_true, if_false, if_true]
          exact ⟨hs, hu, h6.1 hs hu⟩
      · simp only [if_true]
        exact ⟨hs, h6.2⟩
    · simp only [true_iff]; split <;> (try split) <;> rfl
  | cpV t hp =>
    left
    rw [hp] at h6 h8
    exact ⟨doing_same _ _ rfl (by rw [hp]; rfl), h1, h2, h3, h4, shared_congr (q := q) (c := s.c) (by rfl) (by rfl) (by rfl) (by rfl) (by rfl) (by rfl) _ h5, ⟨h6.1, h6.2.1, h6.2.2, rfl⟩, h7, h8⟩
  | cpT t hp =>
    left
    rw [hp] at h6 h8
    refine ⟨doing_same _ _ rfl (by rw [hp]; rfl), h1, h2, h3, h4, shared_congr (q := q) (c := s.c) (by rfl) (by rfl) (by rfl) (by rfl) (by rfl) (by rfl) _ h5, ⟨h6.1, h6.2.1, h6.2.2.1, ?_⟩, h7, h8⟩
    simp only [h6.2.2.2]
  | ciV t hp =>
    left
    rw [hp] at h6 h8
    exact ⟨doing_same _ _ rfl (by rw [hp]; rfl), h1, h2, h3, h4, shared_congr (q := q) (c := s.c) (by rfl) (by rfl) (by rfl) (by rfl) (by rfl) (by rfl) _ h5,
      ⟨h6.1, h6.2.1, h6.2.2.1, h6.2.2.2, rfl⟩, h7, h8⟩
  | ciT t hp =>
    left
    rw [hp] at h6 h8
    refine ⟨doing_same _ _ rfl (by rw [hp]; rfl), h1, h2, h3, h4, shared_congr (q := q) (c := s.c) (by rfl) (by rfl) (by rfl) (by rfl) (by rfl) (by rfl) _ h5,
      ⟨h6.1, h6.2.1, h6.2.2.1, h6.2.2.2.1, ?_⟩, h7, h8⟩
    simp only [h6.2.2.2.2]
  | clear t hp =>
    right
    rw [hp] at h6 h8 hy
    obtain ⟨k1, k2, k3, k4, k5⟩ := h6
    have hsh := shared_unlocked (hy rfl) h5
    have hu : q.up = true := by rw [up_congr h2.symm]; exact k2
    have hqr : q.refresh = true := by rw [← h3, k3]
    have hq : seq q (.out t) = ((publish (takeRefresh q)).1, .sig (publish (takeRefresh q)).2) := by simp [seq, runOut, ← h1, k1, hu]
    have hc : private_ (compute { s.c with refresh := false }) = private_ (takeRefresh q) := by
      rw [takeRefresh_eq q hqr]
      exact compute_congr (by simp only [k5, hsh.1]) (by simp only [k4, hsh.2]) h2
    have hpc := publish_congr hc
    refine ⟨.out, .out t, by simp [doing, hp, OPh.doing], doing_out _ _ _ rfl ?_, ?_⟩
    · simp only [OPh.doing, hq, hpc.2]
    · rw [hq]
      have e1 : (publish (takeRefresh q)).1.cin = q.cin := by simp [publish, takeRefresh, hqr]
      have e2 : (publish (takeRefresh q)).1.cprev = q.cprev := by simp [publish, takeRefresh, hqr]
      refine ⟨?_, ?_, ?_, ?_, shared_congr (q := q) (c := s.c) e1 e2 (by rfl) (by rfl) (by rfl) (by rfl) _ h5, hpc.1, h7, h8⟩
      · simpa [publish, takeRefresh, hqr] using h1
      · simpa [publish, takeRefresh, hqr] using h2
      · simp [publish, takeRefresh, hqr]
      · simpa [publish, takeRefresh, hqr] using h4
  | unlockU t hp =>
    left
    rw [hp] at h6 h8 hy
    refine ⟨doing_same _ _ rfl (by rw [hp]; rfl), h1, h2, h3, h4, h5, h6, ?_, by simp [OPh.locked]⟩
    simp [hy rfl]
  | fresh t hp =>
    left
    rw [hp] at h6 h8
    exact ⟨doing_same _ _ rfl (by rw [hp]; rfl), h1, h2, h3, h4, shared_congr (q := q) (c := s.c) (by rfl) (by rfl) (by rfl) (by rfl) (by rfl) (by rfl) _ h5, h6, h7, h8⟩
  | stale t hp =>
    left
    rw [hp] at h6 h8
    exact ⟨doing_same _ _ rfl (by rw [hp]; rfl), h1, h2, h3, h4, shared_congr (q := q) (c := s.c) (by rfl) (by rfl) (by rfl) (by rfl) (by rfl) (by rfl) _ h5, h6, h7, h8⟩
  | rdV t hp =>
    left
    rw [hp] at h6 h8
    exact ⟨doing_same _ _ rfl (by rw [hp]; rfl), h1, h2, h3, h4, h5, ⟨h6.1, rfl, h6.2⟩, h7, h8⟩
  | rdT t v hp =>
    right
    rw [hp] at h6 h8 hy
    obtain ⟨k1, k2, k3⟩ := h6
    have hsh := shared_unlocked (hy rfl) h5
    have hq : seq q (.out t) = (q, .sig q.cin) := by simp [seq, runOut, ← h1, k1]
    refine ⟨.out, .out t, by simp [doing, hp, OPh.doing], doing_out _ _ _ rfl ?_, ?_⟩
    · simp only [OPh.doing, hq, k2, hsh.1]
    · rw [hq]; exact ⟨h1, h2, h3, h4, h5, k3, h7, h8⟩
  | search t hp =>
    left
    rw [hp] at h6 h8
    exact ⟨doing_same _ _ rfl (by rw [hp]; rfl), h1, h2, h3, h4, h5, ⟨h6.1, h6.2.1, rfl, h6.2.2⟩, h7, h8⟩
  | erase t o hp =>
    right
    rw [hp] at h6 h8
    obtain ⟨k1, k2, k3, k4⟩ := h6
    have hu : q.up = false := by rw [up_congr h2.symm]; exact k2
    have hq : seq q (.out t) = ({ q with buf := [] }, Res.of o) := by
      rw [k3, h4]
      simp only [seq, runOut, ← h1, k1, hu, Bool.false_eq_true, if_false]
      cases hb : q.buf[pick t q.buf]? with
      | some x => rfl
      | none =>
        have hnil : q.buf = [] := by
          by_contra hne
          have hpos := List.length_pos_iff.2 hne
          rw [List.getElem?_eq_none_iff] at hb
          have := (List.takeWhile_sublist (l := q.buf) (fun b => decide (b.ts < t))).length_le
          unfold pick at hb
          omega
        simp only [Res.of, Prod.mk.injEq, and_true]
        have hq : ∀ x : St K, x.buf = [] → x.steady = false → x = { x with buf := [], steady := false } := by
          rintro ⟨⟩ hx hy; simp only at hx hy; subst hx hy; rfl
        exact hq q hnil (by rw [← h1, k1])
    refine ⟨.out, .out t, by simp [doing, hp, OPh.doing], doing_out _ _ _ rfl ?_, ?_⟩
    · simp only [OPh.doing, hq]
    · rw [hq]; exact ⟨h1, h2, h3, rfl, shared_congr (q := q) (c := s.c) (by rfl) (by rfl) (by rfl) (by rfl) (by rfl) (by rfl) _ h5, k4, h7, h8⟩
  | unlockOut t r hp =>
    left
    rw [hp] at h6 h8 hy
    refine ⟨doing_same _ _ rfl (by rw [hp]; rfl), h1, h2, h3, h4, h5, h6, ?_, by simp [OPh.locked]⟩
    simp [hy rfl]
  | retOut t r hp =>
    rw [hp] at h6 h8
    exact ⟨by simp [doing, hp, OPh.doing], doing_out _ _ _ rfl rfl, h1, h2, h3, h4, h5, h6, h7, h8⟩

theorem start_inv (c : St K) : Inv c (start c) :=
  ⟨rfl, rfl, rfl, rfl, ⟨rfl, rfl⟩, rfl, by simp [start, IPh.locked], by simp [start, OPh.locked]⟩

/-- **C251.** A transition between two time domains behaves, in every interleaving of the accesses of its two blocks, as if every run happened at one instant
between its beginning and its end: all that is known about the sequential model holds for the threads. -/
theorem transition_linearizable (c : St K) (h : List (Ev (Op K) (Res K) Side)) (s : M K) (e : Exec Step (start c) h s) : Linearizable seq c h :=
  linearizable Step seq doing Inv (start c) c (start_inv c) (fun t => by cases t <;> rfl) step_good h s e

/-! ### What a receiver may see -/

omit [Field K] [LinearOrder K] [FloorRing K] in
theorem sent_append (a b : List (Op K)) : sent (a ++ b) = sent a ++ sent b := by
  induction a with
  | nil => rfl
  | cons x a ih => cases x <;> simp [sent, ih]

/-- The out block does not send. -/
theorem out_typed (c : St K) (h : List (Ev (Op K) (Res K) Side)) (s : M K) (e : Exec Step (start c) h s) : sent (called .out h) = [] := by
  induction e with
  | init => rfl
  | call e t op st ih =>
    rw [called_append, sent_append, ih]
    cases st <;> simp [called, sent]
  | ret e t op r st ih => rw [called_append, sent_append, ih]; simp [called, sent]
  | tau e st ih => exact ih

omit [Field K] [LinearOrder K] [FloorRing K] in
theorem sent_effects (p : List (Pt (Op K) (Res K) Side)) (h : sent (effected .out p) = []) :
    sent ((effects p).map (·.1)) = sent (effected .inp p) := by
  induction p with
  | nil => rfl
  | cons x p ih =>
    cases x with
    | call t op => exact ih h
    | ret t op r => exact ih h
    | effect t op r =>
      cases t
      · have := ih (by simpa [effected] using h)
        cases op <;> simp [effects, effected, sent, this]
      · cases op with
        | inp sig => simp [effected, sent] at h
        | out time =>
          have := ih (by simpa [effected, sent] using h)
          simpa [effects, effected, sent] using this

omit [Field K] [LinearOrder K] [FloorRing K] in
theorem sent_prefix {a b : List (Op K)} (h : a <+: b) : sent a <+: sent b := by
  obtain ⟨c, rfl⟩ := h
  rw [sent_append]
  exact List.prefix_append _ _

omit [Field K] [LinearOrder K] [FloorRing K] in
theorem called_inp_skip (h1 h2 : List (Ev (Op K) (Res K) Side)) (op : Op K) :
    called .inp (h1 ++ .call .out op :: h2) = called .inp (h1 ++ h2) := by
  rw [called_append, called_append]
  rfl

/-- The samples sent up to an instant between the call and the return of a run of the out block, and the state it sees. -/
theorem seen (c : St K) (h1 h2 h3 : List (Ev (Op K) (Res K) Side)) (t : Nat) (r : Res K) (s : M K) (hq : Quiet .out h2)
    (e : Exec Step (start c) (h1 ++ .call .out (.out t) :: (h2 ++ .ret .out (.out t) r :: h3)) s) :
    ∃ effs : List (Op K × Res K), r = (seq (after seq c effs) (.out t)).2 ∧
      sent (returned .inp h1) <+: sent (effs.map (·.1)) ∧ sent (effs.map (·.1)) <+: sent (called .inp (h1 ++ h2)) := by
  obtain ⟨p, e1, _, e2⟩ := realtime seq c h1 h2 h3 .out (.out t) r hq (transition_linearizable c _ s e)
  have ht := out_typed c _ s e
  have ho : sent (effected .out p) = [] := by
    have h4 := sent_prefix (e2 .out).1
    have h5 : sent (called .out (h1 ++ .call .out (.out t) :: h2)) = [] := by
      rw [called_append, sent_append] at ht ⊢
      simp only [called, if_true, called_append, sent, sent_append, List.append_eq_nil_iff] at ht ⊢
      exact ⟨ht.1, ht.2.1⟩
    rw [h5] at h4
    exact List.prefix_nil.1 h4
  refine ⟨effects p, e1, ?_, ?_⟩
  · rw [sent_effects p ho]; exact sent_prefix (e2 .inp).2
  · rw [sent_effects p ho, ← called_inp_skip]; exact sent_prefix (e2 .inp).1

theorem after_steady (c : St K) (hc : c.steady = true) (effs : List (Op K × Res K)) :
    (after seq c effs).steady = true ∧ (c.cin :: sent (effs.map (·.1)))[(sent (effs.map (·.1))).length]? = some (after seq c effs).cin := by
  induction effs generalizing c with
  | nil => exact ⟨hc, rfl⟩
  | cons x effs ih =>
    obtain ⟨op, r⟩ := x
    cases op with
    | inp sig =>
      have hs : (seq c (.inp sig)).1 = { c with cin := sig } := by simp [seq, runIn, hc]
      have := ih (seq c (.inp sig)).1 (by rw [hs]; exact hc)
      simp only [after, List.map_cons, sent, List.length_cons, List.getElem?_cons_succ]
      rw [hs] at this ⊢
      exact this
    | out t =>
      have hs : (seq c (.out t)).1 = c := by simp [seq, runOut, hc]
      have := ih (seq c (.out t)).1 (by rw [hs]; exact hc)
      simp only [after, List.map_cons, sent]
      rw [hs] at this ⊢
      exact this

/-- **C251, steady.** A run of the out block gives a sample which is at least as new as the last one whose sending had been completed when the run began, and
which was sent before it ended: number `k` of all samples sent (number 0 is what was in the container at the beginning). -/
theorem steady_fresh (c : St K) (hc : c.steady = true) (h1 h2 h3 : List (Ev (Op K) (Res K) Side)) (t : Nat) (r : Res K) (s : M K) (hq : Quiet .out h2)
    (e : Exec Step (start c) (h1 ++ .call .out (.out t) :: (h2 ++ .ret .out (.out t) r :: h3)) s) :
    ∃ k sig, (sent (returned .inp h1)).length ≤ k ∧ k ≤ (sent (called .inp (h1 ++ h2))).length ∧
      (c.cin :: sent (called .inp (h1 ++ h2)))[k]? = some sig ∧ r = .sig sig := by
  obtain ⟨effs, hr, hlo, hhi⟩ := seen c h1 h2 h3 t r s hq e
  obtain ⟨ha, hb⟩ := after_steady c hc effs
  refine ⟨(sent (effs.map (·.1))).length, (after seq c effs).cin, hlo.length_le, hhi.length_le, ?_, ?_⟩
  · obtain ⟨rest, hrest⟩ := hhi
    rw [← hrest, ← List.cons_append, List.getElem?_append_left (by simp)]
    exact hb
  · rw [hr]; simp [seq, runOut, ha]

/-- The sample number `n` after `prev` on the way to `cur`. -/
def interp (ratio : K) (prev cur : Sig K) (n : Nat) : Sig K :=
  ⟨(match cur.val, prev.val with | some a, some b => some (b + (a - b) / ratio * (n : K)) | _, _ => none),
   (⌊(prev.ts : K) + (n : K) * (((cur.ts - prev.ts : Nat) : K) / ratio)⌋).toNat⟩

/-- The state after runs of both blocks, slow to fast; `x` are the two cleared signals of the beginning followed by the samples sent. -/
structure UpOk (ratio : K) (q : St K) (xs : List (Sig K)) : Prop where
  steady : q.steady = false
  ratio : q.ratio = ratio
  cur : (cleared :: cleared :: xs)[xs.length + 1]? = some q.cin
  prev : (cleared :: cleared :: xs)[xs.length]? = some q.cprev
  some_ : q.refresh = true → xs ≠ []
  none_ : xs = [] → q.oprev = cleared
  old : q.refresh = false → xs ≠ [] → q.oprev = q.cprev ∧ q.oin = q.cin ∧
    q.dVal = (match q.cin.val, q.cprev.val with | some a, some b => some ((a - b) / q.ratio) | _, _ => none) ∧
    q.dTime = ((q.cin.ts - q.cprev.ts : Nat) : K) / q.ratio

theorem up_step (ratio : K) (hr : 1 ≤ ratio) (q : St K) (xs : List (Sig K)) (h : UpOk ratio q xs) (op : Op K) :
    UpOk ratio (seq q op).1 (xs ++ sent [op]) := by
  have hu : q.up = true := by simp [St.up, h.ratio, hr]
  cases op with
  | inp sig =>
    have hs : (seq q (.inp sig)).1 = { q with cprev := q.cin, cin := sig, refresh := true } := by simp [seq, runIn, h.steady, hu]
    rw [hs]
    simp only [sent]
    refine ⟨h.steady, h.ratio, by simp, ?_, by simp, by simp, by simp⟩
    have := h.cur
    simp only [List.length_append, List.length_singleton]
    rw [← List.cons_append, ← List.cons_append, List.getElem?_append_left (by simp)]
    exact this
  | out t =>
    have hs : (seq q (.out t)).1 = (publish (takeRefresh q)).1 := by simp [seq, runOut, h.steady, hu]
    rw [hs]
    simp only [sent, List.append_nil]
    cases hrf : q.refresh
    · have : takeRefresh q = q := by simp [takeRefresh, hrf]
      rw [this]
      exact ⟨h.steady, h.ratio, h.cur, h.prev, h.some_, h.none_, h.old⟩
    · have hne := h.some_ hrf
      rw [takeRefresh_eq q hrf]
      exact ⟨h.steady, h.ratio, h.cur, h.prev, fun a => (by cases a), fun a => absurd a hne, fun _ _ => ⟨rfl, rfl, rfl, rfl⟩⟩

theorem after_up (ratio : K) (hr : 1 ≤ ratio) (c : St K) (xs : List (Sig K)) (h : UpOk ratio c xs) (effs : List (Op K × Res K)) :
    UpOk ratio (after seq c effs) (xs ++ sent (effs.map (·.1))) := by
  induction effs generalizing c xs with
  | nil => simpa [after, sent] using h
  | cons x effs ih =>
    have := ih _ _ (up_step ratio hr c xs h x.1)
    rw [List.append_assoc, ← sent_append] at this
    exact this

/-- **C251, slow to fast.** A run of the out block gives NaN or a point between two samples which were sent one directly after the other; the second of them is at
least as new as the last sample whose sending had been completed when the run began, and it was sent before the run ended. -/
theorem up_fresh (ratio : K) (hr : 1 ≤ ratio) (raw : Raw K) (h1 h2 h3 : List (Ev (Op K) (Res K) Side)) (t : Nat) (r : Res K) (s : M K) (hq : Quiet .out h2)
    (e : Exec Step (start (new ratio false raw)) (h1 ++ .call .out (.out t) :: (h2 ++ .ret .out (.out t) r :: h3)) s) :
    ∃ k, (sent (returned .inp h1)).length ≤ k ∧ k ≤ (sent (called .inp (h1 ++ h2))).length ∧
      (k = 0 → ∃ ts, r = .sig ⟨none, ts⟩) ∧
      (k ≠ 0 → ∃ n prev cur, (cleared :: cleared :: sent (called .inp (h1 ++ h2)))[k]? = some prev ∧
        (cleared :: cleared :: sent (called .inp (h1 ++ h2)))[k + 1]? = some cur ∧ r = .sig (interp ratio prev cur n)) := by
  obtain ⟨effs, hres, hlo, hhi⟩ := seen _ h1 h2 h3 t r s hq e
  have h0 : UpOk ratio (new ratio false raw) [] :=
    ⟨rfl, rfl, by simp [new, hr], by simp [new], by simp [new], fun _ => rfl, fun _ h => absurd rfl h⟩
  have h := after_up ratio hr _ _ h0 effs
  rw [List.nil_append] at h
  generalize after seq (new ratio false raw) effs = q at h hres
  have hu : q.up = true := by simp [St.up, h.ratio, hr]
  have hs : (seq q (.out t)).2 = .sig (publish (takeRefresh q)).2 := by simp [seq, runOut, h.steady, hu]
  rw [hs] at hres
  refine ⟨(sent (effs.map (·.1))).length, hlo.length_le, hhi.length_le, fun hk => ?_, fun hk => ?_⟩
  · have hnil := List.length_eq_zero_iff.1 hk
    have hrf : q.refresh = false := by
      cases hrf : q.refresh
      · rfl
      · exact absurd hnil (h.some_ hrf)
    have : takeRefresh q = q := by simp [takeRefresh, hrf]
    rw [this] at hres
    exact ⟨_, by rw [hres]; simp only [publish, h.none_ hnil, cleared]; rfl⟩
  · have hne : sent (effs.map (·.1)) ≠ [] := fun h => hk (by rw [h]; rfl)
    obtain ⟨rest, hrest⟩ := hhi
    have hx : ∀ k, k < (sent (effs.map (·.1))).length + 2 → (cleared :: cleared :: sent (called .inp (h1 ++ h2)))[k]? =
        (cleared :: cleared :: sent (effs.map (·.1)) : List (Sig K))[k]? := by
      intro k hk
      rw [← hrest, ← List.cons_append, ← List.cons_append, List.getElem?_append_left (by simpa using hk)]
    have hval : ∀ q' : St K, q'.oprev = q.cprev → q'.ratio = q.ratio →
        q'.dVal = (match q.cin.val, q.cprev.val with | some a, some b => some ((a - b) / q.ratio) | _, _ => none) →
        q'.dTime = ((q.cin.ts - q.cprev.ts : Nat) : K) / q.ratio → (publish q').2 = interp ratio q.cprev q.cin q'.count := by
      intro q' e1 _ e3 e4
      simp only [publish, interp, e1, e3, e4, h.ratio]
      cases q.cin.val <;> cases q.cprev.val <;> rfl
    cases hrf : q.refresh
    · have ht : takeRefresh q = q := by simp [takeRefresh, hrf]
      obtain ⟨k1, k2, k3, k4⟩ := h.old hrf hne
      refine ⟨q.count, q.cprev, q.cin, by rw [hx _ (by omega)]; exact h.prev, by rw [hx _ (by omega)]; exact h.cur, ?_⟩
      rw [hres, ht, hval q k1 rfl k3 k4]
    · refine ⟨0, q.cprev, q.cin, by rw [hx _ (by omega)]; exact h.prev, by rw [hx _ (by omega)]; exact h.cur, ?_⟩
      rw [hres, takeRefresh_eq q hrf]
      exact congrArg Res.sig (hval (compute { q with oprev := q.cprev, oin := q.cin, refresh := false }) rfl rfl rfl rfl)

/-! ### Concrete cases -/

def five : Sig ℚ := ⟨some 5, 100⟩
def six : Sig ℚ := ⟨some 6, 200⟩

/-- Steady: the sample 5 was sent, the sample 6 is being sent while the out block runs: it waits and receives 6. -/
def h1 : List (Ev (Op ℚ) (Res ℚ) Side) := [.call .inp (.inp five), .ret .inp (.inp five) .ok]
def h2 : List (Ev (Op ℚ) (Res ℚ) Side) := [.call .inp (.inp six)]

theorem steady_case : ∃ s, Exec Step (start (new (2 : ℚ) true)) (h1 ++ .call .out (.out 7) :: (h2 ++ .ret .out (.out 7) (.sig six) :: [])) s := by
  have e := Exec.init (Step := Step) (s₀ := start (new (2 : ℚ) true))
  have e := e.call _ _ (Step.callIn _ five rfl)
  have e := e.tau (Step.lockIn _ _ rfl rfl)
  have e := e.tau (Step.inV _ _ rfl)
  have e := e.tau (Step.inT _ _ rfl)
  have e := e.tau (Step.unlockIn _ _ rfl)
  have e := e.ret _ _ _ (Step.retIn _ _ rfl)
  have e := e.call _ _ (Step.callOut _ 7 rfl)
  have e := e.call _ _ (Step.callIn _ six rfl)
  have e := e.tau (Step.lockIn _ _ rfl rfl)
  have e := e.tau (Step.inV _ _ rfl)
  have e := e.tau (Step.inT _ _ rfl)
  have e := e.tau (Step.unlockIn _ _ rfl)
  have e := e.tau (Step.lockOut _ _ rfl rfl)
  have e := e.tau (Step.rdV _ _ rfl)
  have e := e.tau (Step.rdT _ _ _ rfl)
  have e := e.tau (Step.unlockOut _ _ _ rfl)
  have e := e.ret _ _ _ (Step.retOut _ _ _ rfl)
  exact ⟨_, e⟩

example : ∃ k sig, 1 ≤ k ∧ k ≤ 2 ∧ ([cleared, five, six] : List (Sig ℚ))[k]? = some sig ∧ Res.sig six = .sig sig := by
  obtain ⟨s, e⟩ := steady_case
  have hc : (new (2 : ℚ) true).cin = cleared := by decide +kernel
  have := steady_fresh (new (2 : ℚ) true) rfl h1 h2 [] 7 (.sig six) s ⟨rfl, rfl⟩ e
  rw [hc] at this
  exact this

theorem lockIn_up (s : M K) (sig : Sig K) (hp : s.pi = .wait sig) (ho : s.owner = none) (hs : s.c.steady = false) (hu : s.c.up = true) :
    Step s .tau { s with owner := some .inp, pi := .prevV sig } := by
  simpa [hs, hu] using Step.lockIn s sig hp ho

theorem inT_up (s : M K) (sig : Sig K) (hp : s.pi = .inT sig) (hs : s.c.steady = false) :
    Step s .tau { s with c := { s.c with cin := ⟨s.c.cin.val, sig.ts⟩ }, pi := .mark sig } := by
  simpa [hs] using Step.inT s sig hp

theorem callOut_up (s : M K) (t : Nat) (hp : s.po = .idle) (hs : s.c.steady = false) (hu : s.c.up = true) :
    Step s (.call .out (.out t)) { s with po := .test t } := by
  simpa [hs, hu] using Step.callOut s t hp

theorem lockOut_up (s : M K) (t : Nat) (hp : s.po = .wait t) (ho : s.owner = none) (hs : s.c.steady = false) (hu : s.c.up = true) :
    Step s .tau { s with owner := some .out, po := .cpV t } := by
  simpa [hs, hu] using Step.lockOut s t hp ho

/-- Slow to fast, with the ratio 2: the in block stores the sample 6 between the test of `refresh` and the lock of the out block, which then takes 5 and 6. -/
theorem up_case : ∃ s, Exec Step (start (new (2 : ℚ) false)) (h1 ++ .call .out (.out 7) :: ((h2 ++ [.ret .inp (.inp six) .ok]) ++ .ret .out (.out 7) (.sig five) :: [])) s := by
  have hu : ∀ c : St ℚ, c.ratio = 2 → c.up = true := fun c h => by simp [St.up, h]
  -- a run of the in block from any state
  have run : ∀ (h : List (Ev (Op ℚ) (Res ℚ) Side)) (c : St ℚ) (po : OPh ℚ) (sig : Sig ℚ), c.steady = false → c.ratio = 2 →
      Exec Step (start (new (2 : ℚ) false)) h ⟨c, none, .idle, po⟩ →
      Exec Step (start (new (2 : ℚ) false)) (h ++ [.call .inp (.inp sig)]) ⟨{ c with cprev := c.cin, cin := sig, refresh := true }, none, .left sig, po⟩ := by
    intro h c po sig hs hr e
    have e1 := e.call _ _ (Step.callIn _ sig rfl)
    have e2 := e1.tau (lockIn_up _ sig rfl rfl hs (hu _ hr))
    have e3 := e2.tau (Step.prevV _ _ rfl)
    have e4 := e3.tau (Step.prevT _ _ rfl)
    have e5 := e4.tau (Step.inV _ _ rfl)
    have e6 := e5.tau (inT_up _ sig rfl hs)
    have e7 := e6.tau (Step.mark _ _ rfl)
    exact e7.tau (Step.unlockIn _ _ rfl)
  generalize hc : new (2 : ℚ) false = c0 at run ⊢
  have hs : c0.steady = false := by rw [← hc]; rfl
  have hr : c0.ratio = 2 := by rw [← hc]; rfl
  have e := run [] c0 .idle five hs hr Exec.init
  have e := e.ret _ _ _ (Step.retIn _ _ rfl)
  have e := e.call _ _ (callOut_up _ 7 rfl hs (hu _ hr))
  have e := e.tau (Step.test _ _ rfl)
  simp only [if_true] at e
  have e := run _ _ _ six (by exact hs) (by exact hr) e
  have e := e.tau (lockOut_up _ 7 rfl rfl hs (hu _ hr))
  have e := e.tau (Step.cpV _ _ rfl)
  have e := e.ret _ _ _ (Step.retIn _ _ rfl)
  have e := e.tau (Step.cpT _ _ rfl)
  have e := e.tau (Step.ciV _ _ rfl)
  have e := e.tau (Step.ciT _ _ rfl)
  have e := e.tau (Step.clear _ _ rfl)
  have e := e.tau (Step.unlockU _ _ rfl)
  simp only at e
  have e := e.tau (Step.fresh _ _ rfl)
  have e := e.ret _ _ _ (Step.retOut _ _ _ rfl)
  have hv : ∀ c : St ℚ, c.oprev = five → c.oin = six → c.ratio = 2 → (publish (compute c)).2 = five := by
    intro c a b d
    simp [publish, compute, a, b, d, five, six]
  rw [hv _ (by rfl) (by rfl) (by exact hr)] at e
  exact ⟨_, e⟩

example : ∃ k, 1 ≤ k ∧ k ≤ 2 ∧ (k = 0 → ∃ ts, Res.sig five = .sig ⟨none, ts⟩) ∧
    (k ≠ 0 → ∃ n prev cur, ([cleared, cleared, five, six] : List (Sig ℚ))[k]? = some prev ∧ ([cleared, cleared, five, six] : List (Sig ℚ))[k + 1]? = some cur ∧
      Res.sig five = .sig (interp 2 prev cur n)) := by
  obtain ⟨s, e⟩ := up_case
  exact up_fresh 2 (by norm_num) _ h1 (h2 ++ [.ret .inp (.inp six) .ok]) [] 7 (.sig five) s ⟨rfl, rfl⟩ e

end Verif.Control.TransitionConc
