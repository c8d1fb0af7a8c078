import Verif.Control.Integrator
import Mathlib.Tactic.Common
import Mathlib.Tactic.NormNum
import Mathlib.Tactic.Linarith
import Mathlib.Tactic.Ring
import Mathlib.Algebra.Order.Field.Basic
/-!
Time stamps in a block diagram.

Every signal carries a time stamp (includes/eeros/control/Signal.hpp:154) which integrators, differentiators and rate limiters use to
compute elapsed times.  Sources take it from the clock, most other blocks copy it from one of their inputs, and some blocks never
set it.  This file follows the time stamps, and nothing else, through a diagram of any shape, feedback included, cycle by cycle.

Each output of the diagram has a number, in the order in which the blocks run (a block with several outputs has several numbers).
`clock k i` is the clock as read in cycle `k` by block `i`.  Left out: `Switch`, which copies the time stamp of the selected input
(Switch.hpp:76), outputs which are set only when a message has arrived, and diagrams over several time domains (Transition).
-/
namespace Verif.Control.Stamps

/-- What a block does with the time stamp of an output; the number is that of the output which the relevant input is connected to. -/
inductive Rule where
  /-- the clock: Constant.hpp:52, Step.hpp:64, ZTransferFunction.hpp:70, KalmanFilter.hpp:221-252, CANreceive.hpp:66, the planners
  and the devices -/
  | now
  /-- the input, if there are several the first: Gain.hpp:141, Saturation.hpp:59, I.hpp:73, RateLimiter.hpp:92, WrapAround.hpp:53,
  Sum.hpp:60, Mux.hpp:45, Mul.hpp:19, DeMux.hpp:42, LowPassFilter.hpp:70, MovingAverageFilter.hpp:77, MedianFilter.hpp:76 -/
  | copy (src : Nat)
  /-- `Delay` with `d + 1` elements, Delay.hpp:52-64: the time stamp read `d` runs before, once the buffer is full -/
  | older (src d : Nat)
  /-- `D`, D.hpp:37-59: the mean of the last two; the first one in the first run; unchanged if both are the same (the code compares
  them as seconds in doubles) -/
  | mean (src : Nat)
  /-- the time stamp is never set: `out[1]` of RPLidarInput (sensor/RPLidarInput.hpp:45-50), `out[0]` of ODriveUARTInput, the ranges and
  intensities of RosSubscriberLaserScan -/
  | keep
deriving DecidableEq, Repr

/-- The output whose time stamp is read. -/
def Rule.src : Rule → Option Nat
  | .now => none
  | .copy j => some j
  | .older j _ => some j
  | .mean j => some j
  | .keep => none

/-- The new time stamp: `t` the clock, `own` the present time stamp of the output, `h` the time stamps read so far, the newest first. -/
def emit (r : Rule) (t own : Nat) (h : List Nat) : Nat := match r with
  | .now => t
  | .copy _ => h.head?.getD own
  | .older _ d => (h[d]?).getD own
  | .mean _ => match h with
    | [] => own
    | [x] => x
    | x :: y :: _ => if x ≠ y then (x + y) / 2 else own
  | .keep => own

/-- The time stamp of each output, and for each block the time stamps it has read. -/
structure St where
  ts : Nat → Nat
  hist : Nat → List Nat

/-- `run()` of block `i` at time `t`, as far as time stamps are concerned. -/
def runBlk (g : List Rule) (t : Nat) (s : St) (i : Nat) : St := match g[i]? with
  | none => s
  | some r =>
    let h := match r.src with
      | some j => s.ts j :: s.hist i
      | none => s.hist i
    ⟨Function.update s.ts i (emit r t (s.ts i) h), Function.update s.hist i h⟩

/-- The first `i` blocks of a cycle (src/control/TimeDomain.cpp:28). -/
def part (g : List Rule) (t : Nat → Nat) (s : St) : Nat → St
  | 0 => s
  | i + 1 => runBlk g (t i) (part g t s i) i

/-- One run of the time domain. -/
def cycle (g : List Rule) (t : Nat → Nat) (s : St) : St := part g t s g.length

/-- The state before cycle `k`; all outputs have the time stamp `c` at the beginning (0 if they were cleared, Signal.hpp:118,
158-178). -/
def before (g : List Rule) (clock : Nat → Nat → Nat) (c : Nat) : Nat → St
  | 0 => ⟨fun _ => c, fun _ => []⟩
  | k + 1 => cycle g (clock k) (before g clock c k)

/-- The time stamp of output `b` after cycle `k`. -/
def stamp (g : List Rule) (clock : Nat → Nat → Nat) (c k b : Nat) : Nat := (before g clock c (k + 1)).ts b

/-- The time stamp which block `b` reads in cycle `k` from output `j`. -/
def seen (g : List Rule) (clock : Nat → Nat → Nat) (c k b j : Nat) : Nat :=
  (part g (clock k) (before g clock c k) b).ts j

/-! ### Specification -/

/-- A block reads the output of a block which runs before it in the same cycle, otherwise that of the cycle before. -/
def lag (b j : Nat) : Nat := if j < b then 0 else 1

/-- `Follows g clock b f F`: what the time stamp of output `b` should be from cycle `f` on, read off the diagram: trace the wire
back to a block which takes its time stamp from the clock; each wire which leads back in the order of the blocks costs one cycle. -/
inductive Follows (g : List Rule) (clock : Nat → Nat → Nat) : Nat → Nat → (Nat → Nat) → Prop
  | now {b} : g[b]? = some .now → Follows g clock b 0 (fun k => clock k b)
  | copy {b j f F} : g[b]? = some (.copy j) → Follows g clock j f F → Follows g clock b (f + lag b j) (fun k => F (k - lag b j))
  | older {b j d f F} : g[b]? = some (.older j d) → Follows g clock j f F →
      Follows g clock b (f + lag b j + d) (fun k => F (k - d - lag b j))
  | mean {b j f F} : g[b]? = some (.mean j) → Follows g clock j f F →
      Follows g clock b (f + lag b j + 1) (fun k => (F (k - lag b j) + F (k - 1 - lag b j)) / 2)

/-- Tracing the wire back ends at a block which reads the clock. -/
inductive Grounded (g : List Rule) : Nat → Prop
  | now {b} : g[b]? = some .now → Grounded g b
  | via {b r j} : g[b]? = some r → r.src = some j → Grounded g j → Grounded g b

/-- The clock does not go back: later blocks and later cycles read a later time. -/
structure Clock (clock : Nat → Nat → Nat) : Prop where
  inside : ∀ k i j, i ≤ j → clock k i ≤ clock k j
  across : ∀ k i j, clock k i < clock (k + 1) j

/-! ### Lemmas about a cycle -/

theorem runBlk_other (g : List Rule) (t : Nat) (s : St) {i b : Nat} (h : b ≠ i) :
    (runBlk g t s i).ts b = s.ts b ∧ (runBlk g t s i).hist b = s.hist b := by
  unfold runBlk
  split
  · exact ⟨rfl, rfl⟩
  · simp [Function.update_of_ne h]

theorem part_before (g : List Rule) (t : Nat → Nat) (s : St) {b : Nat} : ∀ {i : Nat}, i ≤ b →
    (part g t s i).ts b = s.ts b ∧ (part g t s i).hist b = s.hist b := by
  intro i
  induction i with
  | zero => intro _; exact ⟨rfl, rfl⟩
  | succ i ih =>
    intro h
    have h1 := ih (by omega)
    have h2 := runBlk_other g (t i) (part g t s i) (i := i) (b := b) (by omega)
    exact ⟨h2.1.trans h1.1, h2.2.trans h1.2⟩

theorem part_after (g : List Rule) (t : Nat → Nat) (s : St) {b i : Nat} (h : b < i) :
    (part g t s i).ts b = (part g t s (b + 1)).ts b ∧ (part g t s i).hist b = (part g t s (b + 1)).hist b := by
  induction i with
  | zero => omega
  | succ i ih =>
    by_cases e : b = i
    · subst e; exact ⟨rfl, rfl⟩
    · have h1 := ih (by omega)
      have h2 := runBlk_other g (t i) (part g t s i) (i := i) (b := b) (by omega)
      exact ⟨h2.1.trans h1.1, h2.2.trans h1.2⟩

theorem lt_of_rule {g : List Rule} {b : Nat} {r : Rule} (h : g[b]? = some r) : b < g.length := by
  by_contra hc
  rw [List.getElem?_eq_none (by omega)] at h
  cases h

/-- What a block reads. -/
theorem seen_eq (g : List Rule) (clock : Nat → Nat → Nat) (c k b j : Nat) (hb : b ≤ g.length) :
    seen g clock c k b j = if j < b then stamp g clock c k j else (before g clock c k).ts j := by
  unfold seen
  split
  · rename_i h
    rw [(part_after g (clock k) (before g clock c k) h).1, stamp, before, cycle,
      (part_after g (clock k) (before g clock c k) (show j < g.length by omega)).1]
  · exact (part_before g (clock k) (before g clock c k) (by omega)).1

/-- The history of a block grows by what it reads. -/
theorem hist_succ {g : List Rule} {clock : Nat → Nat → Nat} {c : Nat} {b j : Nat} {r : Rule} (hr : g[b]? = some r)
    (hs : r.src = some j) (k : Nat) :
    (before g clock c (k + 1)).hist b = seen g clock c k b j :: (before g clock c k).hist b := by
  have hb := lt_of_rule hr
  rw [before, cycle, (part_after g (clock k) (before g clock c k) hb).2]
  simp only [part, runBlk, hr, hs, Function.update_self]
  rw [(part_before g (clock k) (before g clock c k) (le_refl b)).2, seen]

theorem stamp_eq {g : List Rule} {clock : Nat → Nat → Nat} {c : Nat} {b : Nat} {r : Rule} (hr : g[b]? = some r) (k : Nat) :
    stamp g clock c k b = emit r (clock k b) ((before g clock c k).ts b)
      (match r.src with
        | some j => seen g clock c k b j :: (before g clock c k).hist b
        | none => (before g clock c k).hist b) := by
  have hb := lt_of_rule hr
  rw [stamp, before, cycle, (part_after g (clock k) (before g clock c k) hb).1]
  simp only [part, runBlk, hr, Function.update_self, seen]
  rw [(part_before g (clock k) (before g clock c k) (le_refl b)).1, (part_before g (clock k) (before g clock c k) (le_refl b)).2]

/-- Entry `d` of the history is what was read `d` cycles before. -/
theorem hist_get {g : List Rule} {clock : Nat → Nat → Nat} {c : Nat} {b j : Nat} {r : Rule} (hr : g[b]? = some r)
    (hs : r.src = some j) : ∀ (k d : Nat), d ≤ k → ((before g clock c (k + 1)).hist b)[d]? = some (seen g clock c (k - d) b j) := by
  intro k
  induction k with
  | zero =>
    intro d hd
    obtain rfl : d = 0 := by omega
    rw [hist_succ hr hs]; rfl
  | succ k ih =>
    intro d hd
    rw [hist_succ hr hs]
    cases d with
    | zero => rfl
    | succ d =>
      rw [List.getElem?_cons_succ, ih d (by omega)]
      congr 2
      omega

/-- What is read from an output whose time stamps are known. -/
theorem seen_of {g : List Rule} {clock : Nat → Nat → Nat} {c : Nat} {b j f : Nat} {F : Nat → Nat} (hb : b ≤ g.length)
    (h : ∀ k, f ≤ k → stamp g clock c k j = F k) (k : Nat) (hk : f + lag b j ≤ k) :
    seen g clock c k b j = F (k - lag b j) := by
  rw [seen_eq _ _ _ _ _ _ hb]
  unfold lag at hk ⊢
  split
  · rename_i hl
    rw [if_pos hl] at hk
    exact h k (by omega)
  · rename_i hl
    rw [if_neg hl] at hk
    obtain ⟨m, rfl⟩ : ∃ m, k = m + 1 := ⟨k - 1, by omega⟩
    exact h m (by omega)

/-! ### Theorems -/

theorem follows_strict {g : List Rule} {clock : Nat → Nat → Nat} (hc : Clock clock) {b f : Nat} {F : Nat → Nat}
    (h : Follows g clock b f F) : ∀ k, f ≤ k → F k < F (k + 1) := by
  induction h with
  | now _ => intro k _; exact hc.across k _ _
  | @copy b j f F _ _ ih =>
    intro k hk
    have := ih (k - lag b j) (by omega)
    rwa [show k - lag b j + 1 = k + 1 - lag b j by omega] at this
  | @older b j d f F _ _ ih =>
    intro k hk
    have := ih (k - d - lag b j) (by omega)
    rwa [show k - d - lag b j + 1 = k + 1 - d - lag b j by omega] at this
  | @mean b j f F _ _ ih =>
    intro k hk
    have h1 := ih (k - 1 - lag b j) (by omega)
    have h2 := ih (k - lag b j) (by omega)
    rw [show k - 1 - lag b j + 1 = k - lag b j by omega] at h1
    rw [show k - lag b j + 1 = k + 1 - lag b j by omega] at h2
    show (F (k - lag b j) + F (k - 1 - lag b j)) / 2 < (F (k + 1 - lag b j) + F (k + 1 - 1 - lag b j)) / 2
    rw [show k + 1 - 1 - lag b j = k - lag b j by omega]
    omega

/-- **The time stamp of every output whose wire leads back to the clock is exactly what one reads off the diagram**, in every cycle
from the given one on, whatever the shape of the diagram. -/
theorem stamp_follows {g : List Rule} {clock : Nat → Nat → Nat} (hc : Clock clock) (c : Nat) {b f : Nat} {F : Nat → Nat}
    (h : Follows g clock b f F) : ∀ k, f ≤ k → stamp g clock c k b = F k := by
  induction h with
  | now hr => intro k _; rw [stamp_eq hr]; rfl
  | @copy b j f F hr _ ih =>
    intro k hk
    rw [stamp_eq hr]
    show seen g clock c k b j = _
    exact seen_of (lt_of_rule hr).le ih k hk
  | @older b j d f F hr _ ih =>
    intro k hk
    have hg := hist_get (g := g) (clock := clock) (c := c) hr rfl k d (by omega)
    rw [stamp_eq hr]
    show ((seen g clock c k b j :: (before g clock c k).hist b)[d]?).getD _ = _
    rw [← hist_succ hr rfl, hg]
    show seen g clock c (k - d) b j = _
    exact seen_of (lt_of_rule hr).le ih (k - d) (by omega)
  | @mean b j f F hr hF ih =>
    intro k hk
    obtain ⟨m, rfl⟩ : ∃ m, k = m + 1 := ⟨k - 1, by omega⟩
    have e1 := seen_of (c := c) (b := b) (lt_of_rule hr).le ih (m + 1) (by omega)
    have e2 := seen_of (c := c) (b := b) (lt_of_rule hr).le ih m (by omega)
    rw [stamp_eq hr]
    show emit (.mean j) _ _ (seen g clock c (m + 1) b j :: (before g clock c (m + 1)).hist b) = _
    rw [hist_succ hr rfl, e1, e2]
    have hs := follows_strict hc hF (m - lag b j) (by omega)
    rw [show m - lag b j + 1 = m + 1 - lag b j by omega] at hs
    show (if F (m + 1 - lag b j) ≠ F (m - lag b j) then _ else _) = _
    rw [if_pos (by omega)]
    rfl

/-- Such a time stamp is never in the future of the block, and older by at most the `f` cycles read off the diagram. -/
theorem stamp_age {g : List Rule} {clock : Nat → Nat → Nat} (hc : Clock clock) {b f : Nat} {F : Nat → Nat}
    (h : Follows g clock b f F) : ∀ k, f ≤ k → clock (k - f) 0 ≤ F k ∧ F k ≤ clock k b := by
  have mono : ∀ m k i, m ≤ k → clock m i ≤ clock k i := by
    intro m k i hmk
    induction k with
    | zero => obtain rfl : m = 0 := by omega
              exact le_refl _
    | succ k ih =>
      by_cases e : m = k + 1
      · subst e; exact le_refl _
      · exact (ih (by omega)).trans (hc.across k i i).le
  have up : ∀ b j k, lag b j ≤ k → clock (k - lag b j) j ≤ clock k b := by
    intro b j k hk
    unfold lag at hk ⊢
    split
    · rename_i hl; exact hc.inside k j b hl.le
    · rename_i hl
      rw [if_neg hl] at hk
      have := hc.across (k - 1) j b
      rw [show k - 1 + 1 = k by omega] at this
      exact this.le
  induction h with
  | now _ => intro k _; exact ⟨hc.inside k 0 _ (Nat.zero_le _), le_refl _⟩
  | @copy b j f F _ _ ih =>
    intro k hk
    obtain ⟨h1, h2⟩ := ih (k - lag b j) (by omega)
    rw [show k - lag b j - f = k - (f + lag b j) by omega] at h1
    exact ⟨h1, h2.trans (up b j k (by omega))⟩
  | @older b j d f F _ _ ih =>
    intro k hk
    obtain ⟨h1, h2⟩ := ih (k - d - lag b j) (by omega)
    rw [show k - d - lag b j - f = k - (f + lag b j + d) by omega] at h1
    exact ⟨h1, h2.trans ((up b j (k - d) (by omega)).trans (mono _ _ _ (by omega)))⟩
  | @mean b j f F _ _ ih =>
    intro k hk
    obtain ⟨h1, h2⟩ := ih (k - lag b j) (by omega)
    obtain ⟨h3, h4⟩ := ih (k - 1 - lag b j) (by omega)
    have h5 := up b j k (by omega)
    have h6 := (up b j (k - 1) (by omega)).trans (mono _ _ b (show k - 1 ≤ k by omega))
    rw [show k - 1 - lag b j - f = k - (f + lag b j + 1) by omega] at h3
    have h7 := mono (k - (f + lag b j + 1)) (k - lag b j - f) 0 (by omega)
    show clock (k - (f + lag b j + 1)) 0 ≤ (F (k - lag b j) + F (k - 1 - lag b j)) / 2 ∧ (F (k - lag b j) + F (k - 1 - lag b j)) / 2 ≤ clock k b
    omega

theorem grounded_follows {g : List Rule} (clock : Nat → Nat → Nat) {b : Nat} (h : Grounded g b) : ∃ f F, Follows g clock b f F := by
  induction h with
  | now hr => exact ⟨_, _, .now hr⟩
  | @via b r j hr hs _ ih =>
    obtain ⟨f, F, hF⟩ := ih
    cases r with
    | now => cases hs
    | keep => cases hs
    | copy i => cases hs; exact ⟨_, _, .copy hr hF⟩
    | older i d => cases hs; exact ⟨_, _, .older hr hF⟩
    | mean i => cases hs; exact ⟨_, _, .mean hr hF⟩

/-- **An output whose wire does not lead back to the clock keeps the initial time stamp for ever**: a block which never sets it, all
blocks which copy from it, and every loop in which each block takes its time stamp from the one before.  The full claim, that every
output has the time of its value, is violated by all these diagrams. -/
theorem frozen_violated {g : List Rule} (clock : Nat → Nat → Nat) (c : Nat) {b : Nat} (h : ¬ Grounded g b) (k : Nat) :
    stamp g clock c k b = c := by
  suffices H : ∀ k, ∀ b, ¬ Grounded g b → (before g clock c k).ts b = c ∧ ∀ x ∈ (before g clock c k).hist b, x = c from (H (k + 1) b h).1
  intro k
  induction k with
  | zero => intro b _; exact ⟨rfl, by simp [before]⟩
  | succ k ih =>
    intro b
    induction b using Nat.strong_induction_on with
    | _ b ihb =>
      intro hb
      cases hr : g[b]? with
      | none =>
        have hl : g.length ≤ b := by
          by_contra hc
          rw [List.getElem?_eq_getElem (by omega)] at hr
          cases hr
        obtain ⟨h1, h2⟩ := part_before g (clock k) (before g clock c k) hl
        have e : before g clock c (k + 1) = part g (clock k) (before g clock c k) g.length := rfl
        rw [e, h1, h2]
        exact ih b hb
      | some r =>
        have own := ih b hb
        have hist : ∀ x ∈ (before g clock c (k + 1)).hist b, x = c := by
          cases hs : r.src with
          | none =>
            have : (before g clock c (k + 1)).hist b = (before g clock c k).hist b := by
              have hl := lt_of_rule hr
              rw [before, cycle, (part_after g (clock k) (before g clock c k) hl).2]
              simp only [part, runBlk, hr, hs, Function.update_self]
              exact (part_before g (clock k) (before g clock c k) (le_refl b)).2
            rw [this]; exact own.2
          | some j =>
            have hj : ¬ Grounded g j := fun hg => hb (.via hr hs hg)
            rw [hist_succ hr hs]
            intro x hx
            rcases List.mem_cons.1 hx with rfl | hx
            · rw [seen_eq _ _ _ _ _ _ (lt_of_rule hr).le]
              split
              · rename_i hl; exact (ihb j hl hj).1
              · exact (ih j hj).1
            · exact own.2 x hx
        refine ⟨?_, hist⟩
        have hst := stamp_eq (clock := clock) (c := c) hr k
        unfold stamp at hst
        rw [hst]
        cases r with
        | now => exact absurd (Grounded.now hr) hb
        | keep => exact own.1
        | copy j =>
          show seen g clock c k b j = c
          exact hist _ (by rw [hist_succ hr rfl]; exact List.mem_cons_self)
        | older j d =>
          show ((seen g clock c k b j :: (before g clock c k).hist b)[d]?).getD _ = c
          rw [← hist_succ hr rfl]
          cases hg : ((before g clock c (k + 1)).hist b)[d]? with
          | none => exact own.1
          | some x => exact hist x (List.mem_of_getElem? hg)
        | mean j =>
          rw [hist_succ hr rfl] at hist
          show emit (.mean j) _ _ (seen g clock c k b j :: (before g clock c k).hist b) = c
          have h0 := hist _ List.mem_cons_self
          rw [h0]
          cases hh : (before g clock c k).hist b with
          | nil => rfl
          | cons y l =>
            have hy : y = c := hist y (by rw [hh]; simp)
            show (if c ≠ y then _ else _) = c
            rw [hy, if_neg (by simp)]
            exact own.1

/-- Exactly the outputs whose wire leads back to the clock have time stamps which advance. -/
theorem advances_iff {g : List Rule} {clock : Nat → Nat → Nat} (hc : Clock clock) (c b : Nat) :
    (∃ f, ∀ k, f ≤ k → stamp g clock c k b < stamp g clock c (k + 1) b) ↔ Grounded g b := by
  constructor
  · rintro ⟨f, h⟩
    by_contra hg
    have := h f (le_refl f)
    rw [frozen_violated clock c hg, frozen_violated clock c hg] at this
    exact absurd this (lt_irrefl c)
  · intro hg
    obtain ⟨f, F, hF⟩ := grounded_follows clock hg
    refine ⟨f, fun k hk => ?_⟩
    rw [stamp_follows hc c hF k hk, stamp_follows hc c hF (k + 1) (by omega)]
    exact follows_strict hc hF k hk

/-! ### The integrator in a diagram -/
section
variable {K : Type} [Field K] [LinearOrder K] [IsStrictOrderedRing K]

/-- An integrator which runs as block `b` of the diagram with its input connected to output `j`; `v k` is the value it reads in cycle
`k`.  The state before cycle `k`. -/
def integ (g : List Rule) (clock : Nat → Nat → Nat) (c b j : Nat) (v : Nat → Option K) (s : Integrator.St K) : Nat → Integrator.St K
  | 0 => s
  | k + 1 => Integrator.run (integ g clock c b j v s k) (v k) (seen g clock c k b j) true

theorem integ_ts (g : List Rule) (clock : Nat → Nat → Nat) (c b j : Nat) (v : Nat → Option K) (s : Integrator.St K) (k : Nat) :
    (integ g clock c b j v s (k + 1)).prevTs = seen g clock c k b j ∧ (integ g clock c b j v s (k + 1)).first = false := ⟨rfl, rfl⟩

omit [LinearOrder K] [IsStrictOrderedRing K] in
theorem seconds_self (c : Nat) : Integrator.seconds (K := K) c c = 0 := by simp [Integrator.seconds]

theorem next_zero (s : Integrator.St K) (x : Option K) : Integrator.next s s.prev x 0 = s.prev := by
  unfold Integrator.next
  split
  · rename_i p x hp
    simp only [mul_zero, add_zero]
    split <;> simp_all
  · rfl

/-- **An integrator whose time stamps do not lead back to the clock never integrates**: it keeps its initial value whatever the input
is, in every diagram and for ever. -/
theorem dead_integrator_violated {g : List Rule} (clock : Nat → Nat → Nat) (c : Nat) {b j : Nat} (hb : g[b]? = some (.copy j))
    (hj : ¬ Grounded g j) (v : Nat → Option K) (s : Integrator.St K) (hf : s.first = true) (k : Nat) :
    (integ g clock c b j v s k).prev = s.prev := by
  have hs : ∀ k, seen g clock c k b j = c := by
    intro k
    rw [seen_eq _ _ _ _ _ _ (lt_of_rule hb).le]
    split
    · exact frozen_violated clock c hj k
    · cases k with
      | zero => rfl
      | succ k => exact frozen_violated clock c hj k
  induction k with
  | zero => rfl
  | succ k ih =>
    have hdt : (if (integ g clock c b j v s k).first then (0 : K) else
        Integrator.seconds (integ g clock c b j v s k).prevTs (seen g clock c k b j)) = 0 := by
      cases k with
      | zero => rw [show integ g clock c b j v s 0 = s from rfl, hf]; rfl
      | succ k =>
        obtain ⟨h1, h2⟩ := integ_ts g clock c b j v s k
        rw [h1, h2, hs, hs, seconds_self]
        rfl
    rw [integ, Integrator.run]
    simp only [hdt]
    rw [← ih]
    split
    · exact next_zero _ _
    · split
      · exact next_zero _ _
      · rfl

/-- With a wire back to the clock the elapsed time which the integrator uses is the time between two readings of that clock: the
output grows by the input times it (inside of the limits). -/
theorem integrator_step {g : List Rule} {clock : Nat → Nat → Nat} (hc : Clock clock) (c : Nat) {b j f : Nat} {F : Nat → Nat}
    (hb : g[b]? = some (.copy j)) (hF : Follows g clock j f F) (v : Nat → Option K) (s : Integrator.St K) (k : Nat)
    (hk : f + lag b j ≤ k) (he : (integ g clock c b j v s (k + 1)).enabled = true) (hl : s.hasLevel = false) (p x : K)
    (hp : (integ g clock c b j v s (k + 1)).prev = some p) (hv : v (k + 1) = some x)
    (hu : p + x * Integrator.seconds (F (k - lag b j)) (F (k + 1 - lag b j)) < (integ g clock c b j v s (k + 1)).upper)
    (hlo : (integ g clock c b j v s (k + 1)).lower < p + x * Integrator.seconds (F (k - lag b j)) (F (k + 1 - lag b j))) :
    (integ g clock c b j v s (k + 2)).out = some (p + x * Integrator.seconds (F (k - lag b j)) (F (k + 1 - lag b j))) := by
  have hlev : ∀ k, (integ g clock c b j v s k).hasLevel = false := by
    intro k
    induction k with
    | zero => exact hl
    | succ k ih => exact ih
  have e1 := seen_of (c := c) (b := b) (lt_of_rule hb).le (stamp_follows hc c hF) k hk
  have e2 := seen_of (c := c) (b := b) (lt_of_rule hb).le (stamp_follows hc c hF) (k + 1) (by omega)
  obtain ⟨h1, h2⟩ := integ_ts g clock c b j v s k
  show (Integrator.run (integ g clock c b j v s (k + 1)) (v (k + 1)) (seen g clock c (k + 1) b j) true).out = _
  simp only [Integrator.run, hlev, h2, h1, e1, e2, he, hp, hv, Integrator.next, if_true, Bool.false_eq_true, if_false, hu, hlo, and_self]

/-- If the source of the time stamps runs after the integrator (feedback), the integrator has read the initial time stamp in the first
cycle, and in the second it takes the whole time from it (0 in a cleared signal, i.e. the origin of the clock) to the first reading as
the elapsed time: the output jumps by the input times this. -/
theorem first_step_violated {g : List Rule} {clock : Nat → Nat → Nat} (hc : Clock clock) (c : Nat) {b j : Nat}
    (hb : g[b]? = some (.copy j)) (hj : g[j]? = some .now) (hbj : b ≤ j) (v : Nat → Option K) (s : Integrator.St K)
    (hf : s.first = true) (he : s.enabled = true) (hl : s.hasLevel = false) (p x y : K) (hp : s.prev = some p)
    (h0 : v 0 = some y) (hv : v 1 = some x)
    (hu : p + x * Integrator.seconds c (clock 0 j) < s.upper) (hlo : s.lower < p + x * Integrator.seconds c (clock 0 j)) :
    (integ g clock c b j v s 2).out = some (p + x * Integrator.seconds c (clock 0 j)) := by
  have e0 : seen g clock c 0 b j = c := by
    rw [seen_eq _ _ _ _ _ _ (lt_of_rule hb).le, if_neg (by omega)]; rfl
  have e1 : seen g clock c 1 b j = clock 0 j := by
    rw [seen_eq _ _ _ _ _ _ (lt_of_rule hb).le, if_neg (by omega)]
    exact stamp_follows hc c (.now hj) 0 (le_refl 0)
  have h1 : (integ g clock c b j v s 1).prev = some p := by
    show (Integrator.run s (v 0) (seen g clock c 0 b j) true).prev = _
    simp only [Integrator.run, hf, he, hl, hp, h0, Integrator.next, if_true, Bool.false_eq_true, if_false, mul_zero, add_zero]
    split <;> rfl
  have h2 : (integ g clock c b j v s 1).prevTs = c := e0
  have h3 : (integ g clock c b j v s 1).enabled = true := by
    show (if s.hasLevel then true else s.enabled) = true
    simp [he]
  show (Integrator.run (integ g clock c b j v s 1) (v 1) (seen g clock c 1 b j) true).out = _
  have h4 : (integ g clock c b j v s 1).hasLevel = false := hl
  have h5 : (integ g clock c b j v s 1).first = false := rfl
  have h6 : (integ g clock c b j v s 1).upper = s.upper := rfl
  have h7 : (integ g clock c b j v s 1).lower = s.lower := rfl
  simp only [Integrator.run, h4, h5, h2, h1, h3, e1, hv, Integrator.next, if_true, Bool.false_eq_true, if_false, h6, h7, hu, hlo, and_self]

end

/-! ### Examples: a control loop -/

/-- Setpoint (clock), sum with the setpoint as its first input, gain, integrator. -/
def good : List Rule := [.now, .copy 0, .copy 1, .copy 2]
/-- The same with the feedback (the integrator) as the first input of the sum. -/
def bad : List Rule := [.now, .copy 3, .copy 1, .copy 2]

theorem clockEx : Clock (fun k i => 1000 * (k + 1) + min i 999) := ⟨fun k i j h => by omega, fun k i j => by omega⟩

/-- In the first loop all time stamps are those of the setpoint of the same cycle. -/
example (k : Nat) : stamp good (fun k i => 1000 * (k + 1) + min i 999) 0 k 3 = 1000 * (k + 1) := by
  have h : Follows good (fun k i => 1000 * (k + 1) + min i 999) 3 0 (fun k => 1000 * (k + 1) + min 0 999) :=
    .copy (j := 2) (f := 0) rfl (.copy (j := 1) (f := 0) rfl (.copy (j := 0) (f := 0) rfl (.now rfl)))
  rw [stamp_follows clockEx 0 h k (Nat.zero_le k)]
  simp

/-- In the second they stay 0, and the integrator never integrates. -/
theorem bad_loop : ¬ Grounded bad 2 := by
  have key : ∀ b, Grounded bad b → b ≠ 1 ∧ b ≠ 2 ∧ b ≠ 3 := by
    intro b h
    induction h with
    | now hr => refine ⟨?_, ?_, ?_⟩ <;> rintro rfl <;> simp [bad] at hr
    | via hr hs _ ih =>
      refine ⟨?_, ?_, ?_⟩ <;> rintro rfl <;> simp [bad] at hr <;> subst hr <;> simp [Rule.src] at hs <;> subst hs <;> simp at ih
  exact fun h => (key 2 h).2.1 rfl

example (k : Nat) : stamp bad (fun k i => 1000 * (k + 1) + min i 999) 0 k 2 = 0 := frozen_violated _ 0 bad_loop k

/-- A delay and a differentiator behind a source: the mean of the readings of the clock two and three cycles ago. -/
example (k : Nat) (hk : 3 ≤ k) : stamp [.now, .older 0 2, .mean 1] (fun k i => 1000 * (k + 1) + min i 999) 0 k 2 =
    (1000 * (k - 2 + 1) + 1000 * (k - 3 + 1)) / 2 := by
  have h : Follows [.now, .older 0 2, .mean 1] (fun k i => 1000 * (k + 1) + min i 999) 2 3
      (fun k => ((1000 * (k - 2 + 1) + min 0 999) + (1000 * (k - 1 - 2 + 1) + min 0 999)) / 2) :=
    .mean (j := 1) (f := 2) rfl (.older (j := 0) (f := 0) (d := 2) rfl (.now rfl))
  rw [stamp_follows clockEx 0 h k hk]
  simp only [Nat.zero_min, add_zero]
  congr 4

/-- An integrator before its source: with the time stamp of cycle `k - 1`. -/
example : Follows [.copy 1, .now] (fun k i => 1000 * (k + 1) + min i 999) 0 1 (fun k => 1000 * (k - 1 + 1) + min 1 999) :=
  .copy (j := 1) (f := 0) rfl (.now rfl)

/-- An enabled integrator with value 5. -/
def intEx : Integrator.St ℚ := { Integrator.new 1000000 with enabled := true, prev := some 5 }

/-- It jumps from 5 to 5 + 2 * 3600 in the second cycle if the clock shows one hour, although a cycle takes 1 ms. -/
example : (integ [.copy 1, .now] (fun k _ => 3600000000000 + 1000000 * k) 0 0 1 (fun _ => some 2) intEx 2).out = some 7205 := by
  have h := first_step_violated (K := ℚ) (g := [.copy 1, .now]) (clock := fun k _ => 3600000000000 + 1000000 * k)
    ⟨fun _ _ _ _ => le_refl _, fun k _ _ => by omega⟩ 0 (b := 0) (j := 1) rfl rfl (by omega) (fun _ => some 2) intEx rfl rfl rfl 5 2 2
    rfl rfl rfl (by norm_num [Integrator.seconds, intEx, Integrator.new]) (by norm_num [Integrator.seconds, intEx, Integrator.new])
  rw [h]
  norm_num [Integrator.seconds]

/-- In the first control loop the integrator has integrated 2 over 1 ms after two cycles, in the second nothing after any number. -/
example : (integ good (fun k _ => 3600000000000 + 1000000 * k) 0 3 2 (fun _ => some 2) intEx 2).out = some (5 + 2 / 1000) := by
  have hF : Follows good (fun k _ => 3600000000000 + 1000000 * k) 2 0 (fun k => 3600000000000 + 1000000 * k) :=
    .copy (j := 1) (f := 0) rfl (.copy (j := 0) (f := 0) rfl (.now rfl))
  have h := integrator_step (K := ℚ) (g := good) (clock := fun k _ => 3600000000000 + 1000000 * k)
    ⟨fun _ _ _ _ => le_refl _, fun k _ _ => by omega⟩ 0 (b := 3) (j := 2) rfl hF (fun _ => some 2) intEx 0 (by simp [lag])
    rfl rfl 5 2 (by norm_num [integ, intEx, Integrator.run, Integrator.new, Integrator.next]) rfl
    (by norm_num [Integrator.seconds, integ, intEx, Integrator.run, Integrator.new, lag])
    (by norm_num [Integrator.seconds, integ, intEx, Integrator.run, Integrator.new, lag])
  rw [h]
  norm_num [Integrator.seconds, lag]

example (k : Nat) : (integ bad (fun k _ => 3600000000000 + 1000000 * k) 0 3 2 (fun _ => some 2) intEx k).prev = some 5 :=
  dead_integrator_violated _ 0 rfl bad_loop _ intEx rfl k

/-- Case of `grounded_follows`, `advances_iff`, `follows_strict` and `stamp_age`: the integrator of the first loop. -/
theorem goodEx : Grounded good 3 := .via (r := .copy 2) (j := 2) rfl rfl (.via (r := .copy 1) (j := 1) rfl rfl (.via (r := .copy 0) (j := 0) rfl rfl (.now rfl)))
example : ∃ f, ∀ k, f ≤ k → stamp good (fun k i => 1000 * (k + 1) + min i 999) 0 k 3 < stamp good (fun k i => 1000 * (k + 1) + min i 999) 0 (k + 1) 3 :=
  (advances_iff clockEx 0 3).2 goodEx
example : ∃ (f : Nat) (F : Nat → Nat), ∀ k, f ≤ k → F k < F (k + 1) ∧ 1000 * (k - f + 1) ≤ F k ∧ F k ≤ 1000 * (k + 1) + 3 := by
  obtain ⟨f, F, h⟩ := grounded_follows (fun k i => 1000 * (k + 1) + min i 999) goodEx
  refine ⟨f, F, fun k hk => ⟨follows_strict clockEx h k hk, ?_⟩⟩
  have := stamp_age clockEx h k hk
  omega

end Verif.Control.Stamps
