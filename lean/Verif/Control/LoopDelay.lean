import Mathlib.Data.List.Rotate
import Mathlib.Data.List.Chain
import Mathlib.Data.List.Induction
import Mathlib.Logic.Function.Iterate
import Mathlib.Tactic.Ring
import Verif.Control.DataflowProps

/-!
How many cycles a value needs to go once around a feedback loop.

`TimeDomain::run` (src/control/TimeDomain.cpp:25-40) runs the blocks in the order in which they were added (TimeDomain.cpp:50-56), and a signal read before its block has
run is the one of the cycle before (Input.hpp:82-84, Signal.hpp:79-81).  The delay of a feedback loop is therefore a matter of the order of the `addBlock` calls.

Model: the diagrams of `Verif.Control.Dataflow`, here those of blocks with one input, one output and no state (`wires`), such as gains, saturations, and
`WrapAround`s.  Other blocks may run in between.
-/
namespace Verif.Control.LoopDelay

open Verif.Control.Dataflow

variable {V : Type}

/-- Blocks with one input and one output: block `b` reads the signal of block `prev b` and writes `f b` of it, as `Gain::run` (Gain.hpp:107-140), `Saturation::run`
(Saturation.hpp:53-60) do. -/
def wires [Inhabited V] (prev : Nat → Nat) (f : Nat → V → V) : Net Unit V :=
  { ins := fun b => [prev b], outs := fun b => [b], val := fun b _ v _ => f b (v.headD default), next := fun _ _ _ => () }

/-- The signal of block `b` after `k` cycles of the blocks `bs`. -/
def out [Inhabited V] (prev : Nat → Nat) (f : Nat → V → V) (bs : List Nat) (s : St Unit V) (k b : Nat) : V := (cycles (wires prev f) bs s k).sig b

/-! ### Specification -/

/-- The block at place `q` of the order reads the block at place `p`: the value of this cycle if `p` comes first, otherwise the one before. -/
def lag (p q : Nat) : Nat := if p < q then 0 else 1

/-- The delay along a path, given by the places of its blocks. -/
def along : List Nat → Nat
  | a :: b :: l => lag a b + along (b :: l)
  | _ => 0

/-- The delay once around the loop of blocks at the places `a :: l`. -/
def around : List Nat → Nat
  | [] => 0
  | a :: l => along (a :: l ++ [a])

/-- The loop `l`: each block reads the one before it in the list, the first one the last one. -/
def Ring (prev : Nat → Nat) : List Nat → Prop
  | [] => False
  | a :: l => List.IsChain (fun x y => prev y = x) (a :: l ++ [a])

/-! ### The delay of a loop as a matter of the order -/

theorem along_append (l : List Nat) (a : Nat) (m : List Nat) : along (l ++ a :: m) = along (l ++ [a]) + along (a :: m) := by
  induction l with
  | nil => simp [along]
  | cons x l ih =>
    cases l with
    | nil => simp [along]
    | cons y l => simp only [List.cons_append, along] at ih ⊢; rw [ih]; ring

theorem around_shift (a : Nat) (l : List Nat) : around (l ++ [a]) = around (a :: l) := by
  cases l with
  | nil => rfl
  | cons b l =>
    show along (b :: (l ++ [a]) ++ [b]) = lag a b + along (b :: l ++ [a])
    have : b :: (l ++ [a]) ++ [b] = (b :: l) ++ a :: [b] := by simp
    rw [this, along_append]
    simp only [along]
    ring

/-- It does not matter where one begins to count. -/
theorem around_rotate (l : List Nat) (k : Nat) : around (l.rotate k) = around l := by
  induction k with
  | zero => simp
  | succ k ih =>
    rw [← List.rotate_rotate, ← ih]
    cases l.rotate k with
    | nil => rfl
    | cons a l => rw [List.rotate_cons_succ, List.rotate_zero]; exact around_shift a l

theorem along_zero_iff (l : List Nat) : along l = 0 ↔ l.Pairwise (· < ·) := by
  rw [← List.isChain_iff_pairwise]
  induction l with
  | nil => simp [along]
  | cons a l ih =>
    cases l with
    | nil => simp [along]
    | cons b l =>
      rw [List.isChain_cons_cons, ← ih, along, lag]
      split <;> omega

theorem along_le (l : List Nat) : along l ≤ l.length - 1 := by
  induction l with
  | nil => simp [along]
  | cons a l ih =>
    cases l with
    | nil => simp [along]
    | cons b l =>
      simp only [along, List.length_cons] at ih ⊢
      have : lag a b ≤ 1 := by unfold lag; split <;> omega
      omega

/-- A non-empty list can be turned such that its least element is the first one. -/
theorem least_first (l : List Nat) (h : l ≠ []) : ∃ k a m, l.rotate k = a :: m ∧ ∀ x ∈ m, a ≤ x := by
  have : ∃ a ∈ l, ∀ x ∈ l, a ≤ x := by
    induction l with
    | nil => exact absurd rfl h
    | cons b l ih =>
      by_cases hl : l = []
      · exact ⟨b, by simp, by simp [hl]⟩
      · obtain ⟨a, ha, hx⟩ := ih hl
        by_cases hab : a ≤ b
        · exact ⟨a, List.mem_cons_of_mem _ ha, fun x hm => by
            rcases List.mem_cons.1 hm with rfl | hm
            · exact hab
            · exact hx x hm⟩
        · exact ⟨b, by simp, fun x hm => by
            rcases List.mem_cons.1 hm with rfl | hm
            · exact le_refl _
            · exact (Nat.le_of_not_le hab).trans (hx x hm)⟩
  obtain ⟨a, ha, hx⟩ := this
  obtain ⟨p, q, rfl⟩ := List.append_of_mem ha
  refine ⟨p.length, a, q ++ p, ?_, fun x hm => hx x ?_⟩
  · rw [List.rotate_append_length_eq]; rfl
  · simp only [List.mem_append, List.mem_cons] at hm ⊢; tauto

theorem around_cons (a : Nat) (m : List Nat) (h : ∀ x ∈ m, a ≤ x) : around (a :: m) = along (a :: m) + 1 := by
  show along (a :: m ++ [a]) = _
  rcases List.eq_nil_or_concat m with rfl | ⟨m', b, rfl⟩
  · simp [along, lag]
  · have hb := h b (by simp)
    rw [show a :: (m'.concat b) ++ [a] = (a :: m') ++ b :: [a] by simp, along_append]
    simp [along, lag, Nat.not_lt.2 hb]

/-- A value needs at least one cycle to go around a loop: every loop closes, there is no algebraic loop. -/
theorem loop_delays (l : List Nat) (h : l ≠ []) : 1 ≤ around l := by
  obtain ⟨k, a, m, hr, hm⟩ := least_first l h
  rw [← around_rotate l k, hr, around_cons a m hm]
  omega

/-- It needs exactly one cycle if and only if the blocks of the loop were added in the direction of its signals, beginning with any of them. -/
theorem one_cycle_iff (l : List Nat) (h : l ≠ []) : around l = 1 ↔ ∃ k, (l.rotate k).Pairwise (· < ·) := by
  constructor
  · intro h1
    obtain ⟨k, a, m, hr, hm⟩ := least_first l h
    rw [← around_rotate l k, hr, around_cons a m hm] at h1
    exact ⟨k, by rw [hr, ← along_zero_iff]; omega⟩
  · rintro ⟨k, hk⟩
    rw [← around_rotate l k]
    have hne : l.rotate k ≠ [] := by simpa using h
    obtain ⟨a, m, hr⟩ := List.exists_cons_of_ne_nil hne
    rw [hr] at hk ⊢
    rw [around_cons a m (fun x hx => ((List.pairwise_cons.1 hk).1 x hx).le), (along_zero_iff _).2 hk]

theorem along_reverse (l : List Nat) (h : l.IsChain (· ≠ ·)) : along l + along l.reverse = l.length - 1 := by
  induction l with
  | nil => simp [along]
  | cons a l ih =>
    cases l with
    | nil => simp [along]
    | cons b l =>
      rw [List.isChain_cons_cons] at h
      have := ih h.2
      rw [List.reverse_cons, List.reverse_cons, List.append_assoc, List.singleton_append, along_append, ← List.reverse_cons, along]
      simp only [along, List.length_cons] at this ⊢
      have : lag a b + lag b a = 1 := by unfold lag; split <;> split <;> omega
      omega

/-- A loop and the loop in the other direction share the connections: each of them delays exactly one of the two. -/
theorem around_reverse (l : List Nat) (hn : l.Nodup) (h2 : 2 ≤ l.length) : around l + around l.reverse = l.length := by
  obtain ⟨a, m, rfl⟩ := List.exists_cons_of_ne_nil (l := l) (by rintro rfl; simp at h2)
  rw [List.reverse_cons, around_shift]
  show along (a :: m ++ [a]) + along (a :: m.reverse ++ [a]) = _
  have hc : (a :: m ++ [a]).IsChain (· ≠ ·) := by
    rcases List.eq_nil_or_concat m with rfl | ⟨m', b, rfl⟩
    · simp at h2
    · rw [show a :: (m'.concat b) ++ [a] = (a :: m') ++ b :: [a] by simp, List.isChain_split]
      refine ⟨?_, ?_⟩
      · have : (a :: m' ++ [b]).Nodup := by simpa using hn
        exact List.Pairwise.isChain this
      · simp at hn ⊢
        intro e; exact hn.1.2 e.symm
  have := along_reverse _ hc
  rw [show (a :: m ++ [a]).reverse = a :: m.reverse ++ [a] by simp] at this
  simpa using this

/-- A loop of two or more blocks delays by fewer cycles than it has blocks, and the most is reached if and only if the blocks were added against its direction. -/
theorem longest_iff (l : List Nat) (hn : l.Nodup) (h2 : 2 ≤ l.length) :
    around l ≤ l.length - 1 ∧ (around l = l.length - 1 ↔ ∃ k, (l.rotate k).Pairwise (· > ·)) := by
  have hr := around_reverse l hn h2
  have hne : l.reverse ≠ [] := by intro e; simp at e; simp [e] at h2
  have h1 := loop_delays l.reverse hne
  refine ⟨by omega, ?_⟩
  have : around l = l.length - 1 ↔ around l.reverse = 1 := by omega
  rw [this, one_cycle_iff _ hne]
  constructor
  · rintro ⟨k, hk⟩
    rw [List.rotate_reverse] at hk
    exact ⟨_, List.pairwise_reverse.1 hk⟩
  · rintro ⟨k, hk⟩
    refine ⟨l.length - k % l.length, ?_⟩
    rw [List.rotate_reverse]
    refine List.pairwise_reverse.2 ?_
    have hlt : k % l.length < l.length := Nat.mod_lt _ (by omega)
    rcases Nat.eq_zero_or_pos (k % l.length) with h0 | h0
    · rw [← List.rotate_mod, h0] at hk
      rw [h0, Nat.sub_zero, Nat.mod_self, Nat.sub_zero, ← List.rotate_mod, Nat.mod_self]
      exact hk
    · rw [Nat.mod_eq_of_lt (by omega : l.length - k % l.length < l.length), show l.length - (l.length - k % l.length) = k % l.length by omega, List.rotate_mod]
      exact hk

/-! ### What the blocks compute -/

section values

variable [Inhabited V] (prev : Nat → Nat) (f : Nat → V → V) (bs : List Nat) (hn : bs.Nodup) (s : St Unit V)

include hn

/-- One connection: the value a block writes in a cycle is its function of what the block before it has written `lag` cycles earlier. -/
theorem link (k b : Nat) (hb : b ∈ bs) :
    out prev f bs s (k + 1) b = f b (out prev f bs s (k + 1 - lag (bs.idxOf (prev b)) (bs.idxOf b)) (prev b)) := by
  obtain ⟨l1, l2, he⟩ := List.append_of_mem hb
  have ho : Owned (wires prev f) (l1 ++ b :: l2) := by
    intro c _ d _ x hc hd
    simp only [wires, List.mem_singleton] at hc hd
    rw [← hc, ← hd]
  have hn' : (l1 ++ b :: l2).Nodup := he ▸ hn
  have h := (cycle_values (wires prev f) l1 b l2 hn' ho (cycles (wires prev f) bs s k)).1 b (by simp [wires])
  rw [← he] at h
  have hb1 : b ∉ l1 := fun hm => by
    rw [List.nodup_append] at hn'
    exact hn'.2.2 b hm b (by simp) rfl
  have hbi : bs.idxOf b = l1.length := by rw [he, List.idxOf_append_of_notMem hb1]; simp
  have hiff : prev b ∈ l1 ↔ bs.idxOf (prev b) < bs.idxOf b := by
    rw [hbi]
    constructor
    · intro hm; rw [he, List.idxOf_append_of_mem hm]; exact List.idxOf_lt_length_of_mem hm
    · intro hlt
      by_contra hm
      rw [he, List.idxOf_append_of_notMem hm] at hlt
      omega
  have hex : (∃ c ∈ l1, prev b ∈ (wires prev f).outs c) ↔ prev b ∈ l1 := by simp [wires]
  show (cycle (wires prev f) bs (cycles (wires prev f) bs s k)).sig b = _
  rw [h]
  show f b (List.headD [Dataflow.seen (wires prev f) l1 (cycles (wires prev f) bs s k) (cycle (wires prev f) bs (cycles (wires prev f) bs s k)) (prev b)] default) = _
  simp only [List.headD_cons, Dataflow.seen, hex, hiff, lag]
  split <;> rfl

/-- A path: the value at its end is the composition of the functions of its blocks, applied to what its first block has written as many cycles earlier as there
are connections against the order of the blocks. -/
theorem path (a : Nat) (l : List Nat) (hc : List.IsChain (fun x y => prev y = x) (a :: l)) (hm : ∀ b ∈ a :: l, b ∈ bs) (k : Nat) :
    out prev f bs s (k + 1 + along ((a :: l).map bs.idxOf)) ((a :: l).getLast (by simp)) = l.foldl (fun v b => f b v) (out prev f bs s (k + 1) a) := by
  induction l using List.reverseRecOn generalizing k with
  | nil => rfl
  | append_singleton l b ih =>
    have hsplit : a :: (l ++ [b]) = (a :: l) ++ [b] := rfl
    rw [hsplit] at hc hm
    have hprev : prev b = (a :: l).getLast (by simp) := by
      rw [List.isChain_append] at hc
      exact hc.2.2 _ (List.getLast_mem_getLast? _) b (by simp)
    have hc' : List.IsChain (fun x y => prev y = x) (a :: l) := (List.isChain_append.1 hc).1
    have hlen : along ((a :: (l ++ [b])).map bs.idxOf) = along ((a :: l).map bs.idxOf) + lag (bs.idxOf (prev b)) (bs.idxOf b) := by
      rw [hprev]
      obtain ⟨m, c, hmc⟩ : ∃ m c, a :: l = m ++ [c] := ⟨_, _, (List.dropLast_append_getLast (by simp : a :: l ≠ [])).symm⟩
      rw [hsplit]
      simp only [hmc, List.map_append, List.map_cons, List.map_nil, List.append_assoc, List.singleton_append, List.getLast_append_singleton]
      rw [along_append]
      simp [along]
    have hlast : (a :: (l ++ [b])).getLast (by simp) = b := List.getLast_append_singleton (l := a :: l) (a := b)
    rw [hlast, hlen]
    have hlk := link prev f bs hn s (k + (along ((a :: l).map bs.idxOf) + lag (bs.idxOf (prev b)) (bs.idxOf b))) b (hm b (by simp))
    rw [show k + 1 + (along ((a :: l).map bs.idxOf) + lag (bs.idxOf (prev b)) (bs.idxOf b)) = k + (along ((a :: l).map bs.idxOf) + lag (bs.idxOf (prev b)) (bs.idxOf b)) + 1 by ring, hlk,
      show k + (along ((a :: l).map bs.idxOf) + lag (bs.idxOf (prev b)) (bs.idxOf b)) + 1 - lag (bs.idxOf (prev b)) (bs.idxOf b) = k + 1 + along ((a :: l).map bs.idxOf) by omega,
      hprev, ih hc' (fun c hc => hm c (List.mem_append_left _ hc)) k, List.foldl_append]
    rfl

/-- Once around a loop: the value of a block is repeated, with the functions of all the blocks of the loop applied to it, after `around` cycles. -/
theorem once_around (a : Nat) (l : List Nat) (hr : Ring prev (a :: l)) (hm : ∀ b ∈ a :: l, b ∈ bs) (k : Nat) :
    out prev f bs s (k + 1 + around ((a :: l).map bs.idxOf)) a = (l ++ [a]).foldl (fun v b => f b v) (out prev f bs s (k + 1) a) := by
  have h := path prev f bs hn s a (l ++ [a]) hr (fun b hb => hm b (by simp at hb ⊢; tauto)) k
  have e : along ((a :: (l ++ [a])).map bs.idxOf) = around ((a :: l).map bs.idxOf) := by simp [around]
  have el : (a :: (l ++ [a])).getLast (by simp) = a := List.getLast_append_singleton (l := a :: l) (a := a)
  rwa [e, el] at h

omit [Inhabited V] in
/-- The places of the blocks in the order. -/
theorem places : bs.Pairwise (fun a b => bs.idxOf a < bs.idxOf b) := by
  rw [List.pairwise_iff_getElem]
  intro i j hi hj hij
  rwa [hn.idxOf_getElem i hi, hn.idxOf_getElem j hj]

/-- Any number of times around it. -/
theorem many_around (a : Nat) (l : List Nat) (hr : Ring prev (a :: l)) (hm : ∀ b ∈ a :: l, b ∈ bs) (k n : Nat) :
    out prev f bs s (k + 1 + n * around ((a :: l).map bs.idxOf)) a = (fun v => (l ++ [a]).foldl (fun v b => f b v) v)^[n] (out prev f bs s (k + 1) a) := by
  induction n with
  | zero => simp
  | succ n ih =>
    rw [Function.iterate_succ_apply', ← ih]
    have h := once_around prev f bs hn s a l hr hm (k + n * around ((a :: l).map bs.idxOf))
    rw [show k + n * around ((a :: l).map bs.idxOf) + 1 + around ((a :: l).map bs.idxOf) = k + 1 + (n + 1) * around ((a :: l).map bs.idxOf) by ring,
      show k + n * around ((a :: l).map bs.idxOf) + 1 = k + 1 + n * around ((a :: l).map bs.idxOf) by ring] at h
    exact h

/-- The blocks of the loop were added in its direction, others in between as one likes: the whole loop is computed in every cycle. -/
theorem in_direction (a : Nat) (l : List Nat) (hr : Ring prev (a :: l)) (hl : List.Sublist (a :: l) bs) (k n : Nat) :
    out prev f bs s (k + 1 + n) a = (fun v => (l ++ [a]).foldl (fun v b => f b v) v)^[n] (out prev f bs s (k + 1) a) := by
  have h1 : around ((a :: l).map bs.idxOf) = 1 :=
    (one_cycle_iff _ (by simp)).2 ⟨0, by simpa only [List.rotate_zero] using List.pairwise_map.2 ((places bs hn).sublist hl)⟩
  have h := many_around prev f bs hn s a l hr (fun b hb => hl.subset hb) k n
  rwa [h1, Nat.mul_one] at h

/-- They were added against its direction: a loop of `m + 2` blocks is computed once in `m + 1` cycles only. -/
theorem against_direction_violated (a b : Nat) (l : List Nat) (hr : Ring prev (a :: b :: l)) (hl : List.Sublist (a :: b :: l).reverse bs) (k n : Nat) :
    out prev f bs s (k + 1 + n * (l.length + 1)) a = (fun v => (b :: l ++ [a]).foldl (fun v b => f b v) v)^[n] (out prev f bs s (k + 1) a) := by
  have hp : ((a :: b :: l).map bs.idxOf).Pairwise (· > ·) := by
    have := (places bs hn).sublist hl
    rw [List.pairwise_reverse] at this
    exact List.pairwise_map.2 this
  have h1 : around ((a :: b :: l).map bs.idxOf) = l.length + 1 := by
    have := (longest_iff ((a :: b :: l).map bs.idxOf) (hp.imp (fun h => Nat.ne_of_gt h)) (by simp)).2.2 ⟨0, by simpa only [List.rotate_zero] using hp⟩
    simpa using this
  have h := many_around prev f bs hn s a (b :: l) hr (fun c hc => hl.subset (List.mem_reverse.2 hc)) k n
  rwa [h1] at h

end values

/-! ### Cases -/

/-- Four blocks in a ring, 0 → 1 → 2 → 3 → 0; block 3 doubles, the others pass the value on.  Block 9 belongs to another path and reads block 1. -/
def ring4 (b : Nat) : Nat := if b = 9 then 1 else (b + 3) % 4

/-- The functions of the four blocks. -/
def dbl (b : Nat) (v : Int) : Int := if b = 3 then 2 * v else v

/-- All signals are 1 at the start. -/
def ones : St Unit Int := ⟨fun _ => 1, fun _ => ()⟩

/-- Case of `in_direction`: the ring is added from block 2 on, block 9 in between. -/
example : Ring ring4 [2, 3, 0, 1] ∧ List.Sublist [2, 3, 0, 1] [2, 3, 9, 0, 1] :=
  ⟨by unfold Ring; decide +kernel, by decide +kernel⟩
example : (List.range 5).map (fun k => out ring4 dbl [2, 3, 9, 0, 1] ones k 1) = [1, 2, 4, 8, 16] := by decide +kernel
/-- Case of `against_direction_violated`: the same diagram needs three cycles. -/
example : Ring ring4 [0, 1, 2, 3] ∧ List.Sublist [0, 1, 2, 3].reverse [3, 2, 9, 1, 0] :=
  ⟨by unfold Ring; decide +kernel, by decide +kernel⟩
example : (List.range 9).map (fun k => out ring4 dbl [3, 2, 9, 1, 0] ones k 0) = [1, 2, 2, 2, 4, 4, 4, 8, 8] := by decide +kernel
/-- Case of `once_around`, `path` and `loop_delays`: an order with two connections against it. -/
example : around ([0, 1, 2, 3].map [1, 0, 2, 3].idxOf) = 2 ∧ (List.range 9).map (fun k => out ring4 dbl [1, 0, 2, 3] ones k 0) = [1, 1, 2, 2, 4, 4, 8, 8, 16] := by
  decide +kernel
/-- Case of `one_cycle_iff` and `longest_iff`. -/
example : around [5, 7, 1, 3] = 1 ∧ around [3, 1, 7, 5] = 3 ∧ around [4] = 1 ∧ around [1, 5, 3, 7] = 2 := by decide +kernel
/-- Case of `around_reverse`. -/
example : around [1, 5, 3, 7, 2] + around [2, 7, 3, 5, 1] = 5 := by decide +kernel

/-- Case of `link`: block 3 after block 2 in the order sees the signal of the same cycle, block 2 after block 1 that of the cycle before. -/
example (k : Nat) : out ring4 dbl [2, 3, 9, 0, 1] ones (k + 1) 3 = 2 * out ring4 dbl [2, 3, 9, 0, 1] ones (k + 1) 2 ∧
    out ring4 dbl [2, 3, 9, 0, 1] ones (k + 1) 2 = out ring4 dbl [2, 3, 9, 0, 1] ones k 1 :=
  ⟨link ring4 dbl [2, 3, 9, 0, 1] (by decide) ones k 3 (by decide), link ring4 dbl [2, 3, 9, 0, 1] (by decide) ones k 2 (by decide)⟩

end Verif.Control.LoopDelay
