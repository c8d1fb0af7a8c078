import Verif.Control.Dataflow
import Mathlib.Data.List.Induction
import Mathlib.Tactic.Ring
/-!
C140: a time domain computes the block diagram.  C141: signals become valid.
-/
namespace Verif.Control.Dataflow

variable {S V : Type}

theorem cycle_append (N : Net S V) (l m : List Nat) (s : St S V) : cycle N (l ++ m) s = cycle N m (cycle N l s) := by simp [cycle]

theorem cycle_cons (N : Net S V) (b : Nat) (m : List Nat) (s : St S V) : cycle N (b :: m) s = cycle N m (runBlock N s b) := rfl

theorem sig_kept (N : Net S V) (x : Nat) : ∀ (bs : List Nat) (s : St S V), (∀ b ∈ bs, x ∉ N.outs b) → (cycle N bs s).sig x = s.sig x := by
  intro bs
  induction bs with
  | nil => intro s _; rfl
  | cons b bs ih =>
    intro s h
    rw [cycle_cons, ih _ (fun c hc => h c (List.mem_cons_of_mem _ hc))]
    simp [runBlock, h b (by simp)]

theorem st_kept (N : Net S V) (c : Nat) : ∀ (bs : List Nat) (s : St S V), c ∉ bs → (cycle N bs s).st c = s.st c := by
  intro bs
  induction bs with
  | nil => intro s _; rfl
  | cons b bs ih =>
    intro s h
    simp only [List.mem_cons, not_or] at h
    rw [cycle_cons, ih _ h.2]
    simp [runBlock, h.1]

/-- Every signal belongs to one block at most. -/
def Owned (N : Net S V) (bs : List Nat) : Prop := ∀ c ∈ bs, ∀ d ∈ bs, ∀ x, x ∈ N.outs c → x ∈ N.outs d → c = d

/-- The value block `b` reads from a signal: the one of this cycle if the block of the signal comes before `b`, otherwise the one of the cycle before. -/
def seen (N : Net S V) (l1 : List Nat) (s s' : St S V) (y : Nat) [Decidable (∃ c ∈ l1, y ∈ N.outs c)] : V := if ∃ c ∈ l1, y ∈ N.outs c then s'.sig y else s.sig y

/-- What one cycle computes, for every diagram and every order of the blocks: each block sees the values of this cycle of the blocks before it and the values of the
cycle before of itself and of the blocks behind it. -/
theorem cycle_values (N : Net S V) (l1 : List Nat) (b : Nat) (l2 : List Nat) (hn : (l1 ++ b :: l2).Nodup) (ho : Owned N (l1 ++ b :: l2)) (s : St S V) :
    let s' := cycle N (l1 ++ b :: l2) s
    let v := (N.ins b).map (fun y => seen N l1 s s' y)
    (∀ x ∈ N.outs b, s'.sig x = N.val b (s.st b) v x) ∧ s'.st b = N.next b (s.st b) v := by
  intro s' v
  rw [List.nodup_append, List.nodup_cons] at hn
  obtain ⟨hn1, ⟨hb2, hn2⟩, hdis⟩ := hn
  have hb1 : b ∉ l1 := fun h => hdis b h b (by simp) rfl
  have hs' : s' = cycle N l2 (runBlock N (cycle N l1 s) b) := by simp only [s']; rw [cycle_append, cycle_cons]
  have hst : (cycle N l1 s).st b = s.st b := st_kept N b l1 s hb1
  have hin : (N.ins b).map (cycle N l1 s).sig = v := by
    apply List.map_congr_left
    intro y _
    unfold seen
    by_cases hy : ∃ c ∈ l1, y ∈ N.outs c
    · rw [if_pos hy]
      obtain ⟨c, hc, hyc⟩ := hy
      have : s' = cycle N (b :: l2) (cycle N l1 s) := by simp only [s']; rw [cycle_append]
      rw [this, sig_kept N y (b :: l2)]
      intro d hd hyd
      have := ho c (by simp [hc]) d (by simp only [List.mem_append]; exact Or.inr hd) y hyc hyd
      subst this
      exact hdis c hc c hd rfl
    · rw [if_neg hy, sig_kept N y l1]
      intro c hc hyc
      exact hy ⟨c, hc, hyc⟩
  constructor
  · intro x hx
    rw [hs', sig_kept N x l2]
    · simp only [runBlock, hx, if_true]
      rw [hin, hst]
    · intro d hd hxd
      have := ho b (by simp) d (by simp [hd]) x hx hxd
      subst this
      exact hb2 hd
  · rw [hs', st_kept N b l2 _ hb2]
    simp only [runBlock, if_true]
    rw [hin, hst]

/-- The blocks are added in the direction of the signals: the block of every signal which a block reads was added before. -/
def Sorted (N : Net S V) (bs : List Nat) : Prop := ∀ l1 b l2, bs = l1 ++ b :: l2 → ∀ y ∈ N.ins b, ∀ c ∈ bs, y ∈ N.outs c → c ∈ l1

/-- The equations of the diagram: every output is the function of the block applied to the values of its inputs, at the same time. -/
structure Solves (N : Net S V) (bs : List Nat) (s s' : St S V) : Prop where
  sig : ∀ b ∈ bs, ∀ x ∈ N.outs b, s'.sig x = N.val b (s.st b) ((N.ins b).map s'.sig) x
  st : ∀ b ∈ bs, s'.st b = N.next b (s.st b) ((N.ins b).map s'.sig)
  rest : ∀ x, (∀ b ∈ bs, x ∉ N.outs b) → s'.sig x = s.sig x
  others : ∀ b, b ∉ bs → s'.st b = s.st b

/-- In this order one cycle solves the equations of the diagram: there is no delay between blocks. -/
theorem sorted_solves (N : Net S V) (bs : List Nat) (hn : bs.Nodup) (ho : Owned N bs) (hs : Sorted N bs) (s : St S V) : Solves N bs s (cycle N bs s) := by
  have key : ∀ b ∈ bs, (∀ x ∈ N.outs b, (cycle N bs s).sig x = N.val b (s.st b) ((N.ins b).map (cycle N bs s).sig) x) ∧
      (cycle N bs s).st b = N.next b (s.st b) ((N.ins b).map (cycle N bs s).sig) := by
    intro b hb
    obtain ⟨l1, l2, rfl⟩ := List.append_of_mem hb
    have h := cycle_values N l1 b l2 hn ho s
    have he : (N.ins b).map (fun y => seen N l1 s (cycle N (l1 ++ b :: l2) s) y) = (N.ins b).map (cycle N (l1 ++ b :: l2) s).sig := by
      apply List.map_congr_left
      intro y hy
      unfold seen
      by_cases hc : ∃ c ∈ l1, y ∈ N.outs c
      · rw [if_pos hc]
      · rw [if_neg hc, sig_kept N y]
        intro c hcm hyc
        exact hc ⟨c, hs l1 b l2 rfl y hy c hcm hyc, hyc⟩
    dsimp only at h
    rw [he] at h
    exact h
  exact ⟨fun b hb => (key b hb).1, fun b hb => (key b hb).2, fun x hx => sig_kept N x bs s hx, fun b hb => st_kept N b bs s hb⟩

/-- The equations have one solution at most. -/
theorem solution_unique (N : Net S V) (bs : List Nat) (hs : Sorted N bs) (s s1 s2 : St S V) (h1 : Solves N bs s s1) (h2 : Solves N bs s s2) : s1 = s2 := by
  have key : ∀ l1 l2, bs = l1 ++ l2 → ∀ c ∈ l1, ∀ x ∈ N.outs c, s1.sig x = s2.sig x := by
    intro l1
    induction l1 using List.reverseRecOn with
    | nil => intro l2 _ c hc; simp at hc
    | append_singleton l1 b ih =>
      intro l2 hbs c hc x hx
      simp only [List.mem_append, List.mem_singleton] at hc
      rcases hc with hc | rfl
      · exact ih (b :: l2) (by rw [hbs]; simp) c hc x hx
      · have hcm : c ∈ bs := by rw [hbs]; simp
        rw [h1.sig c hcm x hx, h2.sig c hcm x hx]
        congr 1
        apply List.map_congr_left
        intro y hy
        by_cases hp : ∃ d ∈ bs, y ∈ N.outs d
        · obtain ⟨d, hd, hyd⟩ := hp
          have := hs l1 c l2 (by rw [hbs]; simp) y hy d hd hyd
          exact ih (c :: l2) (by rw [hbs]; simp) d this y hyd
        · have hq : ∀ d ∈ bs, y ∉ N.outs d := fun d hd hyd => hp ⟨d, hd, hyd⟩
          rw [h1.rest y hq, h2.rest y hq]
  have hsig : s1.sig = s2.sig := by
    funext x
    by_cases hp : ∃ d ∈ bs, x ∈ N.outs d
    · obtain ⟨d, hd, hx⟩ := hp
      exact key bs [] (by simp) d hd x hx
    · have hq : ∀ d ∈ bs, x ∉ N.outs d := fun d hd hxd => hp ⟨d, hd, hxd⟩
      rw [h1.rest x hq, h2.rest x hq]
  have hst : s1.st = s2.st := by
    funext b
    by_cases hb : b ∈ bs
    · rw [h1.st b hb, h2.st b hb, hsig]
    · rw [h1.others b hb, h2.others b hb]
  cases s1; cases s2
  simp only at hsig hst
  rw [hsig, hst]

/-- All orders in the direction of the signals compute the same. -/
theorem order_irrelevant (N : Net S V) (bs cs : List Nat) (hp : bs.Perm cs) (hn : bs.Nodup) (ho : Owned N bs) (hb : Sorted N bs) (hc : Sorted N cs) (s : St S V) :
    cycle N bs s = cycle N cs s := by
  have hn' : cs.Nodup := hp.nodup_iff.1 hn
  have ho' : Owned N cs := fun c hc d hd => ho c (hp.mem_iff.2 hc) d (hp.mem_iff.2 hd)
  have h2 := sorted_solves N cs hn' ho' hc s
  refine solution_unique N bs hb s _ _ (sorted_solves N bs hn ho hb s) ?_
  exact ⟨fun b hb => h2.sig b (hp.mem_iff.1 hb), fun b hb => h2.st b (hp.mem_iff.1 hb), fun x hx => h2.rest x (fun b hb => hx b (hp.mem_iff.2 hb)),
    fun b hb => h2.others b (fun h => hb (hp.mem_iff.2 h))⟩

/-- If a block throws, the blocks before it have done their work of this cycle, and this block and all behind it nothing. -/
theorem fault_cuts (N : Net S V) (fails : Nat → S → List V → Bool) (l1 : List Nat) (b : Nat) (l2 : List Nat) (s : St S V)
    (hok : ∀ m1 c m2, l1 = m1 ++ c :: m2 → fails c ((cycle N m1 s).st c) ((N.ins c).map (cycle N m1 s).sig) = false)
    (hb : fails b ((cycle N l1 s).st b) ((N.ins b).map (cycle N l1 s).sig) = true) :
    cycleF N fails (l1 ++ b :: l2) s = (cycle N l1 s, some b) := by
  induction l1 generalizing s with
  | nil => simp only [List.nil_append, cycleF]; rw [if_pos (by simpa [cycle] using hb)]; rfl
  | cons a l1 ih =>
    have h0 := hok [] a l1 rfl
    simp only [List.cons_append, cycleF]
    rw [if_neg (by simpa [cycle] using h0)]
    exact ih (runBlock N s a) (fun m1 c m2 h => hok (a :: m1) c m2 (by rw [h]; rfl)) hb

/-- A cycle in which no block throws. -/
theorem no_fault (N : Net S V) (fails : Nat → S → List V → Bool) (bs : List Nat) (s : St S V)
    (hok : ∀ m1 c m2, bs = m1 ++ c :: m2 → fails c ((cycle N m1 s).st c) ((N.ins c).map (cycle N m1 s).sig) = false) :
    cycleF N fails bs s = (cycle N bs s, none) := by
  induction bs generalizing s with
  | nil => rfl
  | cons a l1 ih =>
    have h0 := hok [] a l1 rfl
    simp only [cycleF]
    rw [if_neg (by simpa [cycle] using h0)]
    exact ih (runBlock N s a) (fun m1 c m2 h => hok (a :: m1) c m2 (by rw [h]; rfl))

/-! ### Blocks added against the direction of the signals -/

theorem chain_owned [Inhabited V] (bs : List Nat) : Owned (chain V) bs := by
  intro c _ d _ x hc hd
  simp [chain] at hc hd
  omega

/-- One cycle of the chain in reverse order: every signal takes the value its predecessor had before. -/
theorem reversed_cycle [Inhabited V] (n : Nat) (s : St Unit V) (i : Nat) (hi : i < n) : (cycle (chain V) (List.range n).reverse s).sig (i + 1) = s.sig i := by
  have hmem : i ∈ (List.range n).reverse := by simp [hi]
  obtain ⟨l1, l2, he⟩ := List.append_of_mem hmem
  have hn : (l1 ++ i :: l2).Nodup := by rw [← he]; exact (List.reverse_perm _).nodup_iff.2 List.nodup_range
  have hgt : ∀ c ∈ l1, i < c := by
    have hp : ((List.range n).reverse).Pairwise (fun a b => b < a) := by
      rw [List.pairwise_reverse]; exact List.pairwise_lt_range
    rw [he, List.pairwise_append] at hp
    intro c hc
    exact hp.2.2 c hc i (by simp)
  have h := (cycle_values (chain V) l1 i l2 hn (chain_owned _) s).1 (i + 1) (by simp [chain])
  rw [he, h]
  have hno : ¬ ∃ c ∈ l1, i ∈ (chain V).outs c := by
    rintro ⟨c, hc, hm⟩
    simp [chain] at hm
    have := hgt c hc
    omega
  simp [chain, seen]
  intro c hc hm
  have := hgt c hc
  omega

example : (cycle (chain Nat) (List.range 3).reverse { sig := fun i => 10 * i, st := fun _ => () }).sig 3 = 20 := reversed_cycle 3 _ 2 (by decide)

/-- Violated if the blocks are added against the direction of the signals: a chain of blocks delays the signal by one cycle for every block, though no block delays. -/
theorem reversed_delays_violated [Inhabited V] (n : Nat) (s : St Unit V) (us : List V) (i : Nat) (hi : i < n) (hu : i < us.length) :
    (feed (chain V) (List.range n).reverse s us).sig (i + 1) = us.reverse[i]'(by simpa using hu) := by
  induction us using List.reverseRecOn generalizing i with
  | nil => simp at hu
  | append_singleton us u ih =>
    have hf : feed (chain V) (List.range n).reverse s (us ++ [u]) =
        cycle (chain V) (List.range n).reverse { feed (chain V) (List.range n).reverse s us with sig := fun x => if x = 0 then u else (feed (chain V) (List.range n).reverse s us).sig x } := by
      simp [feed]
    rw [hf, reversed_cycle n _ i hi]
    cases i with
    | zero => simp
    | succ i =>
      simp only [List.length_append, List.length_singleton] at hu
      have := ih i (by omega) (by omega)
      simp only [Nat.succ_ne_zero, if_false]
      rw [this]
      simp

/-- The same chain in the direction of the signals: no delay. -/
theorem forward_no_delay [Inhabited V] (n : Nat) (s : St Unit V) (i : Nat) (hi : i ≤ n) : (cycle (chain V) (List.range n) s).sig i = s.sig 0 := by
  have hsorted : Sorted (chain V) (List.range n) := by
    intro l1 b l2 he y hy c hc hyc
    simp [chain] at hy hyc
    have hp : (List.range n).Pairwise (· < ·) := List.pairwise_lt_range
    rw [he] at hc hp
    simp only [List.mem_append, List.mem_cons] at hc
    rcases hc with hc | hc | hc
    · exact hc
    · omega
    · rw [List.pairwise_append, List.pairwise_cons] at hp
      have := hp.2.1.1 c hc
      omega
  have hsol := sorted_solves (chain V) (List.range n) List.nodup_range (chain_owned _) hsorted s
  induction i with
  | zero => exact hsol.rest 0 (by intro b _; simp [chain])
  | succ i ih =>
    rw [hsol.sig i (by simp; omega) (i + 1) (by simp [chain])]
    simp [chain]
    exact ih (by omega)

example : (cycle (chain Nat) (List.range 3) { sig := fun i => 10 * i + 1, st := fun _ => () }).sig 3 = 1 := forward_no_delay 3 _ 3 (by decide)

/-! ### C141: valid signals -/

/-- After `n` cycles. -/
def cycles (N : Net S V) (bs : List Nat) (s : St S V) : Nat → St S V
  | 0 => s
  | n + 1 => cycle N bs (cycles N bs s n)

/-- Signals of an order without loops become valid, whatever the order of the blocks: a signal of rank `r` at the latest after `r + 1` cycles.  `ok`: the value is valid; every
block gives valid values if all its inputs are valid. -/
theorem valid_after (N : Net S V) (bs : List Nat) (hn : bs.Nodup) (ho : Owned N bs) (ok : V → Prop) (rank : Nat → Nat)
    (hv : ∀ b ∈ bs, ∀ st v, v.length = (N.ins b).length → (∀ a ∈ v, ok a) → ∀ x ∈ N.outs b, ok (N.val b st v x))
    (hr : ∀ b ∈ bs, ∀ y ∈ N.ins b, ∀ x ∈ N.outs b, (∃ c ∈ bs, y ∈ N.outs c) → rank y < rank x)
    (s : St S V) (hext : ∀ y, (∀ c ∈ bs, y ∉ N.outs c) → ok (s.sig y)) (n : Nat) (x : Nat) (hx : rank x < n) : ok ((cycles N bs s n).sig x) := by
  induction n generalizing x with
  | zero => omega
  | succ n ih =>
    have hextn : ∀ m y, (∀ c ∈ bs, y ∉ N.outs c) → (cycles N bs s m).sig y = s.sig y := by
      intro m y hy
      induction m with
      | zero => rfl
      | succ m ihm => rw [cycles, sig_kept N y bs _ hy, ihm]
    -- by induction along the order of the blocks
    have key : ∀ l1 l2, bs = l1 ++ l2 → ∀ c ∈ l1, ∀ x ∈ N.outs c, rank x < n + 1 → ok ((cycles N bs s (n + 1)).sig x) := by
      intro l1
      induction l1 using List.reverseRecOn with
      | nil => intro l2 _ c hc; simp at hc
      | append_singleton l1 b ihl =>
        intro l2 hbs c hc x hx hrx
        simp only [List.mem_append, List.mem_singleton] at hc
        rcases hc with hc | rfl
        · exact ihl (b :: l2) (by rw [hbs]; simp) c hc x hx hrx
        · have hbs' : bs = l1 ++ c :: l2 := by rw [hbs]; simp
          have hcm : c ∈ bs := by rw [hbs']; simp
          have h := (cycle_values N l1 c l2 (hbs' ▸ hn) (hbs' ▸ ho) (cycles N bs s n)).1 x hx
          rw [← hbs'] at h
          show ok ((cycle N bs (cycles N bs s n)).sig x)
          rw [h]
          refine hv c hcm _ _ (by simp) ?_ x hx
          intro a ha
          rw [List.mem_map] at ha
          obtain ⟨y, hy, rfl⟩ := ha
          unfold seen
          by_cases hp : ∃ d ∈ bs, y ∈ N.outs d
          · have hlt := hr c hcm y hy x hx hp
            by_cases hq : ∃ d ∈ l1, y ∈ N.outs d
            · rw [if_pos hq]
              obtain ⟨d, hd, hyd⟩ := hq
              exact ihl (c :: l2) hbs' d hd y hyd (by omega)
            · rw [if_neg hq]
              exact ih y (by omega)
          · have hq : ∀ d ∈ bs, y ∉ N.outs d := fun d hd hyd => hp ⟨d, hd, hyd⟩
            have hl : ¬ ∃ d ∈ l1, y ∈ N.outs d := by
              rintro ⟨d, hd, hyd⟩
              exact hq d (by rw [hbs']; simp [hd]) hyd
            rw [if_neg hl, hextn n y hq]
            exact hext y hq
    by_cases hp : ∃ d ∈ bs, x ∈ N.outs d
    · obtain ⟨d, hd, hxd⟩ := hp
      exact key bs [] (by simp) d hd x hxd hx
    · have hq : ∀ d ∈ bs, x ∉ N.outs d := fun d hd hyd => hp ⟨d, hd, hyd⟩
      rw [hextn (n + 1) x hq]
      exact hext x hq

/-- Violated for loops: signals are NaN at the start (Signal.hpp:118,163-164, cleared by the constructors Block1i1o.hpp:27, Blockio.hpp:60,128); if each signal of a set `C` is written by a block which reads a signal of `C` and gives NaN for NaN (as sums,
gains, products and differentiators do), the signals of `C` are NaN in all cycles, whatever the order of the blocks and the values from outside. -/
theorem loop_never_valid_violated (N : Net S V) (bs : List Nat) (hn : bs.Nodup) (ho : Owned N bs) (bad : V → Prop) (C : Nat → Prop)
    (hC : ∀ b ∈ bs, ∀ x ∈ N.outs b, C x → (∃ y ∈ N.ins b, C y) ∧ ∀ st v, (∃ a ∈ v, bad a) → bad (N.val b st v x))
    (s : St S V) (h0 : ∀ x, C x → bad (s.sig x)) (n : Nat) (x : Nat) (hx : C x) : bad ((cycles N bs s n).sig x) := by
  induction n generalizing x with
  | zero => exact h0 x hx
  | succ n ih =>
    have key : ∀ l1 l2, bs = l1 ++ l2 → ∀ c ∈ l1, ∀ x ∈ N.outs c, C x → bad ((cycles N bs s (n + 1)).sig x) := by
      intro l1
      induction l1 using List.reverseRecOn with
      | nil => intro l2 _ c hc; simp at hc
      | append_singleton l1 b ihl =>
        intro l2 hbs c hc x hx hCx
        simp only [List.mem_append, List.mem_singleton] at hc
        rcases hc with hc | rfl
        · exact ihl (b :: l2) (by rw [hbs]; simp) c hc x hx hCx
        · have hbs' : bs = l1 ++ c :: l2 := by rw [hbs]; simp
          have hcm : c ∈ bs := by rw [hbs']; simp
          have h := (cycle_values N l1 c l2 (hbs' ▸ hn) (hbs' ▸ ho) (cycles N bs s n)).1 x hx
          rw [← hbs'] at h
          show bad ((cycle N bs (cycles N bs s n)).sig x)
          rw [h]
          obtain ⟨⟨y, hy, hCy⟩, hstrict⟩ := hC c hcm x hx hCx
          refine hstrict _ _ ⟨_, List.mem_map_of_mem hy, ?_⟩
          unfold seen
          by_cases hq : ∃ d ∈ l1, y ∈ N.outs d
          · rw [if_pos hq]
            obtain ⟨d, hd, hyd⟩ := hq
            exact ihl (c :: l2) hbs' d hd y hyd hCy
          · rw [if_neg hq]
            exact ih y hCy
    by_cases hp : ∃ d ∈ bs, x ∈ N.outs d
    · obtain ⟨d, hd, hxd⟩ := hp
      exact key bs [] (by simp) d hd x hxd hx
    · rw [cycles, sig_kept N x bs _ (fun d hd hyd => hp ⟨d, hd, hyd⟩)]
      exact ih x hx

/-! ### Cases -/

/-- A closed loop over integers, `none` is NaN: block 0 subtracts signal 2 from signal 0 and writes signal 1, block 1 doubles signal 1 and writes signal 2, block 2 counts in its state
and adds the count to signal 1. -/
def demo : Net Int (Option Int) :=
  { ins := fun b => if b = 0 then [0, 2] else [1]
    outs := fun b => [b + 1]
    val := fun b st v _ => match b, v with
      | 0, [some a, some c] => some (a - c)
      | 1, [some a] => some (2 * a)
      | 2, [some a] => some (a + st)
      | _, _ => none
    next := fun _ st _ => st + 1 }

def demo0 (x : Option Int) : St Int (Option Int) := { sig := fun i => if i = 0 then some 5 else x, st := fun _ => 0 }

theorem demo_owned (bs : List Nat) : Owned demo bs := by
  intro c _ d _ x hc hd
  simp [demo] at hc hd
  omega

/-- Case of `cycle_values`: block 0 sees the value 7 of the cycle before. -/
example : (List.range 4).map (cycle demo [0, 1, 2] (demo0 (some 7))).sig = [some 5, some (-2), some (-4), some (-2)] := by decide

/-- Case of `sorted_solves` and `order_irrelevant`: blocks 1 and 2 after the source signal 1, in both orders. -/
example : Sorted demo [1, 2] ∧ Sorted demo [2, 1] ∧ [1, 2].Perm [2, 1] ∧ [1, 2].Nodup ∧ cycle demo [1, 2] (demo0 (some 7)) = cycle demo [2, 1] (demo0 (some 7)) := by
  have h : ∀ bs : List Nat, (∀ b ∈ bs, b = 1 ∨ b = 2) → Sorted demo bs := by
    intro bs hbs l1 b l2 he y hy c hc hyc
    have hb := hbs b (by rw [he]; simp)
    have hc' := hbs c hc
    rcases hb with rfl | rfl <;> rcases hc' with rfl | rfl <;> simp_all [demo]
  have h1 := h [1, 2] (by simp)
  have h2 := h [2, 1] (by simp)
  exact ⟨h1, h2, .swap 2 1 [], by simp, order_irrelevant demo _ _ (.swap 2 1 []) (by simp) (demo_owned _) h1 h2 _⟩

/-- Case of `fault_cuts`: block 1 throws for NaN. -/
example : cycleF demo (fun b _ v => b = 1 && v.contains none) [0, 1, 2] (demo0 none) = (cycle demo [0] (demo0 none), some 1) := by
  refine fault_cuts demo _ [0] 1 [2] (demo0 none) ?_ (by decide)
  intro m1 c m2 h
  cases m1 with
  | nil => simp only [List.nil_append, List.cons.injEq] at h; obtain ⟨rfl, rfl⟩ := h; decide
  | cons a m => simp at h

/-- Case of `no_fault`. -/
example : cycleF demo (fun b _ v => b = 1 && v.contains none) [0] (demo0 none) = (cycle demo [0] (demo0 none), none) := by
  refine no_fault demo _ [0] (demo0 none) ?_
  intro m1 c m2 h
  cases m1 with
  | nil => simp only [List.nil_append, List.cons.injEq] at h; obtain ⟨rfl, rfl⟩ := h; decide
  | cons a m => simp at h

/-- Case of the chain: three blocks, four cycles. -/
example : (List.range 4).map (feed (chain Nat) (List.range 3).reverse { sig := fun _ => 0, st := fun _ => () } [11, 12, 13, 14]).sig = [14, 14, 13, 12] := by decide

/-- Case of `valid_after`: blocks 2 and 1 in the order against the signals, signal 1 from outside. -/
example (n : Nat) : ((cycles demo [2, 1] (demo0 (some 7)) (n + 2)).sig 3).isSome = true := by
  refine valid_after demo [2, 1] (by simp) (demo_owned _) (fun v => v.isSome = true) (fun x => if x = 3 then 1 else 0) ?_ ?_ (demo0 (some 7)) ?_ (n + 2) 3 (by simp)
  · intro b hb st v hl hv x hx
    simp only [List.mem_cons, List.not_mem_nil, or_false] at hb
    rcases hb with rfl | rfl <;>
    · match v with
      | [] => simp [demo] at hl
      | [none] => simp at hv
      | [some a] => simp [demo]
      | _ :: _ :: _ => simp [demo] at hl
  · intro b hb y hy x hx ⟨c, hc, hyc⟩
    simp only [List.mem_cons, List.not_mem_nil, or_false] at hb hc
    rcases hb with rfl | rfl <;> rcases hc with rfl | rfl <;> simp_all [demo]
  · intro y _
    simp only [demo0]
    split <;> rfl

/-- Case of `loop_never_valid_violated`: the loop of blocks 0 and 1 never gets a number, though signal 0 is one. -/
example (n : Nat) : (cycles demo [0, 1, 2] (demo0 none) n).sig 1 = none := by
  refine loop_never_valid_violated demo [0, 1, 2] (by simp) (demo_owned _) (fun v => v = none) (fun x => x = 1 ∨ x = 2) ?_ (demo0 none) ?_ n 1 (Or.inl rfl)
  · intro b hb x hx hC
    simp [demo] at hx
    subst hx
    have hb' : b = 0 ∨ b = 1 := by omega
    rcases hb' with rfl | rfl
    · refine ⟨⟨2, by simp [demo], Or.inr rfl⟩, ?_⟩
      rintro st v ⟨a, ha, rfl⟩
      simp only [demo]
      split <;> simp_all
    · refine ⟨⟨1, by simp [demo], Or.inl rfl⟩, ?_⟩
      rintro st v ⟨a, ha, rfl⟩
      simp only [demo]
      split <;> simp_all
  · intro x hx
    rcases hx with rfl | rfl <;> rfl

end Verif.Control.Dataflow
