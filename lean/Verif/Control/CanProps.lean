/-
C57: decoding of received PDOs.  C79: encoding of sent PDOs.  C80: assignment of frames to nodes.
-/
import Verif.Control.Can
import Mathlib.Data.Rat.Floor
import Mathlib.Tactic.Linarith
import Mathlib.Data.List.Nodup
import Mathlib.Tactic.NormNum

set_option linter.unusedSectionVars false

namespace Verif.Control.Can

/-! ### Specification -/

/-- Position of object `j` in the message: the bytes of all objects before it. -/
def offset (lens : List Nat) (j : Nat) : Nat := ((lens.take j).map (· / 8)).sum

/-- The bytes of object `j`. -/
def slice (data : List Byte) (lens : List Nat) (j : Nat) : List Byte := (data.drop (offset lens j)).take (lens.getD j 0 / 8)

/-- Where the object with signal index `idx` of node `n` goes to: floating point signal, digital signal, status word. -/
def targetOf (n : Nat) (idx : Int) : Target := if idx > 0 then .real n (idx - 1).toNat else if idx < 0 then .dig n (-idx - 1).toNat else .status n

/-- What is stored there for the number `val`, without scale. -/
def valueOf (K : Type) [Field K] (idx val : Int) : Value K := if idx > 0 then .real (val : K) else if idx < 0 then .word (u32 val) else .word (u32 val &&& 0x26F)

/-- A mapping which is possible for the block: one signal index for each object, each of them selecting an existing signal of an existing node. -/
structure Good (N M P : Nat) (p : Pdo) : Prop where
  node : p.nodeNr < N
  count : p.idx.length = p.length.length
  range : ∀ i ∈ p.idx, -(P : Int) ≤ i ∧ i ≤ M

/-- The ranges are adjacent. -/
theorem offset_succ (lens : List Nat) (j : Nat) (h : j < lens.length) : offset lens 0 = 0 ∧ offset lens (j + 1) = offset lens j + lens.getD j 0 / 8 := by
  refine ⟨rfl, ?_⟩
  unfold offset
  rw [List.take_succ_eq_append_getElem h, List.map_append, List.sum_append]
  simp [List.getD_eq_getElem?_getD, List.getElem?_eq_getElem h]


example : offset [16, 32, 8] 2 = offset [16, 32, 8] 1 + 4 := (offset_succ [16, 32, 8] 1 (by decide)).2

section Receive
variable {K : Type} [Field K] {N M P : Nat} (dec : List Byte → Int)

theorem store_ok (p : Pdo) (hp : Good N M P p) (idx val : Int) (hi : idx ∈ p.idx) (o : Outs K) :
    store N M P p idx val o = .ok (o.set (targetOf p.nodeNr idx) (valueOf K idx val)) := by
  have hr := hp.range idx hi
  unfold store targetOf valueOf
  by_cases h1 : idx > 0
  · rw [if_pos h1, if_pos h1, if_pos h1, if_pos hp.node, if_pos (by omega)]
  · rw [if_neg h1, if_neg h1, if_neg h1]
    by_cases h2 : idx < 0
    · rw [if_pos h2, if_pos h2, if_pos h2, if_pos hp.node, if_pos (by omega)]
    · rw [if_neg h2, if_neg h2, if_neg h2, if_pos hp.node]

theorem offset_mono (lens : List Nat) (i j : Nat) (h : i ≤ j) : offset lens i ≤ offset lens j := by
  have hk : ∀ k, offset lens (i + k) ≥ offset lens i := by
    intro k
    induction k with
    | zero => exact Nat.le_refl _
    | succ k ih =>
      by_cases hl : i + k < lens.length
      · rw [← Nat.add_assoc, (offset_succ lens (i + k) hl).2]; omega
      · unfold offset at ih ⊢
        rw [List.take_of_length_le (by omega : lens.length ≤ i + (k + 1))]
        rw [List.take_of_length_le (by omega : lens.length ≤ i + k)] at ih
        exact ih
  have := hk (j - i)
  rwa [Nat.add_sub_cancel' h] at this

/-- All objects from `i` on, one after the other. -/
theorem objects_ok (p : Pdo) (hp : Good N M P p) (data : List Byte) (hd : offset p.length p.length.length ≤ data.length) (i : Nat) (hi : i ≤ p.length.length) (o : Outs K) :
    objects N M P dec p data (p.length.drop i) i (offset p.length i) o =
      .ok ((List.range' i (p.length.length - i)).foldl (fun o j => o.set (targetOf p.nodeNr (p.idx.getD j 0)) (valueOf K (p.idx.getD j 0) (dec (slice data p.length j)))) o) := by
  generalize hn : p.length.length - i = n
  induction n generalizing i o with
  | zero =>
    rw [List.drop_eq_nil_of_le (by omega)]
    rfl
  | succ n ih =>
    have hlt : i < p.length.length := by omega
    have hlt' : i < p.idx.length := by rw [hp.count]; exact hlt
    have hoff := (offset_succ p.length i hlt).2
    have hg : p.length.getD i 0 = p.length[i] := by simp [List.getD_eq_getElem?_getD, List.getElem?_eq_getElem hlt]
    have hgi : p.idx.getD i 0 = p.idx[i] := by simp [List.getD_eq_getElem?_getD, List.getElem?_eq_getElem hlt']
    have hm := offset_mono p.length (i + 1) p.length.length hlt
    rw [List.drop_eq_getElem_cons hlt, objects]
    simp only
    rw [if_neg (by rw [← hg]; omega), List.getElem?_eq_getElem hlt']
    simp only
    rw [store_ok p hp _ _ (List.getElem_mem hlt')]
    rw [← hg, ← hoff]
    show objects N M P dec p data _ _ _ _ = _
    rw [ih (i + 1) hlt _ (by omega), List.range'_succ, List.foldl_cons, hgi, slice, hg]

theorem fold_other (ts : List (Target × Value K)) (o : Outs K) (t : Target) (h : ∀ x ∈ ts, x.1 ≠ t) : (ts.foldl (fun o x => o.set x.1 x.2) o) t = o t := by
  induction ts generalizing o with
  | nil => rfl
  | cons x ts ih =>
    rw [List.foldl_cons, ih _ fun y hy => h y (List.mem_cons_of_mem _ hy)]
    exact if_neg fun e => h x (List.mem_cons_self ..) e.symm

theorem fold_mem (ts : List (Target × Value K)) (hnd : (ts.map Prod.fst).Nodup) (o : Outs K) (x : Target × Value K) (hx : x ∈ ts) :
    (ts.foldl (fun o x => o.set x.1 x.2) o) x.1 = x.2 := by
  induction ts generalizing o with
  | nil => cases hx
  | cons y ts ih =>
    rw [List.map_cons, List.nodup_cons] at hnd
    rw [List.foldl_cons]
    rcases List.mem_cons.1 hx with rfl | hx
    · rw [fold_other _ _ _ fun z hz e => hnd.1 (List.mem_map.2 ⟨z, hz, e⟩)]
      exact if_pos rfl
    · exact ih hnd.2 _ hx

theorem targetOf_inj (n : Nat) (a b : Int) (h : targetOf n a = targetOf n b) : a = b := by
  unfold targetOf at h
  split at h <;> split at h <;> (try split at h) <;> (try split at h) <;> (try cases h) <;>
    first
    | omega
    | (injection h with h1 h2; omega)

/-- **C57 (partial)** A message for which the mapping `p` is configured, and no other: every object is decoded from its own bytes, and the number is stored in the signal selected by its index;
all other outputs keep their value.
Missing: scale, see `scale_ignored`; messages which are too short, see `short_message`. -/
theorem decoded_partial (a b : List Pdo) (p : Pdo) (hp : Good N M P p) (hn : p.idx.Nodup) (m : Msg) (hm : m.node = p.nodeId ∧ m.nr = p.nr)
    (ho : ∀ q ∈ a ++ b, ¬ (m.node = q.nodeId ∧ m.nr = q.nr)) (hd : offset p.length p.length.length ≤ m.data.length) (o : Outs K) :
    ∃ o', message N M P dec (a ++ p :: b) m o = .ok o' ∧
      (∀ j i, p.idx[j]? = some i → o' (targetOf p.nodeNr i) = valueOf K i (dec (slice m.data p.length j))) ∧
      ∀ t, (∀ i ∈ p.idx, t ≠ targetOf p.nodeNr i) → o' t = o t := by
  have hskip : ∀ (l : List Pdo) (o : Outs K), (∀ q ∈ l, ¬ (m.node = q.nodeId ∧ m.nr = q.nr)) → message N M P dec l m o = .ok o := by
    intro l
    induction l with
    | nil => intro o _; rfl
    | cons q l ih =>
      intro o h
      rw [message, List.foldlM_cons, if_neg (h q (List.mem_cons_self ..))]
      exact ih o fun x hx => h x (List.mem_cons_of_mem _ hx)
  have hap : message N M P dec (a ++ p :: b) m o = objects N M P dec p m.data p.length 0 0 o := by
    unfold message
    rw [List.foldlM_append]
    have h1 := hskip a o fun q hq => ho q (List.mem_append_left _ hq)
    unfold message at h1
    rw [h1]
    change (p :: b).foldlM (fun o p => if m.node = p.nodeId ∧ m.nr = p.nr then objects N M P dec p m.data p.length 0 0 o else .ok o) o = _
    rw [List.foldlM_cons, if_pos hm]
    cases objects N M P dec p m.data p.length 0 0 o with
    | error e => rfl
    | ok o1 => exact hskip b o1 fun q hq => ho q (List.mem_append_right _ hq)
  have hobj := objects_ok dec p hp m.data hd 0 (Nat.zero_le _) o
  rw [List.drop_zero, Nat.sub_zero, ← List.range_eq_range'] at hobj
  rw [show offset p.length 0 = 0 from rfl] at hobj
  rw [hap, hobj]
  let ts : List (Target × Value K) := (List.range p.length.length).map fun j =>
    (targetOf p.nodeNr (p.idx.getD j 0), valueOf K (p.idx.getD j 0) (dec (slice m.data p.length j)))
  have hts : ∀ o : Outs K, (List.range p.length.length).foldl (fun o j => o.set (targetOf p.nodeNr (p.idx.getD j 0)) (valueOf K (p.idx.getD j 0) (dec (slice m.data p.length j)))) o =
      ts.foldl (fun o x => o.set x.1 x.2) o := by
    intro o
    rw [List.foldl_map]
  have hget : ∀ j (h : j < p.idx.length), p.idx.getD j 0 = p.idx[j] := fun j h => by simp [List.getD_eq_getElem?_getD, List.getElem?_eq_getElem h]
  have hfst : ts.map Prod.fst = p.idx.map (targetOf p.nodeNr) := by
    simp only [ts, List.map_map]
    apply List.ext_getElem
    · simp [hp.count]
    · intro j h1 h2
      simp at h1 h2
      simp [List.getElem?_eq_getElem h2]
  refine ⟨_, rfl, ?_, ?_⟩
  · intro j i hj
    obtain ⟨hlt, hj⟩ := List.getElem?_eq_some_iff.1 hj
    rw [hts]
    have hnd : (ts.map Prod.fst).Nodup := by
      rw [hfst]
      exact List.Nodup.map (fun x y => targetOf_inj _ x y) hn
    have := fold_mem ts hnd o (targetOf p.nodeNr (p.idx.getD j 0), valueOf K (p.idx.getD j 0) (dec (slice m.data p.length j)))
      (List.mem_map.2 ⟨j, List.mem_range.2 (by rw [← hp.count]; exact hlt), rfl⟩)
    rw [hget j hlt, hj] at this
    exact this
  · intro t ht
    rw [hts]
    refine fold_other ts o t fun x hx e => ?_
    have : x.1 ∈ p.idx.map (targetOf p.nodeNr) := hfst ▸ List.mem_map_of_mem hx
    obtain ⟨i, hi, hxi⟩ := List.mem_map.1 this
    exact ht i hi (e ▸ hxi.symm)


/-- A PDO with a status word, a position and a digital signal among those of two nodes: the position is decoded from the bytes 2 to 5. -/
example : ∃ o', message 2 1 1 (fun l => (l.foldr (fun b n => b.val + 256 * n) 0 : Nat)) ([⟨0, 3, 1, [32], [1]⟩] ++ ⟨1, 4, 1, [16, 32, 8], [0, 1, -1]⟩ :: [])
      ⟨4, 1, [1, 0, 5, 1, 0, 0, 9]⟩ (fun _ => .real (0 : ℚ)) = .ok o' ∧ o' (.real 1 0) = .real 261 ∧ o' (.real 0 0) = .real 0 := by
  obtain ⟨o', h, h1, h2⟩ := decoded_partial (K := ℚ) (N := 2) (M := 1) (P := 1) (dec := fun l => (l.foldr (fun b n => b.val + 256 * n) 0 : Nat)) [⟨0, 3, 1, [32], [1]⟩] [] ⟨1, 4, 1, [16, 32, 8], [0, 1, -1]⟩
    ⟨by decide, by decide, by decide⟩ (by decide) ⟨4, 1, [1, 0, 5, 1, 0, 0, 9]⟩ ⟨rfl, rfl⟩ (by simp) (by decide) (fun _ => .real 0)
  refine ⟨o', h, ?_, h2 _ (by simp [targetOf])⟩
  have := h1 1 1 rfl
  rw [show (Value.real 261 : Value ℚ) = valueOf ℚ 1 (261 : Int) by norm_num [valueOf]]
  exact this

/-- **C57** A message of another node, or with a number which is not configured, changes nothing. -/
theorem others_ignored (pdo : List Pdo) (m : Msg) (h : ∀ p ∈ pdo, ¬ (m.node = p.nodeId ∧ m.nr = p.nr)) (o : Outs K) : message N M P dec pdo m o = .ok o := by
  induction pdo with
  | nil => rfl
  | cons p pdo ih =>
    rw [message, List.foldlM_cons, if_neg (h p (List.mem_cons_self ..))]
    exact ih fun q hq => h q (List.mem_cons_of_mem _ hq)


/-- PDO 2 of node 4 is configured, PDO 1 arrives. -/
example (dec : List Byte → Int) (o : Outs ℚ) : message 2 1 1 dec [⟨1, 4, 2, [16], [0]⟩] ⟨4, 1, [1, 2]⟩ o = .ok o :=
  others_ignored _ _ _ (by simp) o

/-- **C57** The index of a configured mapping is the position of its node in the list of nodes; unknown nodes are not configured. -/
theorem configure_node (node : List Nat) (nodeId nr : Nat) (lens : List Nat) (idx : List Int) (pdo : List Pdo)
    (h : ∀ p ∈ pdo, node[p.nodeNr]? = some p.nodeId) : ∀ p ∈ configure node nodeId nr lens idx pdo, node[p.nodeNr]? = some p.nodeId := by
  intro p hp
  unfold configure at hp
  split at hp
  · rename_i hm
    rcases List.mem_append.1 hp with hp | hp
    · exact h p hp
    · rw [List.mem_singleton.1 hp]
      have hlt := List.idxOf_lt_length_iff.2 hm
      simp [List.getElem?_eq_getElem hlt, List.getElem_idxOf hlt]
  · exact h p hp


/-- The node with id 4 has index 1. -/
example : configure [3, 4] 4 1 [16] [0] [⟨0, 3, 1, [32], [1]⟩] = [⟨0, 3, 1, [32], [1]⟩, ⟨1, 4, 1, [16], [0]⟩] := by
  simp [configure, List.idxOf, List.findIdx, List.findIdx.go]

/-- **C57 violated**: the scale has no influence on what is stored. -/
theorem scale_ignored (b : Receiver K) (scale : Nat → Nat → K) (bus : List (Option Msg)) (o : Outs K) :
    receive N M P dec { b with scale := scale } bus o = receive N M P dec b bus o := rfl

/-- **C57 violated**: a message which is shorter than its mapping: bytes which were never received are decoded. -/
theorem short_message (p : Pdo) (hp : Good N M P p) (data : List Byte) (hd : data.length < offset p.length p.length.length) (o : Outs K) :
    objects N M P dec p data p.length 0 0 o = .error .undefinedBytes := by
  have key : ∀ n i (o : Outs K), i ≤ p.length.length → p.length.length - i = n → offset p.length i ≤ data.length →
      objects N M P dec p data (p.length.drop i) i (offset p.length i) o = .error .undefinedBytes := by
    intro n
    induction n with
    | zero =>
      intro i o hi hn ho
      have : i = p.length.length := by omega
      rw [this] at ho
      omega
    | succ n ih =>
      intro i o hi hn ho
      have hlt : i < p.length.length := by omega
      have hlt' : i < p.idx.length := by rw [hp.count]; exact hlt
      have hoff := (offset_succ p.length i hlt).2
      have hg : p.length.getD i 0 = p.length[i] := by simp [List.getD_eq_getElem?_getD, List.getElem?_eq_getElem hlt]
      rw [List.drop_eq_getElem_cons hlt, objects]
      simp only
      rw [← hg, ← hoff]
      split
      · rfl
      · rw [List.getElem?_eq_getElem hlt']
        simp only
        rw [store_ok p hp _ _ (List.getElem_mem hlt')]
        exact ih (i + 1) _ hlt (by omega) (by omega)
  have := key _ 0 o (Nat.zero_le _) rfl (Nat.zero_le _)
  simpa [offset] using this


/-- Five bytes of the seven which were configured. -/
example (dec : List Byte → Int) (o : Outs ℚ) : objects 2 1 1 dec ⟨1, 4, 1, [16, 32, 8], [0, 1, -1]⟩ [1, 2, 3, 4, 5] [16, 32, 8] 0 0 o = .error .undefinedBytes :=
  short_message dec ⟨1, 4, 1, [16, 32, 8], [0, 1, -1]⟩ ⟨by decide, by decide, by decide⟩ [1, 2, 3, 4, 5] (by decide) o

end Receive

/-- **C57 violated**: scale 2 is set, 5 is received and stored as 5. -/
theorem scale_violated : ∃ (b : Receiver ℚ) (o' : Outs ℚ), b.scale 0 0 = 2 ∧
    receive 1 1 1 (fun bs => (bs.getD 0 0).val) b [some ⟨7, 1, [5]⟩] (fun _ => .word 0) = .ok o' ∧ o' (.real 0 0) = .real 5 := by
  refine ⟨⟨true, 1, [⟨0, 7, 1, [8], [1]⟩], fun _ _ => 2⟩, _, rfl, rfl, ?_⟩
  show Value.real _ = _
  congr 1

/-- **C57 violated**, for all mappings, messages and scales: the element of a floating point signal never is the received number times its scale, unless the scale is 1 or the number is 0. -/
theorem unscaled_violated {K : Type} [Field K] [CharZero K] (N M P : Nat) (dec : List Byte → Int) (b : Receiver K) (hb : b.enabled = true) (hnof : 0 < b.nofPDO) (l r : List Pdo) (p : Pdo)
    (hpdo : b.pdo = l ++ p :: r) (hp : Good N M P p) (hn : p.idx.Nodup) (m : Msg) (hm : m.node = p.nodeId ∧ m.nr = p.nr)
    (ho : ∀ q ∈ l ++ r, ¬ (m.node = q.nodeId ∧ m.nr = q.nr)) (hd : offset p.length p.length.length ≤ m.data.length) (o : Outs K) (j : Nat) (e : Nat) (hj : p.idx[j]? = some ((e : Int) + 1))
    (hs : b.scale p.nodeNr e ≠ 1) (hv : dec (slice m.data p.length j) ≠ 0) :
    ∃ o', receive N M P dec b [some m] o = .ok o' ∧ o' (.real p.nodeNr e) ≠ .real (dec (slice m.data p.length j) * b.scale p.nodeNr e) := by
  obtain ⟨o', h1, h2, -⟩ := decoded_partial (N := N) (M := M) (P := P) (dec := dec) l r p hp hn m hm ho hd o
  refine ⟨o', ?_, ?_⟩
  · obtain ⟨n, hn'⟩ : ∃ n, b.nofPDO = n + 1 := ⟨b.nofPDO - 1, by omega⟩
    simp only [receive, hb, if_true, hn', List.take_succ_cons, List.take_nil, List.foldlM_cons, List.foldlM_nil, hpdo, h1]
    rfl
  · have h3 := h2 j _ hj
    have ht : targetOf p.nodeNr ((e : Int) + 1) = .real p.nodeNr e := by
      unfold targetOf
      rw [if_pos (by omega)]
      congr 1
      omega
    rw [ht] at h3
    rw [h3]
    unfold valueOf
    rw [if_pos (by omega)]
    intro h4
    injection h4 with h5
    have hv' : ((dec (slice m.data p.length j) : Int) : K) ≠ 0 := by exact_mod_cast hv
    exact hs (mul_left_cancel₀ hv' (by rw [mul_one]; exact h5.symm))

/-- Case: the status word and two elements, scale 50. -/
example (dec : List Byte → Int) (h : dec [3, 4, 5, 6] = 7) (o : Outs ℚ) :
    ∃ o', receive 2 1 1 dec ⟨true, 1, [⟨1, 4, 1, [16, 32, 8], [0, 1, -1]⟩], fun _ _ => 50⟩ [some ⟨4, 1, [1, 2, 3, 4, 5, 6, 7]⟩] o = .ok o' ∧ o' (.real 1 0) ≠ .real (7 * 50) := by
  have := unscaled_violated 2 1 1 dec ⟨true, 1, [⟨1, 4, 1, [16, 32, 8], [0, 1, -1]⟩], fun _ _ => (50 : ℚ)⟩ rfl (by decide) [] [] ⟨1, 4, 1, [16, 32, 8], [0, 1, -1]⟩ rfl
    ⟨by decide, by decide, by decide⟩ (by decide) ⟨4, 1, [1, 2, 3, 4, 5, 6, 7]⟩ ⟨rfl, rfl⟩ (by simp) (by decide) o 1 0 rfl (by norm_num)
    (by rw [show slice [1, 2, 3, 4, 5, 6, 7] [16, 32, 8] 1 = [3, 4, 5, 6] by decide, h]; decide)
  simpa [show slice [1, 2, 3, 4, 5, 6, 7] [16, 32, 8] 1 = [3, 4, 5, 6] by decide, h] using this

/-- Non-vacuity of `decoded_partial`: status word of 16 bits, position of 32 bits and digital inputs of 8 bits. -/
example : Good 2 1 1 ⟨1, 4, 1, [16, 32, 8], [0, 1, -1]⟩ ∧ ([0, 1, -1] : List Int).Nodup ∧ offset [16, 32, 8] 3 = 7 ∧
    slice [1, 2, 3, 4, 5, 6, 7] [16, 32, 8] 1 = [3, 4, 5, 6] := by
  refine ⟨⟨by decide, by decide, by decide⟩, by decide, by decide, by decide⟩

section Send
variable {K : Type} [Field K] [LinearOrder K] [IsStrictOrderedRing K] [FloorRing K]

/-- The number to be sent for index `idx`: input times scale of the node, truncated; digital input; control word. -/
def wanted (s : Ins K) (scale : Nat → K) (n : Nat) (idx : Int) : Nat :=
  if idx > 0 then ⌊s.real n (idx - 1).toNat * scale n⌋.toNat else if idx < 0 then s.dig n (-idx - 1).toNat else s.ctrl n

theorem wordOf_ok (M P : Nat) (s : Ins K) (scale : Nat → K) (n : Nat) (idx : Int) (hr : -(P : Int) ≤ idx ∧ idx ≤ M)
    (hv : idx > 0 → -1 < s.real n (idx - 1).toNat * scale n ∧ s.real n (idx - 1).toNat * scale n < 2 ^ 32) : wordOf M P s scale n idx = .ok (wanted s scale n idx) := by
  unfold wordOf wanted
  by_cases h1 : idx > 0
  · rw [if_pos h1, if_pos h1, if_pos (by omega), toU32, if_pos (hv h1)]
  · rw [if_neg h1, if_neg h1]
    by_cases h2 : idx < 0
    · rw [if_pos h2, if_pos h2, if_pos (by omega)]
    · rw [if_neg h2, if_neg h2]

theorem encode_ok (N M P : Nat) (enc : Nat → Nat → List Byte) (henc : ∀ w n, (enc w n).length = n) (s : Ins K) (scale : Nat → K) (p : Pdo) (hp : Good N M P p)
    (hd : offset p.length p.length.length ≤ 8)
    (hv : ∀ i ∈ p.idx, i > 0 → -1 < s.real p.nodeNr (i - 1).toNat * scale p.nodeNr ∧ s.real p.nodeNr (i - 1).toNat * scale p.nodeNr < 2 ^ 32)
    (i : Nat) (hi : i ≤ p.length.length) (done : List Byte) (hdone : done.length = offset p.length i) :
    encode M P enc s scale p (p.length.drop i) i done =
      .ok (done ++ ((List.range' i (p.length.length - i)).map fun j => enc (wanted s scale p.nodeNr (p.idx.getD j 0)) (p.length.getD j 0 / 8)).flatten) := by
  generalize hn : p.length.length - i = n
  induction n generalizing i done with
  | zero =>
    rw [List.drop_eq_nil_of_le (by omega)]
    simp [encode]
  | succ n ih =>
    have hlt : i < p.length.length := by omega
    have hlt' : i < p.idx.length := by rw [hp.count]; exact hlt
    have hoff := (offset_succ p.length i hlt).2
    have hg : p.length.getD i 0 = p.length[i] := by simp [List.getD_eq_getElem?_getD, List.getElem?_eq_getElem hlt]
    have hgi : p.idx.getD i 0 = p.idx[i] := by simp [List.getD_eq_getElem?_getD, List.getElem?_eq_getElem hlt']
    have hm := offset_mono p.length (i + 1) p.length.length hlt
    rw [List.drop_eq_getElem_cons hlt, encode, List.getElem?_eq_getElem hlt']
    simp only
    rw [wordOf_ok M P s scale p.nodeNr _ (hp.range _ (List.getElem_mem hlt')) (hv _ (List.getElem_mem hlt'))]
    show (if _ then _ else _) = _
    rw [if_neg (by rw [← hg]; omega), ih (i + 1) hlt _ (by rw [List.length_append, henc, hdone, hoff, hg]) (by omega), List.range'_succ, List.map_cons, List.flatten_cons, hgi, hg,
      List.append_assoc]

theorem flatten_slice (f : Nat → List Byte) (lens : List Nat) (hf : ∀ j, (f j).length = lens.getD j 0 / 8) (j : Nat) (hj : j < lens.length) :
    slice ((List.range lens.length).map f).flatten lens j = f j := by
  have hlen : ∀ k, k ≤ lens.length → (((List.range k).map f).flatten).length = offset lens k := by
    intro k
    induction k with
    | zero => intro _; rfl
    | succ k ih =>
      intro hk
      rw [List.range_succ, List.map_append, List.flatten_append, List.length_append, ih (by omega), (offset_succ lens k hk).2]
      simp [hf]
  unfold slice
  have hsplit : List.range lens.length = List.range j ++ (j :: List.range' (j + 1) (lens.length - j - 1)) := by
    rw [List.range_eq_range', List.range_eq_range', ← List.range'_succ, show lens.length - j - 1 + 1 = lens.length - j by omega]
    have := List.range'_append (s := 0) (m := j) (n := lens.length - j) (step := 1)
    rw [show j + (lens.length - j) = lens.length by omega] at this
    simpa using this.symm
  rw [hsplit, List.map_append, List.flatten_append, ← hlen j (by omega), List.drop_left, List.map_cons, List.flatten_cons, ← hf j, List.take_left]

/-- **C79 (partial)** A mapping which fits into the eight bytes of a message, inputs times scale in the range of the 32 bit numbers: one message is sent to the right node with the right number, and it
contains for every object, in its own adjacent range of bytes, the value of the signal selected by its index.
Missing: negative values, see `negative_undefined`, mappings which are too long, see `overflow`, one scale for each signal of a node. -/
theorem sent_partial (N M P : Nat) (enc : Nat → Nat → List Byte) (henc : ∀ w n, (enc w n).length = n) (s : Ins K) (scale : Nat → K) (p : Pdo) (hp : Good N M P p)
    (hd : offset p.length p.length.length ≤ 8)
    (hv : ∀ i ∈ p.idx, i > 0 → -1 < s.real p.nodeNr (i - 1).toNat * scale p.nodeNr ∧ s.real p.nodeNr (i - 1).toNat * scale p.nodeNr < 2 ^ 32) :
    ∃ m, sendPdo M P enc s scale p = .ok m ∧ m.node = p.nodeId ∧ m.nr = p.nr ∧ m.data.length = offset p.length p.length.length ∧
      ∀ j i, p.idx[j]? = some i → slice m.data p.length j = enc (wanted s scale p.nodeNr i) (p.length.getD j 0 / 8) := by
  have h := encode_ok N M P enc henc s scale p hp hd hv 0 (Nat.zero_le _) [] rfl
  rw [List.drop_zero, Nat.sub_zero, ← List.range_eq_range', List.nil_append] at h
  refine ⟨_, by rw [sendPdo, h]; rfl, rfl, rfl, ?_, ?_⟩
  · have hlen : ∀ k, k ≤ p.length.length → (((List.range k).map fun j => enc (wanted s scale p.nodeNr (p.idx.getD j 0)) (p.length.getD j 0 / 8)).flatten).length = offset p.length k := by
      intro k
      induction k with
      | zero => intro _; rfl
      | succ k ih =>
        intro hk
        rw [List.range_succ, List.map_append, List.flatten_append, List.length_append, ih (by omega), (offset_succ p.length k hk).2]
        simp [henc]
    exact hlen _ (Nat.le_refl _)
  · intro j i hj
    obtain ⟨hlt, hj⟩ := List.getElem?_eq_some_iff.1 hj
    have := flatten_slice (fun j => enc (wanted s scale p.nodeNr (p.idx.getD j 0)) (p.length.getD j 0 / 8)) p.length (fun j => henc _ _) j (by rw [← hp.count]; exact hlt)
    rw [this]
    simp only [List.getD_eq_getElem?_getD, List.getElem?_eq_getElem hlt, hj, Option.getD_some]

/-- **C79** What a block sends another block receives: if `dec` inverts `enc`, the number stored by the receiver for an object is the one wanted by the sender. -/
theorem send_receive (N M P : Nat) (enc : Nat → Nat → List Byte) (henc : ∀ w n, (enc w n).length = n) (dec : List Byte → Int) (s : Ins K) (scale : Nat → K) (p : Pdo) (hp : Good N M P p)
    (hn : p.idx.Nodup) (hd : offset p.length p.length.length ≤ 8)
    (hv : ∀ i ∈ p.idx, i > 0 → -1 < s.real p.nodeNr (i - 1).toNat * scale p.nodeNr ∧ s.real p.nodeNr (i - 1).toNat * scale p.nodeNr < 2 ^ 32)
    (hinv : ∀ j i, p.idx[j]? = some i → dec (enc (wanted s scale p.nodeNr i) (p.length.getD j 0 / 8)) = wanted s scale p.nodeNr i) (o : Outs K) :
    ∃ m o', sendPdo M P enc s scale p = .ok m ∧ message N M P dec [p] m o = .ok o' ∧
      ∀ i ∈ p.idx, o' (targetOf p.nodeNr i) = valueOf K i (wanted s scale p.nodeNr i) := by
  obtain ⟨m, h1, h2, h3, h4, h5⟩ := sent_partial N M P enc henc s scale p hp hd hv
  obtain ⟨o', h6, h7, -⟩ := decoded_partial dec [] [] p hp hn m ⟨h2, h3⟩ (by simp) (Nat.le_of_eq h4.symm) o
  refine ⟨m, o', h1, h6, fun i hi => ?_⟩
  obtain ⟨j, hj⟩ := List.getElem?_of_mem hi
  rw [h7 j i hj, h5 j i hj, hinv j i hj]

/-- **C79 violated**: a negative set point (for whatever mapping it is the first object of) is converted to an unsigned number, which is undefined. -/
theorem negative_undefined (M P : Nat) (enc : Nat → Nat → List Byte) (s : Ins K) (scale : Nat → K) (n id nr bits : Nat) (lens : List Nat) (k : Nat) (hk : k < M) (idx : List Int)
    (h : s.real n k * scale n ≤ -1) : sendPdo M P enc s scale ⟨n, id, nr, bits :: lens, ((k : Int) + 1) :: idx⟩ = .error .conversion := by
  have : wordOf M P s scale n ((k : Int) + 1) = .error .conversion := by
    have hk' : ((k : Int) + 1 - 1).toNat = k := by omega
    unfold wordOf toU32
    rw [if_pos (by omega), hk', if_pos hk, if_neg fun hc => absurd h (not_le.2 hc.1)]
  simp only [sendPdo, encode, List.getElem?_cons_zero, this]
  rfl


/-- A negative set value. -/
example (enc : Nat → Nat → List Byte) : sendPdo 1 1 enc ⟨fun _ _ => (-3 / 2 : ℚ), fun _ _ => 0, fun _ => 0⟩ (fun _ => 1) ⟨0, 3, 1, [32], [1]⟩ = .error .conversion :=
  negative_undefined 1 1 enc _ _ 0 3 1 32 [] 0 (by decide) [] (by norm_num)

/-- **C79 violated**: objects which need more than eight bytes are written beyond the end of the buffer (here two control words, any number of bytes). -/
theorem overflow (M P : Nat) (enc : Nat → Nat → List Byte) (henc : ∀ w n, (enc w n).length = n) (s : Ins K) (scale : Nat → K) (n id nr a b : Nat) (h : 8 < a / 8 + b / 8) :
    sendPdo M P enc s scale ⟨n, id, nr, [a, b], [0, 0]⟩ = .error .overflow := by
  by_cases h8 : 8 < a / 8
  · simp [sendPdo, encode, wordOf, h8]
    rfl
  · have : ¬ (8 < 0 + a / 8) := by omega
    simp [sendPdo, encode, wordOf, henc, h8, h]
    rfl

end Send

/-- Non-vacuity of `sent_partial`. -/
example : Good 1 1 1 ⟨0, 3, 2, [16, 32], [0, 1]⟩ ∧ offset [16, 32] 2 = 6 ∧ (-1 < (3 / 2 : ℚ) * 4 ∧ (3 / 2 : ℚ) * 4 < 2 ^ 32) := by
  refine ⟨⟨by decide, by decide, by decide⟩, by decide, by norm_num⟩

/-! ### CANreceive -/

/-- The position in a frame: a 16 bit number in bytes 6 and 7. -/
def position (f : Frame) : Nat := (f.data 7).val * 256 + (f.data 6).val

/-- **C80 (partial)** If the frames arrive in the order of the nodes, the `i`-th angle is the position in the frame of the `i`-th node times its scale.
Missing: other orders, see `order_violated`. -/
theorem angles_partial {K : Type} [Field K] (scale : Nat → K) (ids : List Nat) (frames : List Frame) (h : frames.map Frame.id = ids) (i : Nat) (id : Nat) (hi : ids[i]? = some id) :
    ∃ f, frames[i]? = some f ∧ f.id = id ∧ (angles scale frames)[i]? = some ((position f : K) * scale i) ∧ (angles scale frames).length = ids.length := by
  subst h
  rw [List.getElem?_map] at hi
  obtain ⟨f, hf, hid⟩ := Option.map_eq_some_iff.1 hi
  refine ⟨f, hf, hid, ?_, by simp [angles]⟩
  unfold angles
  rw [List.getElem?_map, List.getElem?_zipIdx, hf]
  simp [position]

/-- **C80 violated**: the identifier of a frame is not looked at: whatever the frames, if two of them arrive in the other order the two angles are exchanged. -/
theorem order_violated {K : Type} [Field K] (f g : Frame) : angles (fun _ => (1 : K)) [f, g] = [(position f : K), (position g : K)] ∧
    angles (fun _ => (1 : K)) [g, f] = [(position g : K), (position f : K)] ∧ ∀ h : Frame, h.data = f.data → angles (fun _ => (1 : K)) [h, g] = angles (fun _ => (1 : K)) [f, g] := by
  refine ⟨by simp [angles, position], by simp [angles, position], fun h e => by simp [angles, e]⟩

/-- Witness: frames of nodes 1 and 2 with positions 10 and 20, in both orders. -/
example : angles (fun _ => (1 : ℚ)) [⟨0x141, fun i => if i = 6 then 10 else 0⟩, ⟨0x142, fun i => if i = 6 then 20 else 0⟩] = [10, 20] ∧
    angles (fun _ => (1 : ℚ)) [⟨0x142, fun i => if i = 6 then 20 else 0⟩, ⟨0x141, fun i => if i = 6 then 10 else 0⟩] = [20, 10] := by
  constructor <;> simp [angles] <;> constructor <;> rfl

end Verif.Control.Can
