import Verif.Control.VectorCmp
import Mathlib.Data.List.Induction
/-!
C248: the median filter (includes/eeros/control/filter/MedianFilter.hpp) of values whose `operator<` is not a strict weak order: vectors, whose `operator<`
(includes/eeros/math/Matrix.hpp:493-502, `VectorCmp.vlt`) asks for every element to be smaller, and doubles with NaN.  The C++ standard leaves `std::sort` undefined for
such an order, hence the algorithm of libstdc++ (version 13, bits/stl_algo.h) is followed: up to 16 values an insertion sort (1812-1830, 1792-1806), more than 16 values begin
with a partition (1871-1899), of which the first loop is modelled.  Merge sort (`Filters.lean`) is a correct stand-in only for orders which are strict weak orders.
-/
namespace Verif.Control.MedianVec
open XVal VectorCmp

section Model
variable {α : Type}

/-- `__unguarded_linear_insert` (1792-1806) of `x`: the sorted part is given from its end to its begin; `none` is a read in front of the array. -/
def insRev (lt : α → α → Bool) (x : α) : List α → Option (List α)
  | [] => none
  | e :: r => if lt x e then (insRev lt x r).map (e :: ·) else some (x :: e :: r)

/-- One pass of `__insertion_sort` (1817-1829): `p` is the part in front of `x`. -/
def insertOne (lt : α → α → Bool) (p : List α) (x : α) : Option (List α) :=
  match p with
  | [] => some [x]
  | first :: _ => if lt x first then some (x :: p) else (insRev lt x p.reverse).map List.reverse

/-- `__insertion_sort` (1812-1830), which is the whole of `std::sort` up to 16 values (1848-1864, 1922). -/
def insertionSort (lt : α → α → Bool) (l : List α) : Option (List α) :=
  l.foldl (fun p x => p.bind fun p => insertOne lt p x) (some [])

/-- `__move_median_to_first` (85-108): which of the three values goes to the front. -/
def medianOf (lt : α → α → Bool) (a b c : α) : α :=
  if lt a b then (if lt b c then b else if lt a c then c else a) else if lt a c then a else if lt b c then c else b

/-- The first loop of `__unguarded_partition` (1871-1880), `while(*first < *pivot) ++first`, on the values from `first` to the end of the array:
the number of values passed; `none` is a read behind the array. -/
def scanUp (lt : α → α → Bool) (pivot : α) : List α → Option Nat
  | [] => none
  | y :: r => if lt y pivot then (scanUp lt pivot r).map (· + 1) else some 0

/-- The first partition of more than 16 values (1893-1899): the median of the second, the middle and the last value is exchanged with the first one (`swap`), then the values from
the second on are scanned. -/
def firstScan (lt : α → α → Bool) (l : List α) : Option Nat :=
  match l[1]?, l[l.length / 2]?, l[l.length - 1]?, l[0]? with
  | some a, some b, some c, some f =>
    let p := medianOf lt a b c
    let at' : Nat := if lt a b then (if lt b c then l.length / 2 else if lt a c then l.length - 1 else 1)
      else if lt a c then 1 else if lt b c then l.length - 1 else l.length / 2
    scanUp lt p ((l.set at' f).drop 1)
  | _, _, _, _ => none

/-- `run` (62-77), enabled: shift the window, append the sample, sort a copy, take the value at `N/2` (115).  The second component is the output. -/
def run (lt : α → α → Bool) (w : List α) (x : α) : List α × Option α :=
  let w' := w.drop 1 ++ [x]
  (w', (insertionSort lt w').bind fun t => t[w'.length / 2]?)

/-- Runs with the samples `xs`: the window. -/
def feed (lt : α → α → Bool) (w : List α) (xs : List α) : List α := xs.foldl (fun w x => (run lt w x).1) w

end Model

section Sorting
variable {α : Type} {lt : α → α → Bool}

theorem insRev_some (x : α) : ∀ r : List α, (∃ e ∈ r.getLast?, lt x e = false) → ∃ r', insRev lt x r = some r' ∧ r'.Perm (x :: r)
  | [], h => by simp at h
  | [e], h => by
    have h : lt x e = false := by simpa using h
    exact ⟨_, by simp [insRev, h], .refl _⟩
  | e :: f :: r, h => by
    obtain ⟨r', h1, h2⟩ := insRev_some x (f :: r) (by simpa using h)
    rw [insRev]
    by_cases c : lt x e = true
    · exact ⟨e :: r', by simp [c, h1], (h2.cons e).trans (.swap ..)⟩
    · exact ⟨_, by simp [c], .refl _⟩

theorem insertOne_some (lt : α → α → Bool) (p : List α) (x : α) : ∃ p', insertOne lt p x = some p' ∧ p'.Perm (p ++ [x]) := by
  cases p with
  | nil => exact ⟨_, rfl, .refl _⟩
  | cons f r =>
    rw [insertOne]
    by_cases c : lt x f = true
    · exact ⟨_, by simp [c], (List.perm_append_singleton x (f :: r)).symm⟩
    · obtain ⟨r', h1, h2⟩ := insRev_some (lt := lt) x (f :: r).reverse ⟨f, by simp, by simpa using c⟩
      refine ⟨r'.reverse, by simp only [c]; rw [h1]; rfl, ?_⟩
      exact (r'.reverse_perm.trans h2).trans (((f :: r).reverse_perm.cons x).trans (List.perm_append_singleton x (f :: r)).symm)

theorem sort_snoc (l : List α) (x : α) : insertionSort lt (l ++ [x]) = (insertionSort lt l).bind fun p => insertOne lt p x := by
  simp [insertionSort, List.foldl_append]

/-- **C248.** Whatever the order is, up to 16 values are sorted without a read outside of the array and no value is lost or invented. -/
theorem insertion_in_bounds (lt : α → α → Bool) (l : List α) : ∃ l', insertionSort lt l = some l' ∧ l'.Perm l := by
  induction l using List.reverseRecOn with
  | nil => exact ⟨[], rfl, .refl _⟩
  | append_singleton l x ih =>
    obtain ⟨p, h1, h2⟩ := ih
    obtain ⟨p', h3, h4⟩ := insertOne_some lt p x
    exact ⟨p', by rw [sort_snoc, h1]; exact h3, h4.trans (h2.append_right [x])⟩

example : insertionSort (fun a b : Nat => decide (a < b)) [3, 1, 2, 0] = some [0, 1, 2, 3] ∧ insertionSort (fun _ _ : Nat => true) [3, 1, 2] = some [2, 1, 3] := by decide

/-- Specification: on the values of `l` the relation is a strict weak order, as `std::sort` demands. -/
def Weak (lt : α → α → Bool) (l : List α) : Prop :=
  (∀ a ∈ l, ∀ b ∈ l, lt a b = true → lt b a = false) ∧ ∀ a ∈ l, ∀ b ∈ l, ∀ c ∈ l, lt a b = false → lt b c = false → lt a c = false

theorem Weak.sub {l m : List α} (h : Weak lt l) (s : ∀ a ∈ m, a ∈ l) : Weak lt m :=
  ⟨fun a ha b hb => h.1 a (s a ha) b (s b hb), fun a ha b hb c hc => h.2 a (s a ha) b (s b hb) c (s c hc)⟩

theorem insRev_sorted (x : α) : ∀ (r r' : List α), Weak lt (x :: r) → r.Pairwise (fun e f => lt e f = false) → insRev lt x r = some r' →
    r'.Pairwise (fun e f => lt e f = false) ∧ ∀ e ∈ r', e ∈ x :: r
  | [], _, _, _, h => by simp [insRev] at h
  | e :: r, r', w, p, h => by
    rw [List.pairwise_cons] at p
    rw [insRev] at h
    by_cases c : lt x e = true
    · simp only [c, if_true, Option.map_eq_some_iff] at h
      obtain ⟨t, h1, rfl⟩ := h
      obtain ⟨h2, h3⟩ := insRev_sorted x r t (w.sub (by simp; tauto)) p.2 h1
      refine ⟨List.pairwise_cons.2 ⟨fun f hf => ?_, h2⟩, fun f hf => ?_⟩
      · rcases List.mem_cons.1 (h3 f hf) with rfl | hf
        · exact w.1 _ (by simp) _ (by simp) c
        · exact p.1 f hf
      · rcases List.mem_cons.1 hf with rfl | hf
        · simp
        · rcases List.mem_cons.1 (h3 f hf) with rfl | hf <;> simp [*]
    · simp only [c] at h
      obtain rfl : x :: e :: r = r' := by simpa using h
      have c : lt x e = false := by simpa using c
      refine ⟨List.pairwise_cons.2 ⟨fun f hf => ?_, List.pairwise_cons.2 p⟩, fun f hf => hf⟩
      rcases List.mem_cons.1 hf with rfl | hf
      · exact c
      · exact w.2 x (by simp) e (by simp) f (by simp [hf]) c (p.1 f hf)

/-- **C248.** If the order is a strict weak order on the values, none comes in front of a smaller one. -/
theorem insertion_sorts (l l' : List α) (hw : Weak lt l) (h : insertionSort lt l = some l') : l'.Pairwise (fun a b => lt b a = false) := by
  induction l using List.reverseRecOn generalizing l' with
  | nil => simp [insertionSort] at h; subst h; exact .nil
  | append_singleton l x ih =>
    obtain ⟨p, h1, h2⟩ := insertion_in_bounds lt l
    have hp := ih p (hw.sub (by simp; tauto)) h1
    rw [sort_snoc, h1, Option.bind_some] at h
    have hx : ∀ a ∈ x :: p, a ∈ l ++ [x] := fun a ha => by
      rcases List.mem_cons.1 ha with rfl | ha
      · simp
      · simp [h2.mem_iff.1 ha]
    have hw' := hw.sub hx
    cases p with
    | nil => simp [insertOne] at h; subst h; simp
    | cons f r =>
      rw [insertOne] at h
      by_cases c : lt x f = true
      · obtain rfl : x :: f :: r = l' := by simpa [c] using h
        refine List.pairwise_cons.2 ⟨fun y hy => ?_, hp⟩
        rcases List.mem_cons.1 hy with rfl | hy
        · exact hw'.1 x (by simp) y (by simp) c
        · cases hyx : lt y x with
          | false => rfl
          | true =>
            have h3 : lt y f = false := (List.pairwise_cons.1 hp).1 y hy
            have h4 : lt x y = false := hw'.1 y (by simp [hy]) x (by simp) hyx
            exact absurd (hw'.2 x (by simp) y (by simp [hy]) f (by simp) h4 h3) (by simp [c])
      · simp only [c] at h
        obtain ⟨t, h3, rfl⟩ : ∃ t, insRev lt x (f :: r).reverse = some t ∧ t.reverse = l' := by simpa using h
        have := (insRev_sorted x _ t (hw'.sub (by simp; tauto)) (List.pairwise_reverse.2 hp) h3).1
        exact List.pairwise_reverse.2 this

example : Weak (fun a b : Nat => decide (a / 10 < b / 10)) [31, 12, 35, 7] ∧ insertionSort (fun a b : Nat => decide (a / 10 < b / 10)) [31, 12, 35, 7] = some [7, 12, 31, 35] :=
  ⟨⟨fun a _ b _ h => by simp at *; omega, fun a _ b _ c _ h1 h2 => by simp at *; omega⟩, by decide⟩

theorem feed_snoc (w xs : List α) (x : α) : feed lt w (xs ++ [x]) = (run lt (feed lt w xs) x).1 := by simp [feed, List.foldl_append]

theorem feed_eq (w xs : List α) (hw : w ≠ []) : feed lt w xs = (w ++ xs).drop xs.length := by
  induction xs using List.reverseRecOn with
  | nil => simp [feed]
  | append_singleton xs x ih =>
    rw [feed_snoc, ih, run]
    simp only [List.drop_drop, List.length_append, List.length_singleton]
    rw [← List.append_assoc, List.drop_append_of_le_length (l₁ := w ++ xs)]
    have := List.length_pos_iff.2 hw
    simp; omega

/-- After `N` samples the window consists of them. -/
theorem window_of_samples (pre w xs : List α) (h0 : pre ≠ []) (h : xs.length = pre.length) : feed lt pre (w ++ xs) = xs := by
  rw [feed_eq _ _ h0, ← List.append_assoc, List.drop_append]
  have : (pre ++ w).drop (w ++ xs).length = [] := by simp; omega
  rw [this, List.nil_append]
  simp only [List.length_append]
  rw [show w.length + xs.length - (pre.length + w.length) = 0 by omega]; rfl

/-- **C248.** Whenever the order is a strict weak order on the window of the last `N` samples, the output is a sample of this window such that (itself included) at least
`N/2 + 1` samples of the window are not larger and at least `N - N/2` not smaller. -/
theorem median_of_weak_order_partial (w : List α) (x : α) (hw : Weak lt (w.drop 1 ++ [x])) (N : Nat) (h0 : 0 < N) (hN : w.length = N) :
    ∃ m, (run lt w x).2 = some m ∧ m ∈ w.drop 1 ++ [x] ∧ N / 2 + 1 ≤ (w.drop 1 ++ [x]).countP (fun y => !(lt m y)) ∧
      N - N / 2 ≤ (w.drop 1 ++ [x]).countP (fun y => !(lt y m)) := by
  have hl : (w.drop 1 ++ [x]).length = N := by simp; omega
  generalize hv : w.drop 1 ++ [x] = v at *
  obtain ⟨l, h1, hp⟩ := insertion_in_bounds lt v
  have hs := insertion_sorts v l hw h1
  have hll : l.length = N := by rw [hp.length_eq, hl]
  have hi : N / 2 < l.length := by omega
  have irr : ∀ a ∈ l, lt a a = false := fun a ha => by
    cases h : lt a a with
    | false => rfl
    | true => exact absurd (hw.1 a (hp.mem_iff.1 ha) a (hp.mem_iff.1 ha) h) (by simp [h])
  have key : ∀ i j (hi : i < l.length) (hj : j < l.length), i ≤ j → lt l[j] l[i] = false := fun i j hi hj hij => by
    rcases Nat.lt_or_ge i j with h | h
    · exact List.pairwise_iff_getElem.1 hs i j hi hj h
    · have : i = j := by omega
      subst this; exact irr _ (List.getElem_mem hi)
  have key1 : ∀ i (hi' : i < l.length), i ≤ N/2 → lt l[N/2] l[i] = false := fun i hi' h => key i (N/2) hi' hi h
  have key2 : ∀ i (hi' : i < l.length), N/2 ≤ i → lt l[i] l[N/2] = false := fun i hi' h => key (N/2) i hi hi' h
  refine ⟨l[N/2], ?_, hp.mem_iff.1 (List.getElem_mem hi), ?_, ?_⟩
  · simp only [run, hv, h1, hl, Option.bind_some]; exact List.getElem?_eq_getElem hi
  · generalize l[N/2] = m at key1
    rw [← hp.countP_eq, ← List.take_append_drop (N/2+1) l, List.countP_append]
    have : (l.take (N/2+1)).countP (fun y => !(lt m y)) = N/2+1 := by
      rw [List.countP_eq_length.2]
      · rw [List.length_take]; omega
      · intro y hy
        obtain ⟨i, hi', rfl⟩ := List.getElem_of_mem hy
        rw [List.length_take] at hi'
        simp only [List.getElem_take]
        rw [key1 i (by omega) (by omega)]; rfl
    omega
  · generalize l[N/2] = m at key2
    rw [← hp.countP_eq, ← List.take_append_drop (N/2) l, List.countP_append]
    have : (l.drop (N/2)).countP (fun y => !(lt y m)) = N - N/2 := by
      rw [List.countP_eq_length.2]
      · rw [List.length_drop]; omega
      · intro y hy
        obtain ⟨i, hi', rfl⟩ := List.getElem_of_mem hy
        rw [List.length_drop] at hi'
        simp only [List.getElem_drop]
        rw [key2 (N/2+i) (by omega) (by omega)]; rfl
    omega

/-- The insertion sort leaves this window as it is. -/
theorem window_unchanged (s m b : α) (k j : Nat) (hk : 0 < k) (ss : lt s s = false) (ms : lt m s = false) (bs : lt b s = false) (bm : lt b m = false) (sb : lt s b = false) :
    insertionSort lt (List.replicate k s ++ [m] ++ [b] ++ List.replicate j s) = some (List.replicate k s ++ [m] ++ [b] ++ List.replicate j s) := by
  have last : ∀ (p : List α) (e x : α), (∃ f ∈ (p ++ [e]).head?, lt x f = false) → lt x e = false → insertOne lt (p ++ [e]) x = some (p ++ [e] ++ [x]) := by
    intro p e x hf he
    obtain ⟨f, hf, hx⟩ := hf
    cases hq : p ++ [e] with
    | nil => simp at hq
    | cons g q =>
      rw [hq] at hf
      obtain rfl : g = f := by simpa using hf
      simp only [insertOne, hx]
      rw [← hq]; simp [insRev, he]
  have h1 : ∀ n, insertionSort lt (List.replicate n s) = some (List.replicate n s) := by
    intro n
    induction n with
    | zero => rfl
    | succ n ih =>
      rw [List.replicate_succ', sort_snoc, ih]
      cases n with
      | zero => rfl
      | succ n =>
        rw [Option.bind_some, List.replicate_succ' (n := n)]
        exact last _ s s ⟨s, by cases n <;> simp [List.replicate_succ], ss⟩ ss
  obtain ⟨k, rfl⟩ : ∃ q, k = q + 1 := ⟨k - 1, by omega⟩
  have h2 : insertionSort lt (List.replicate (k+1) s ++ [m]) = some (List.replicate (k+1) s ++ [m]) := by
    rw [sort_snoc, h1, Option.bind_some, List.replicate_succ']
    exact last _ s m ⟨s, by cases k <;> simp [List.replicate_succ], ms⟩ ms
  have h3 : insertionSort lt (List.replicate (k+1) s ++ [m] ++ [b]) = some (List.replicate (k+1) s ++ [m] ++ [b]) := by
    rw [sort_snoc, h2, Option.bind_some]
    exact last _ m b ⟨s, by simp [List.replicate_succ], bs⟩ bm
  induction j with
  | zero => simpa using h3
  | succ n ih =>
    rw [List.replicate_succ' (n := n), ← List.append_assoc, sort_snoc, ih, Option.bind_some]
    cases n with
    | zero => simpa using last (List.replicate (k+1) s ++ [m]) b s ⟨s, by simp [List.replicate_succ], ss⟩ sb
    | succ n =>
      rw [List.replicate_succ' (n := n), ← List.append_assoc]
      exact last _ s s ⟨s, by simp [List.replicate_succ], ss⟩ ss

theorem spike_passes (s m b : α) (N : Nat) (hN : 3 ≤ N) (ss : lt s s = false) (ms : lt m s = false) (bs : lt b s = false) (bm : lt b m = false) (sb : lt s b = false)
    (w : List α) (x : α) (hw : w.drop 1 ++ [x] = List.replicate (N/2) s ++ [m] ++ [b] ++ List.replicate (N - N/2 - 2) s) : (run lt w x).2 = some m := by
  have hl : (List.replicate (N/2) s ++ [m] ++ [b] ++ List.replicate (N - N/2 - 2) s).length = N := by simp; omega
  simp only [run, hw, window_unchanged s m b (N/2) (N - N/2 - 2) (by omega) ss ms bs bm sb, hl, Option.bind_some]
  rw [List.getElem?_append_left (by simp), List.getElem?_append_left (by simp), List.getElem?_append_right (by simp)]
  simp

end Sorting

section Vectors
variable {K : Type} [Field K] [LinearOrder K] [IsStrictOrderedRing K] {n : Nat}

/-- Specification: all elements of `x` are smaller than those of `y`. -/
def Below (x y : Fin n → K) : Prop := ∀ i, x i < y i

omit [Field K] [IsStrictOrderedRing K] in
theorem below_asymm (i : Fin n) {x y : Fin n → K} (h : Below x y) : ¬ Below y x := fun h' => lt_asymm (h i) (h' i)

omit [IsStrictOrderedRing K] in
theorem vlt_false (a b : Fin n → K) : vlt (num a) (num b) = false ↔ ¬ Below a b := by
  rw [← Bool.not_eq_true, vlt_num]; rfl

omit [IsStrictOrderedRing K] in
/-- **C248, as far as it holds.** If of any two vectors in the window of the last `N` samples one is below the other or they are equal, the output is the median of
the window: a sample of it, at least `N/2 + 1` samples of the window are equal to it or below, at least `N - N/2` equal or above.  Missing: windows with vectors neither of which is below the other. -/
theorem vector_median_partial (w : List (Fin n → K)) (x : Fin n → K) (N : Nat) (h0 : 0 < N) (hN : w.length = N) (i : Fin n)
    (chain : ∀ a ∈ w.drop 1 ++ [x], ∀ b ∈ w.drop 1 ++ [x], a = b ∨ Below a b ∨ Below b a) :
    ∃ m ∈ w.drop 1 ++ [x], (run vlt (w.map num) (num x)).2 = some (num m) ∧
      (∃ le : List (Fin n → K), le.Sublist (w.drop 1 ++ [x]) ∧ N / 2 + 1 ≤ le.length ∧ ∀ y ∈ le, y = m ∨ Below y m) ∧
      ∃ ge : List (Fin n → K), ge.Sublist (w.drop 1 ++ [x]) ∧ N - N / 2 ≤ ge.length ∧ ∀ y ∈ ge, y = m ∨ Below m y := by
  have hmap : (w.map num).drop 1 ++ [num x] = (w.drop 1 ++ [x]).map num := by simp
  have weak : Weak vlt ((w.map num).drop 1 ++ [num x]) := by
    rw [hmap]
    refine ⟨fun a ha b hb h => ?_, fun a ha b hb c hc h1 h2 => ?_⟩
    · obtain ⟨a, _, rfl⟩ := List.mem_map.1 ha
      obtain ⟨b, _, rfl⟩ := List.mem_map.1 hb
      rw [vlt_num] at h
      rw [vlt_false]; exact below_asymm i h
    · obtain ⟨a, ha', rfl⟩ := List.mem_map.1 ha
      obtain ⟨b, hb', rfl⟩ := List.mem_map.1 hb
      obtain ⟨c, _, rfl⟩ := List.mem_map.1 hc
      rw [vlt_false] at h1 h2 ⊢
      intro h3
      rcases chain a ha' b hb' with rfl | h | h
      · exact h2 h3
      · exact h1 h
      · exact h2 fun j => (h j).trans (h3 j)
  obtain ⟨m, h1, h2, h3, h4⟩ := median_of_weak_order_partial (lt := vlt) (w.map num) (num x) weak N h0 (by simpa using hN)
  rw [hmap] at h2 h3 h4
  obtain ⟨m, hm, rfl⟩ := List.mem_map.1 h2
  rw [List.countP_map] at h3 h4
  refine ⟨m, hm, h1, ⟨_, List.filter_sublist, by rw [← List.countP_eq_length_filter]; exact h3, fun y hy => ?_⟩,
    ⟨_, List.filter_sublist, by rw [← List.countP_eq_length_filter]; exact h4, fun y hy => ?_⟩⟩
  · obtain ⟨hy, h⟩ := List.mem_filter.1 hy
    have h : ¬ Below m y := by rw [← vlt_false]; simpa using h
    rcases chain y hy m hm with h' | h' | h'
    · exact .inl h'
    · exact .inr h'
    · exact absurd h' h
  · obtain ⟨hy, h⟩ := List.mem_filter.1 hy
    have h : ¬ Below y m := by rw [← vlt_false]; simpa using h
    rcases chain y hy m hm with h' | h' | h'
    · exact .inl h'
    · exact absurd h' h
    · exact .inr h'

/-- The test vector of test/control/MedianFilter.cpp: (1,6), (5,10), (4,9), (2,7), (3,8) are a chain, the median is (3,8). -/
def chainWindow : List (Fin 2 → ℚ) := [![0, 0], ![1, 6], ![5, 10], ![4, 9], ![2, 7]]
example : (∀ a ∈ chainWindow.drop 1 ++ [![3, 8]], ∀ b ∈ chainWindow.drop 1 ++ [![3, 8]], a = b ∨ (∀ i, a i < b i) ∨ ∀ i, b i < a i) ∧
    (run vlt (chainWindow.map num) (num ![3, 8])).2 = some (num ![3, 8]) := by
  refine ⟨by decide +kernel, by decide +kernel⟩

/-- **C248 does not hold: the order.** Between vectors of at least two elements the relation `operator<` is no strict weak order: for any two vectors one of which is below the other there is a third
one, all of numbers, which is incomparable with both. -/
theorem not_weak_order_violated (i j : Fin n) (hij : i ≠ j) (a c : Fin n → K) (hac : Below a c) :
    ∃ b : Fin n → K, vlt (num a) (num b) = false ∧ vlt (num b) (num a) = false ∧ vlt (num b) (num c) = false ∧ vlt (num c) (num b) = false ∧
      ¬ Weak vlt [num a, num b, num c] := by
  have hb : ∃ b : Fin n → K, b i = c i + 1 ∧ b j = a j - 1 := ⟨fun k => if k = i then c i + 1 else a j - 1, by simp, by simp [hij.symm]⟩
  obtain ⟨b, hi, hj⟩ := hb
  have e1 : vlt (num a) (num b) = false := (vlt_false _ _).2 fun h => by have := h j; rw [hj] at this; linarith
  have e2 : vlt (num b) (num a) = false := (vlt_false _ _).2 fun h => by have := h i; have := hac i; rw [hi] at *; linarith
  have e3 : vlt (num b) (num c) = false := (vlt_false _ _).2 fun h => by have := h i; rw [hi] at this; linarith
  have e4 : vlt (num c) (num b) = false := (vlt_false _ _).2 fun h => by have := h j; have := hac j; rw [hj] at *; linarith
  refine ⟨b, e1, e2, e3, e4, fun h => ?_⟩
  have := h.2 (num a) (by simp) (num b) (by simp) (num c) (by simp) e1 e3
  exact (vlt_false _ _).1 this hac

example : ∃ b : Fin 2 → ℚ, vlt (num ![1, 1]) (num b) = false ∧ vlt (num b) (num ![5, 5]) = false ∧ vlt (num ![1, 1]) (num ![5, 5]) = true :=
  ⟨![0, 9], by decide +kernel, by decide +kernel, by decide +kernel⟩

/-- **C248 does not hold: a single spike passes.** For every window length of at least 5 and every level `s` and spike `m` above it there is a vector `b` of numbers such that, whatever the samples before were,
a level which is left for a single sample `m` and the following sample `b` lets the filter output the spike `m`, though all but two of the `N` samples are `s`: less than `N - N/2` samples of the window
(`m` and `b`) are not below the output. -/
theorem vector_spike_passes_violated (i j : Fin n) (hij : i ≠ j) (s m : Fin n → K) (hsm : Below s m) :
    ∃ b : Fin n → K, ∀ (N : Nat), 5 ≤ N → ∀ (w : List (Vec K n)) (x : Vec K n),
      w.drop 1 ++ [x] = (List.replicate (N/2) s ++ [m] ++ [b] ++ List.replicate (N - N/2 - 2) s).map num →
      (run vlt w x).2 = some (num m) ∧ (w.drop 1 ++ [x]).countP (fun y => !(vlt y (num m))) = 2 ∧ 2 < N - N/2 := by
  obtain ⟨b, e1, e2, e3, e4, _⟩ := not_weak_order_violated i j hij s m hsm
  refine ⟨b, fun N hN w x hw => ?_⟩
  have ss : vlt (num s) (num s) = false := (vlt_false _ _).2 fun h => lt_irrefl _ (h i)
  have mm : vlt (num m) (num m) = false := (vlt_false _ _).2 fun h => lt_irrefl _ (h i)
  have ms : vlt (num m) (num s) = false := (vlt_false _ _).2 (below_asymm i hsm)
  have sm : vlt (num s) (num m) = true := (vlt_num _ _).2 hsm
  simp only [List.map_append, List.map_replicate, List.map_cons, List.map_nil] at hw
  refine ⟨spike_passes (lt := vlt) (num s) (num m) (num b) N (by omega) ss ms e2 e3 e1 w x hw, ?_, by omega⟩
  rw [hw]; simp [List.countP_append, List.countP_replicate, sm, mm, e3]

/-- Level (1,1), spike (5,5), next sample (0,9): of five samples three are (1,1), the output is (5,5). -/
example : (run vlt (([![0, 0], ![1, 1], ![1, 1], ![5, 5], ![0, 9]] : List (Fin 2 → ℚ)).map num) (num ![1, 1])).2 = some (num ![5, 5]) := by decide +kernel

omit [Field K] [IsStrictOrderedRing K] in
/-- **C248 does not hold: scalars with a NaN.** The same for doubles: any number `m` above the level `s` passes if a NaN follows it. -/
theorem nan_spike_passes_violated (s m : K) (hsm : s < m) (N : Nat) (hN : 5 ≤ N) (w : List (XVal K)) (x : XVal K)
    (hw : w.drop 1 ++ [x] = List.replicate (N/2) (.fin s) ++ [.fin m] ++ [.nan] ++ List.replicate (N - N/2 - 2) (.fin s)) :
    (run XVal.lt w x).2 = some (.fin m) ∧ (w.drop 1 ++ [x]).countP (fun y => XVal.lt y (.fin m)) = N - 2 := by
  refine ⟨spike_passes (lt := XVal.lt) (.fin s) (.fin m) .nan N (by omega) (by simp [XVal.lt]) (by simp [XVal.lt, hsm.le]) rfl rfl (by simp [XVal.lt]) w x hw, ?_⟩
  rw [hw]; simp [List.countP_append, List.countP_replicate, XVal.lt, hsm]; omega

example : (run XVal.lt ([.fin 0, .fin 1, .fin 1, .fin 1000, .nan] : List (XVal ℚ)) (.fin 1)).2 = some (.fin 1000) := by decide +kernel

omit [IsStrictOrderedRing K] in
theorem nan_below (y : Vec K n) : vlt y (fun _ => .nan) = true ∧ vlt (fun _ => .nan) y = true := by
  simp [vlt, nan_le, le_nan]

omit [IsStrictOrderedRing K] in
theorem scan_leaves (l : List (Vec K n)) : scanUp vlt (fun _ => .nan) l = none := by
  induction l with
  | nil => rfl
  | cons y r ih => simp [scanUp, (nan_below y).1, ih]

omit [IsStrictOrderedRing K] in
/-- **C248 does not hold: more than 16 values.** A vector all elements of which are NaN is below every vector, itself included.  If the second, the middle and the last
sample of a window of more than 16 vectors are such vectors, the first partition of `std::sort` passes all samples and reads behind the array `temp`. -/
theorem nan_vectors_read_outside_violated (l : List (Vec K n)) (hl : 16 < l.length) (h1 : l[1]? = some fun _ => .nan)
    (h2 : l[l.length / 2]? = some fun _ => .nan) (h3 : l[l.length - 1]? = some fun _ => .nan) : firstScan vlt l = none := by
  obtain ⟨f, hf⟩ : ∃ f, l[0]? = some f := ⟨l[0], List.getElem?_eq_getElem (by omega)⟩
  have hp : medianOf vlt (fun _ => .nan : Vec K n) (fun _ => .nan) (fun _ => .nan) = fun _ => .nan := by
    simp [medianOf]
  unfold firstScan
  rw [h1, h2, h3, hf]
  simp only [hp]
  exact scan_leaves _

example : firstScan vlt (List.replicate 17 (fun _ => .nan) : List (Vec ℚ 2)) = none :=
  nan_vectors_read_outside_violated _ (by decide) rfl rfl rfl
/-- With numbers the scan stops inside of the array. -/
example : firstScan vlt ((List.range 17).map fun k : Nat => (num fun _ => (k : ℚ) : Vec ℚ 2)) = some 8 := by decide +kernel

end Vectors

theorem scan_stops (lt : α → α → Bool) (p : α) : ∀ l : List α, (∃ y ∈ l, lt y p = false) → (scanUp lt p l).isSome = true
  | [], h => by obtain ⟨y, hy, _⟩ := h; simp at hy
  | y :: r, h => by
    by_cases hy : lt y p = true
    · have : ∃ z ∈ r, lt z p = false := by
        obtain ⟨z, hz, hzp⟩ := h
        rcases List.mem_cons.1 hz with rfl | hz
        · rw [hy] at hzp; exact absurd hzp (by simp)
        · exact ⟨z, hz, hzp⟩
      simp [scanUp, hy, scan_stops lt p r this]
    · simp [scanUp, hy]

/-- **C248, more than 16 values.** If of two samples at most one is smaller than the other, the first partition stops inside of the array: the median of the three probed
samples leaves one which is not smaller behind. -/
theorem first_scan_in_bounds (lt : α → α → Bool) (l : List α) (hl : 16 < l.length) (ha : ∀ a ∈ l, ∀ b ∈ l, lt a b = true → lt b a = false) :
    (firstScan lt l).isSome = true := by
  have g : ∀ i (hi : i < l.length), l[i]? = some l[i] := fun i hi => List.getElem?_eq_getElem hi
  have hm : ∀ i (hi : i < l.length), l[i] ∈ l := fun i hi => List.getElem_mem hi
  have key : ∀ (at' j : Nat) (f p : α) (hj : j < l.length), 1 ≤ j → at' ≠ j → lt l[j] p = false →
      (scanUp lt p ((l.set at' f).drop 1)).isSome = true := by
    intro at' j f p hj h1 hne hp
    refine scan_stops lt p _ ⟨l[j], ?_, hp⟩
    rw [List.mem_iff_getElem?]
    refine ⟨j - 1, ?_⟩
    rw [List.getElem?_drop, show 1 + (j - 1) = j by omega, List.getElem?_set_ne hne, g j hj]
  unfold firstScan
  rw [g 1 (by omega), g (l.length / 2) (by omega), g (l.length - 1) (by omega), g 0 (by omega)]
  dsimp only
  have a1 := ha _ (hm 1 (by omega))
  have a2 := ha _ (hm (l.length / 2) (by omega))
  unfold medianOf
  by_cases hab : lt l[1] (l[l.length / 2]) = true
  · by_cases hbc : lt (l[l.length / 2]) (l[l.length - 1]) = true
    · simp only [hab, hbc, if_true]
      exact key _ (l.length - 1) _ _ (by omega) (by omega) (by omega) (a2 _ (hm _ (by omega)) hbc)
    · by_cases hac : lt l[1] (l[l.length - 1]) = true
      · simp only [hab, hbc, hac, if_true]
        exact key _ (l.length / 2) _ _ (by omega) (by omega) (by simp; omega) (by simpa using hbc)
      · simp only [hab, hbc, hac, if_true]
        exact key _ (l.length / 2) _ _ (by omega) (by omega) (by simp; omega) (a1 _ (hm _ (by omega)) hab)
  · by_cases hac : lt l[1] (l[l.length - 1]) = true
    · simp only [hab, hac, if_true]
      exact key _ (l.length - 1) _ _ (by omega) (by omega) (by simp; omega) (a1 _ (hm _ (by omega)) hac)
    · by_cases hbc : lt (l[l.length / 2]) (l[l.length - 1]) = true
      · simp only [hab, hbc, hac, if_true]
        exact key _ 1 _ _ (by omega) (by omega) (by simp; omega) (by simpa using hac)
      · simp only [hab, hbc, hac]
        exact key _ 1 _ _ (by omega) (by omega) (by simp; omega) (by simpa using hab)

/-- Seventeen numbers. -/
example : (firstScan (fun a b : Nat => decide (a < b)) (List.range 17)).isSome = true :=
  first_scan_in_bounds _ _ (by decide) (fun a _ b _ h => by simp at h ⊢; omega)

/-- Case of `median_of_weak_order_partial`: numbers compared by their tens. -/
example : ∃ m, (run (fun a b : Nat => decide (a / 10 < b / 10)) [50, 31, 12, 35] 7).2 = some m ∧ m ∈ [31, 12, 35, 7] ∧ 3 ≤ [31, 12, 35, 7].countP (fun y => !(decide (m / 10 < y / 10))) := by
  obtain ⟨m, h1, h2, h3, _⟩ := median_of_weak_order_partial (lt := fun a b : Nat => decide (a / 10 < b / 10)) [50, 31, 12, 35] 7
    ⟨fun a _ b _ h => by simp at *; omega, fun a _ b _ c _ h1 h2 => by simp at *; omega⟩ 4 (by decide) rfl
  exact ⟨m, h1, h2, h3⟩

end Verif.Control.MedianVec
