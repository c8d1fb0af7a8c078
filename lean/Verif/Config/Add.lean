import Verif.Config.ConfigProps
import Mathlib.Tactic.ByContra
/-!
C272: registering properties with `Config::add` (src/config/Config.cpp:8-118, includes/eeros/config/Config.hpp:20-24, 62-82).  The map `properties` is the list of its elements in the order of the keys.
-/
namespace Verif.Config

/-- `StringCompare` (Config.hpp:20-24): `std::string_view::compare` compares the characters one after the other, a beginning is less than the whole. -/
def less : List Char → List Char → Bool
  | _, [] => false
  | [], _ :: _ => true
  | a :: as, b :: bs => decide (a.toNat < b.toNat) || (decide (a.toNat = b.toNat) && less as bs)

/-- `properties[name] = ...` for a name which is not in the map: the element goes in front of the first one with a greater key. -/
def insert (n : List Char) (v : Val) : Props → Props
  | [] => [(n, v)]
  | (m, w) :: ps => if less m n then (m, w) :: insert n v ps else (n, v) :: (m, w) :: ps

/-- A call of `add`: the name, the variable with its value, and for an array the number of elements between `start` and `end`, which should be `length`. -/
structure Call where
  name : List Char
  val : Val
  between : Nat

/-- 39-41, 71-73: the arguments `length`, `start`, `end` fit together. -/
def Call.consistent (c : Call) : Bool := match c.val with
  | .arr l _ => l.length = c.between
  | .darr l _ => l.length = c.between
  | _ => true

/-- `Config::add`; `none`: `Fault`. -/
def add (ps : Props) (c : Call) : Option Props :=
  if c.consistent then
    if c.name ∈ ps.map Prod.fst then none else some (insert c.name c.val ps)
  else none

/-- A number of calls; a call which throws leaves the map as it was. -/
def addAll : Props → List Call → Props
  | ps, [] => ps
  | ps, c :: cs => addAll ((add ps c).getD ps) cs

/-! ### Specification -/

/-- The value registered under a name: the one of the first consistent call with this name. -/
def firstOf (n : List Char) (cs : List Call) : Option Val := (cs.find? fun c => c.consistent && decide (c.name = n)).map Call.val

/-! ### Proofs -/

theorem char_toNat_inj {a b : Char} (h : a.toNat = b.toNat) : a = b := Char.ext (UInt32.toNat_inj.1 h)

theorem less_irrefl : ∀ a : List Char, less a a = false
  | [] => rfl
  | a :: as => by simp [less, less_irrefl as]

theorem less_trans : ∀ a b c : List Char, less a b = true → less b c = true → less a c = true
  | _, [], _ => by simp [less]
  | _, _ :: _, [] => by simp [less]
  | [], b :: bs, c :: cs => by simp [less]
  | a :: as, b :: bs, c :: cs => by
    have ih := less_trans as bs cs
    simp only [less, Bool.or_eq_true, Bool.and_eq_true, decide_eq_true_eq]
    rintro (h1 | ⟨h1, h1'⟩) (h2 | ⟨h2, h2'⟩)
    · exact Or.inl (by omega)
    · exact Or.inl (by omega)
    · exact Or.inl (by omega)
    · exact Or.inr ⟨by omega, ih h1' h2'⟩

theorem less_total : ∀ a b : List Char, less a b = true ∨ a = b ∨ less b a = true
  | [], [] => by simp
  | [], _ :: _ => by simp [less]
  | _ :: _, [] => by simp [less]
  | a :: as, b :: bs => by
    rcases Nat.lt_trichotomy a.toNat b.toNat with h | h | h
    · simp [less, h]
    · obtain rfl := char_toNat_inj h
      rcases less_total as bs with h | h | h
      · simp [less, h]
      · simp [h]
      · simp [less, h]
    · simp [less, h]

/-- The keys are in increasing order. -/
def Sorted (ps : Props) : Prop := (ps.map Prod.fst).Pairwise fun a b => less a b = true

theorem insert_perm (n : List Char) (v : Val) (ps : Props) : (insert n v ps).Perm ((n, v) :: ps) := by
  induction ps with
  | nil => exact List.Perm.refl _
  | cons p ps ih =>
    obtain ⟨m, w⟩ := p
    simp only [insert]
    split
    · exact (List.Perm.cons _ ih).trans (List.Perm.swap _ _ _)
    · exact List.Perm.refl _

theorem insert_sorted (n : List Char) (v : Val) (ps : Props) (h : Sorted ps) (hn : n ∉ ps.map Prod.fst) : Sorted (insert n v ps) := by
  induction ps with
  | nil => simp [Sorted, insert]
  | cons p ps ih =>
    obtain ⟨m, w⟩ := p
    simp only [Sorted, List.map_cons, List.pairwise_cons, List.mem_cons, not_or] at h hn
    simp only [insert]
    split
    · rename_i hl
      have hs := ih h.2 hn.2
      simp only [Sorted, List.map_cons, List.pairwise_cons]
      refine ⟨fun x hx => ?_, hs⟩
      have : x ∈ ((n, v) :: ps).map Prod.fst := ((insert_perm n v ps).map Prod.fst).mem_iff.1 hx
      rcases List.mem_cons.1 this with rfl | hx
      · exact hl
      · exact h.1 x hx
    · rename_i hl
      have hnm : less n m = true := by
        rcases less_total n m with h | h | h
        · exact h
        · exact absurd h hn.1
        · exact absurd h hl
      simp only [Sorted, List.map_cons, List.pairwise_cons, List.mem_cons]
      refine ⟨?_, h⟩
      rintro x (rfl | hx)
      · exact hnm
      · exact less_trans _ _ _ hnm (h.1 x hx)

theorem sorted_nodup {ps : Props} (h : Sorted ps) : (ps.map Prod.fst).Nodup :=
  List.Pairwise.imp (fun {a b} hab he => by subst he; simp [less_irrefl] at hab) h

theorem addAll_spec (cs : List Call) : ∀ ps : Props, Sorted ps → Sorted (addAll ps cs) ∧
    ∀ n v, (n, v) ∈ addAll ps cs ↔ (n, v) ∈ ps ∨ (n ∉ ps.map Prod.fst ∧ firstOf n cs = some v) := by
  induction cs with
  | nil => intro ps h; exact ⟨h, by simp [addAll, firstOf]⟩
  | cons c cs ih =>
    intro ps h
    simp only [addAll]
    by_cases hc : c.consistent = true
    · by_cases hm : c.name ∈ ps.map Prod.fst
      · have ha : add ps c = none := by simp only [add, hc, if_true, if_pos hm]
        rw [ha, Option.getD_none]
        refine ⟨(ih ps h).1, fun n v => ?_⟩
        rw [(ih ps h).2]
        by_cases hn : c.name = n
        · subst hn; simp only [hm, not_true_eq_false, false_and]
        · simp [firstOf, List.find?_cons, hc, hn]
      · have ha : add ps c = some (insert c.name c.val ps) := by simp only [add, hc, if_true, if_neg hm]
        rw [ha, Option.getD_some]
        have hs := insert_sorted c.name c.val ps h hm
        have hp := insert_perm c.name c.val ps
        refine ⟨(ih _ hs).1, fun n v => ?_⟩
        rw [(ih _ hs).2, hp.mem_iff, (hp.map Prod.fst).mem_iff]
        by_cases hn : c.name = n
        · subst hn
          simp only [List.mem_cons, Prod.mk.injEq, true_and, List.map_cons, true_or, not_true_eq_false, false_and, or_false, firstOf, List.find?_cons, hc, decide_true,
            Bool.and_self, Option.map_some, Option.some.injEq]
          constructor
          · rintro (rfl | h)
            · exact Or.inr ⟨hm, rfl⟩
            · exact Or.inl h
          · rintro (h | ⟨-, rfl⟩)
            · exact Or.inr h
            · exact Or.inl rfl
        · have hn' : n ≠ c.name := fun h => hn h.symm
          simp [firstOf, List.find?_cons, hc, hn, hn']
    · have ha : add ps c = none := by simp only [add, hc]; simp
      rw [ha, Option.getD_none]
      refine ⟨(ih ps h).1, fun n v => ?_⟩
      rw [(ih ps h).2]
      simp [firstOf, List.find?_cons, hc]

/-! ### The property theorems -/

/-- **C272** For every list of calls of `add`, whatever names and arguments: a call throws exactly if the array arguments do not fit together or a consistent call with this name came before. -/
theorem add_throws_iff (cs : List Call) (c : Call) :
    add (addAll [] cs) c = none ↔ c.consistent = false ∨ ∃ c' ∈ cs, c'.consistent = true ∧ c'.name = c.name := by
  have hspec := (addAll_spec cs [] (by simp [Sorted])).2
  have hmem : c.name ∈ (addAll [] cs).map Prod.fst ↔ ∃ c' ∈ cs, c'.consistent = true ∧ c'.name = c.name := by
    constructor
    · intro h
      obtain ⟨⟨n, v⟩, hp, hn⟩ := List.mem_map.1 h
      have hn : n = c.name := hn
      have := (hspec n v).1 hp
      rw [hn] at this
      simp only [List.not_mem_nil, List.map_nil, not_false_eq_true, true_and, false_or, firstOf, Option.map_eq_some_iff] at this
      obtain ⟨c', hf, -⟩ := this
      exact ⟨c', List.mem_of_find?_eq_some hf, by simpa using List.find?_some hf⟩
    · rintro ⟨c', hc', h1, h2⟩
      have : ((cs.find? fun x => x.consistent && decide (x.name = c.name))).isSome = true := by
        rw [List.find?_isSome]
        exact ⟨c', hc', by simp [h1, h2]⟩
      obtain ⟨d, hd⟩ := Option.isSome_iff_exists.1 this
      exact List.mem_map.2 ⟨(c.name, d.val), (hspec _ _).2 (Or.inr ⟨by simp, by simp [firstOf, hd]⟩), rfl⟩
  rw [← hmem]
  cases hc : c.consistent with
  | false => simp [add, hc]
  | true =>
    by_cases hm : c.name ∈ (addAll [] cs).map Prod.fst
    · simp only [add, hc, if_true, hm, or_true]
    · simp only [add, hc, if_true, hm, or_false]; simp

/-- **C272** The configuration contains each name once, in increasing order, with the variable of the first consistent call with this name, and nothing else. -/
theorem registered (cs : List Call) :
    ((addAll [] cs).map Prod.fst).Pairwise (fun a b => less a b = true) ∧ ∀ n v, (n, v) ∈ addAll [] cs ↔ firstOf n cs = some v := by
  obtain ⟨h1, h2⟩ := addAll_spec cs [] (by simp [Sorted])
  exact ⟨h1, fun n v => by rw [h2]; simp⟩

/-- **C272** The order of the registrations has no influence on the file: calls with distinct names give the same text in every order. -/
theorem order_irrelevant (cs ds : List Call) (hp : cs.Perm ds) (hd : (cs.map Call.name).Nodup) : save (addAll [] cs) = save (addAll [] ds) := by
  obtain ⟨h1, h2⟩ := registered cs
  obtain ⟨g1, g2⟩ := registered ds
  have hf : ∀ n, firstOf n cs = firstOf n ds := by
    intro n
    have key : ∀ (as bs : List Call), as.Perm bs → (as.map Call.name).Nodup → ∀ v, firstOf n as = some v → firstOf n bs = some v := by
      intro as bs hab hnd v hv
      simp only [firstOf, Option.map_eq_some_iff] at hv ⊢
      obtain ⟨c, hc, rfl⟩ := hv
      have hcm := List.mem_of_find?_eq_some hc
      have hcp := List.find?_some hc
      have : ((bs.find? fun x => x.consistent && decide (x.name = n))).isSome = true := List.find?_isSome.2 ⟨c, hab.mem_iff.1 hcm, hcp⟩
      obtain ⟨d, hdd⟩ := Option.isSome_iff_exists.1 this
      have hdm := hab.mem_iff.2 (List.mem_of_find?_eq_some hdd)
      have hdp := List.find?_some hdd
      simp only [Bool.and_eq_true, decide_eq_true_eq] at hcp hdp
      have : d = c := List.inj_on_of_nodup_map hnd hdm hcm (by rw [hcp.2, hdp.2])
      exact ⟨d, hdd, by rw [this]⟩
    cases h : firstOf n cs with
    | some v => exact (key cs ds hp hd v h).symm
    | none =>
      cases h' : firstOf n ds with
      | none => rfl
      | some v => rw [key ds cs hp.symm ((hp.map Call.name).nodup_iff.1 hd) v h'] at h; simp at h
  have hperm : (addAll [] cs).Perm (addAll [] ds) := by
    rw [List.perm_ext_iff_of_nodup (List.Nodup.of_map _ (sorted_nodup h1)) (List.Nodup.of_map _ (sorted_nodup g1))]
    rintro ⟨n, v⟩
    rw [h2, g2, hf]
  have hmap : Sorted (addAll [] cs) ∧ Sorted (addAll [] ds) := ⟨h1, g1⟩
  have : addAll [] cs = addAll [] ds := by
    refine List.Perm.eq_of_pairwise (le := fun a b => a = b ∨ less a.1 b.1 = true) ?_ ?_ ?_ hperm
    · rintro a b - - (h | h) (h' | h')
      · exact h
      · exact h
      · exact h'.symm
      · have := less_trans _ _ _ h h'; simp [less_irrefl] at this
    · exact (List.pairwise_map.1 h1).imp fun h => Or.inr h
    · exact (List.pairwise_map.1 g1).imp fun h => Or.inr h
  rw [this]

/-- **C272** With the round trip of C45: for every list of registrations with good names and values, loading the file written for the configuration restores it, whatever the variables hold in the meantime. -/
theorem registered_round_trip (cs : List Call) (hn : ∀ c ∈ cs, GoodName c.name) (hv : ∀ c ∈ cs, GoodVal c.val) (ps' : Props)
    (hs : List.Forall₂ (fun p p' => p.1 = p'.1 ∧ SameShape p.2 p'.2) (addAll [] cs) ps') : load (save (addAll [] cs)) ps' = .ok (addAll [] cs) := by
  obtain ⟨h1, h2⟩ := registered cs
  have hm : ∀ p ∈ addAll [] cs, ∃ c ∈ cs, c.name = p.1 ∧ c.val = p.2 := by
    rintro ⟨n, v⟩ hp
    have := (h2 n v).1 hp
    simp only [firstOf, Option.map_eq_some_iff] at this
    obtain ⟨c, hc, rfl⟩ := this
    have := List.find?_some hc
    simp only [Bool.and_eq_true, decide_eq_true_eq] at this
    exact ⟨c, List.mem_of_find?_eq_some hc, this.2, rfl⟩
  refine round_trip_partial _ ps' (sorted_nodup h1) ?_ ?_ hs
  · intro p hp; obtain ⟨c, hc, h, -⟩ := hm p hp; rw [← h]; exact hn c hc
  · intro p hp; obtain ⟨c, hc, -, h⟩ := hm p hp; rw [← h]; exact hv c hc

/-- Three properties, one of them registered twice and one with inconsistent arguments: the file holds two lines, in the order of the names. -/
def someCalls : List Call :=
  [⟨"speed".toList, .int 5, 0⟩, ⟨"limits".toList, .arr [1, 2] (-1), 2⟩, ⟨"speed".toList, .int 7, 0⟩, ⟨"offsets".toList, .arr [1] (-1), 2⟩]

example : save (addAll [] someCalls) = "limits = 1, 2\nspeed = 5\n".toList ∧ add (addAll [] someCalls) ⟨"speed".toList, .int 1, 0⟩ = none ∧
    add (addAll [] someCalls) ⟨"offsets".toList, .int 1, 0⟩ ≠ none := by decide +kernel

example : save (addAll [] (someCalls.take 2)) = save (addAll [] (someCalls.take 2).reverse) :=
  order_irrelevant _ _ (List.reverse_perm _).symm (by decide +kernel)

end Verif.Config
