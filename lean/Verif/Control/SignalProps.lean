import Verif.Control.Signal
namespace Verif.Control.Signal
variable {V : Type} (cl : V)

/-! ### Specification (histories are newest first) -/

/-- How many signals exist. -/
def count : List (Op V) → Nat
  | [] => 0
  | .construct :: h => count h + 1
  | .copy i :: h => if i < count h then count h + 1 else count h
  | _ :: h => count h

/-- No signal was made by copying another one. -/
def noCopy : List (Op V) → Prop
  | [] => True
  | .copy _ :: _ => False
  | _ :: h => noCopy h

/-- The value of signal `i`: what was last written to it, or given to it by assignment or copy. -/
def valueOf (i : Nat) : List (Op V) → Option V
  | [] => none
  | .construct :: h => valueOf i h
  | .copy j :: h => if i = count h ∧ j < count h then valueOf j h else valueOf i h
  | .setTimestamp _ _ :: h => valueOf i h
  | .setValue j v :: h => if j = i ∧ i < count h then some v else valueOf i h
  | .assign j k :: h => if j = i ∧ i < count h ∧ k < count h then valueOf k h else valueOf i h
  | .clear j :: h => if j = i ∧ i < count h then some cl else valueOf i h

/-- The same for the time stamp. -/
def stampOf (i : Nat) : List (Op V) → Option Nat
  | [] => none
  | .construct :: h => stampOf i h
  | .copy j :: h => if i = count h ∧ j < count h then stampOf j h else stampOf i h
  | .setTimestamp j t :: h => if j = i ∧ i < count h then some t else stampOf i h
  | .setValue _ _ :: h => stampOf i h
  | .assign j k :: h => if j = i ∧ i < count h ∧ k < count h then stampOf k h else stampOf i h
  | .clear j :: h => if j = i ∧ i < count h then some 0 else stampOf i h

/-! ### C87 -/

theorem length_after (h : List (Op V)) : (after cl h).sigs.length = count h := by
  induction h with
  | nil => rfl
  | cons op h ih =>
    cases op with
    | construct => simp [after, step, count, ih]
    | copy i =>
      simp only [after, step, count]
      by_cases hi : i < count h
      · rw [List.getElem?_eq_getElem (by omega)]; simp [hi, ih]
      · rw [List.getElem?_eq_none (by omega)]; simp [hi, ih]
    | setTimestamp i t => simp [after, step, count, ih]
    | setValue i v => simp [after, step, count, ih]
    | assign i j =>
      simp only [after, step, count]
      cases (after cl h).sigs[j]? <;> simp [ih]
    | clear i => simp [after, step, count, ih]

theorem valueOf_none (i : Nat) (h : List (Op V)) (hi : count h ≤ i) : valueOf cl i h = none ∧ stampOf i h = none := by
  induction h with
  | nil => exact ⟨rfl, rfl⟩
  | cons op h ih =>
    cases op with
    | construct => simp only [count] at hi; simpa [valueOf, stampOf] using ih (by omega)
    | copy j =>
      simp only [count] at hi
      split at hi
      · have : ¬ i = count h := by omega
        simpa [valueOf, stampOf, this] using ih (by omega)
      · rename_i hj; simpa [valueOf, stampOf, hj] using ih hi
    | setTimestamp j t =>
      simp only [count] at hi
      have : ¬ i < count h := by omega
      simpa [valueOf, stampOf, this] using ih hi
    | setValue j v =>
      simp only [count] at hi
      have : ¬ i < count h := by omega
      simpa [valueOf, stampOf, this] using ih hi
    | assign j k =>
      simp only [count] at hi
      have : ¬ i < count h := by omega
      simpa [valueOf, stampOf, this] using ih hi
    | clear j =>
      simp only [count] at hi
      have : ¬ i < count h := by omega
      simpa [valueOf, stampOf, this] using ih hi

/-- **C87, contents.** Value and time stamp of every signal are those last written to it, directly, by `clear`, by assignment of
another signal or by copying; other signals are never touched. -/
theorem contents (h : List (Op V)) (i : Nat) (hi : i < count h) :
    ∃ g, (after cl h).sigs[i]? = some g ∧ g.value = valueOf cl i h ∧ g.timestamp = stampOf i h := by
  induction h generalizing i with
  | nil => simp [count] at hi
  | cons op h ih =>
    have hl := length_after cl h
    cases op with
    | construct =>
      simp only [count] at hi
      by_cases h1 : i < count h
      · obtain ⟨g, e1, e2⟩ := ih i h1
        exact ⟨g, by simp only [after, step]; rw [List.getElem?_append_left (by omega)]; exact e1, e2⟩
      · have : i = count h := by omega
        subst this
        have hn := valueOf_none cl (count h) h (Nat.le_refl _)
        refine ⟨⟨none, none, (after cl h).counter⟩, ?_, hn.1.symm, hn.2.symm⟩
        simp only [after, step]
        rw [← hl]; simp
    | copy j =>
      simp only [count] at hi
      by_cases hj : j < count h
      · obtain ⟨r, r1, r2, r3⟩ := ih j hj
        simp only [hj, if_true] at hi
        by_cases h1 : i < count h
        · obtain ⟨g, e1, e2⟩ := ih i h1
          have : ¬ i = count h := by omega
          refine ⟨g, ?_, by simpa [valueOf, stampOf, this] using e2⟩
          simp only [after, step, r1]; rw [List.getElem?_append_left (by omega)]; exact e1
        · have : i = count h := by omega
          subst this
          refine ⟨r, ?_, by simpa [valueOf, hj] using r2, by simpa [stampOf, hj] using r3⟩
          simp only [after, step, r1]
          rw [← hl]; simp
      · simp only [hj, if_false] at hi
        obtain ⟨g, e1, e2⟩ := ih i hi
        refine ⟨g, ?_, by simpa [valueOf, stampOf, hj] using e2⟩
        have hn : (after cl h).sigs[j]? = none := List.getElem?_eq_none (by omega)
        simp only [after, step, hn]; exact e1
    | setTimestamp j t =>
      simp only [count] at hi
      obtain ⟨g, e1, e2, e3⟩ := ih i hi
      by_cases hj : j = i
      · subst hj; exact ⟨{ g with timestamp := some t }, by simp [after, step, e1], by simpa [valueOf] using e2, by simp [stampOf, hi]⟩
      · exact ⟨g, by simp [after, step, e1, hj], by simpa [valueOf] using e2, by simpa [stampOf, hj] using e3⟩
    | setValue j v =>
      simp only [count] at hi
      obtain ⟨g, e1, e2, e3⟩ := ih i hi
      by_cases hj : j = i
      · subst hj; exact ⟨{ g with value := some v }, by simp [after, step, e1], by simp [valueOf, hi], by simpa [stampOf] using e3⟩
      · exact ⟨g, by simp [after, step, e1, hj], by simpa [valueOf, hj] using e2, by simpa [stampOf] using e3⟩
    | assign j k =>
      simp only [count] at hi
      obtain ⟨g, e1, e2, e3⟩ := ih i hi
      by_cases hk : k < count h
      · obtain ⟨r, r1, r2, r3⟩ := ih k hk
        by_cases hj : j = i
        · subst hj
          exact ⟨{ g with value := r.value, timestamp := r.timestamp }, by simp [after, step, e1, r1], by simp [valueOf, hi, hk, r2],
            by simp [stampOf, hi, hk, r3]⟩
        · exact ⟨g, by simp [after, step, e1, r1, hj], by simpa [valueOf, hj] using e2,
            by simpa [stampOf, hj] using e3⟩
      · have hn : (after cl h).sigs[k]? = none := List.getElem?_eq_none (by omega)
        exact ⟨g, by simp [after, step, e1, hn], by simpa [valueOf, hk] using e2, by simpa [stampOf, hk] using e3⟩
    | clear j =>
      simp only [count] at hi
      obtain ⟨g, e1, e2, e3⟩ := ih i hi
      by_cases hj : j = i
      · subst hj
        exact ⟨{ g with value := some cl, timestamp := some 0 }, by simp [after, step, e1], by simp [valueOf, hi], by simp [stampOf, hi]⟩
      · exact ⟨g, by simp [after, step, e1, hj], by simpa [valueOf, hj] using e2, by simpa [stampOf, hj] using e3⟩

example : valueOf 0 1 [.assign 1 0, .setValue 0 7, .construct, .construct] = some 7 := by decide

theorem id_modify (l : List (Sig V)) (i : Nat) (f : Sig V → Sig V) (hf : ∀ g, (f g).id = g.id) :
    (l.modify i f).map Sig.id = l.map Sig.id := by
  apply List.ext_getElem?
  intro k
  simp only [List.getElem?_map, List.getElem?_modify]
  cases l[k]? with
  | none => rfl
  | some g => by_cases hk : i = k <;> simp [hk, hf]

theorem ids_noCopy (h : List (Op V)) (hc : noCopy h) :
    (after cl h).counter = (count h + 1) % 65536 ∧
      (after cl h).sigs.map Sig.id = (List.range (count h)).map (fun i => (i + 1) % 65536) := by
  induction h with
  | nil => exact ⟨rfl, rfl⟩
  | cons op h ih =>
    cases op with
    | copy i => exact hc.elim
    | construct =>
      obtain ⟨h1, h2⟩ := ih hc
      simp only [after, step, count, List.map_append, h2, List.range_succ, h1]
      exact ⟨by omega, by simp⟩
    | setTimestamp i t => obtain ⟨h1, h2⟩ := ih hc; exact ⟨h1, by simp only [after, step, count]; rw [id_modify, h2]; exact fun _ => rfl⟩
    | setValue i t => obtain ⟨h1, h2⟩ := ih hc; exact ⟨h1, by simp only [after, step, count]; rw [id_modify, h2]; exact fun _ => rfl⟩
    | clear i => obtain ⟨h1, h2⟩ := ih hc; exact ⟨h1, by simp only [after, step, count]; rw [id_modify, h2]; exact fun _ => rfl⟩
    | assign i j =>
      obtain ⟨h1, h2⟩ := ih hc
      simp only [after, step, count]
      split
      · exact ⟨h1, by rw [id_modify, h2]; exact fun _ => rfl⟩
      · exact ⟨h1, h2⟩

/-- **C87 (partial).** As long as no signal is copied, two signals have the same id exactly if the distance between their constructions
is a multiple of 65536; the first 65536 signals have different ids.  Missing: more signals (`wrap_violated`), copies
(`copy_violated`). -/
theorem same_id_iff_partial (h : List (Op V)) (hc : noCopy h) (i j : Nat) (g g' : Sig V)
    (hi : (after cl h).sigs[i]? = some g) (hj : (after cl h).sigs[j]? = some g') :
    getId g = getId g' ↔ i % 65536 = j % 65536 := by
  have key : ∀ k (g : Sig V), (after cl h).sigs[k]? = some g → g.id = (k + 1) % 65536 := by
    intro k g hk
    have h2 := congrArg (·[k]?) (ids_noCopy cl h hc).2
    have hlt : k < count h := by rw [← length_after cl h]; exact (List.getElem?_eq_some_iff.1 hk).1
    simpa [hk, hlt] using h2
  rw [getId, getId, key i g hi, key j g' hj]
  omega

example : noCopy (V := Nat) [.assign 1 0, .construct, .setValue 0 3, .construct] := by simp [noCopy]

/-- **C87** The number of a signal is in the upper 16 bits of its id, starting with 1; the lower 16 bits are zero. -/
theorem id_halves (h : List (Op V)) (hc : noCopy h) (i : Nat) (g : Sig V) (hi : (after cl h).sigs[i]? = some g) :
    getId g / 65536 = (i + 1) % 65536 ∧ getId g % 65536 = 0 := by
  have h2 := congrArg (·[i]?) (ids_noCopy cl h hc).2
  have hlt : i < count h := by rw [← length_after cl h]; exact (List.getElem?_eq_some_iff.1 hi).1
  have key : g.id = (i + 1) % 65536 := by simpa [hi, hlt] using h2
  rw [getId, key]
  omega

/-- The second signal. -/
example : ((after 100 ([.construct, .construct] : List (Op Nat))).sigs.map getId) = [65536, 131072] := by decide

/-- Every list of `n` constructions. -/
theorem count_constructs (n : Nat) : count (List.replicate n (Op.construct : Op V)) = n ∧ noCopy (List.replicate n (Op.construct : Op V)) := by
  induction n with
  | zero => exact ⟨rfl, trivial⟩
  | succ n ih => exact ⟨by simp [List.replicate_succ, count, ih.1], by simpa [List.replicate_succ, noCopy] using ih.2⟩

/-- **C87, violated.** After 65537 or more constructions two different signals have the same id. -/
theorem wrap_violated (n : Nat) (hn : 65537 ≤ n) :
    ∃ (i j : Nat) (g g' : Sig V), i ≠ j ∧ (after cl (List.replicate n (Op.construct : Op V))).sigs[i]? = some g ∧
      (after cl (List.replicate n (Op.construct : Op V))).sigs[j]? = some g' ∧ getId g = getId g' := by
  obtain ⟨hc, hnc⟩ := count_constructs (V := V) n
  obtain ⟨g, hg, _⟩ := contents cl (List.replicate n (Op.construct : Op V)) 0 (by omega)
  obtain ⟨g', hg', _⟩ := contents cl (List.replicate n (Op.construct : Op V)) 65536 (by omega)
  exact ⟨0, 65536, g, g', by omega, hg, hg', (same_id_iff_partial cl _ hnc 0 65536 g g' hg hg').2 (by omega)⟩

/-- **C87, violated.** A copy of any signal has the id of the original. -/
theorem copy_violated (h : List (Op V)) (i : Nat) (hi : i < count h) :
    ∃ (j : Nat) (g g' : Sig V), i ≠ j ∧ (after cl (.copy i :: h)).sigs[i]? = some g ∧ (after cl (.copy i :: h)).sigs[j]? = some g' ∧
      getId g = getId g' := by
  have hl := length_after cl h
  have hg : (after cl h).sigs[i]? = some ((after cl h).sigs[i]'(by omega)) := List.getElem?_eq_getElem (by omega)
  refine ⟨count h, (after cl h).sigs[i]'(by omega), (after cl h).sigs[i]'(by omega), by omega, ?_, ?_, rfl⟩
  · simp only [after, step, hg]; rw [List.getElem?_append_left (by omega)]; exact hg
  · simp only [after, step, hg]; rw [← hl]; simp

example : 1 < count ([.construct, .construct] : List (Op Nat)) := by decide

/-- **C87, violated.** `getSignalById` finds no signal, ever: nothing is entered into the list it searches. -/
theorem lookup_violated (h : List (Op V)) (id : Nat) : getSignalById (after cl h) id = none := by
  have : (after cl h).signalList = [] := by
    induction h with
    | nil => rfl
    | cons op h ih =>
      cases op with
      | copy i => simp only [after, step]; split <;> exact ih
      | assign i j => simp only [after, step]; split <;> exact ih
      | _ => exact ih
  simp [getSignalById, this]

/-- Case of `lookup_violated`: two signals exist, the first has the identifier which is looked for. -/
example : (((after 100 ([.construct, .construct] : List (Op Nat))).sigs.map getId).head?).isSome ∧
    getSignalById (after 100 ([.construct, .construct] : List (Op Nat))) ((((after 100 ([.construct, .construct] : List (Op Nat))).sigs.map getId).head?).getD 0) = none := by
  decide +kernel

/-- `getSignalById` by itself: given a list which is filled, it finds the first listed signal with the identifier, and nothing else. -/
theorem lookup_spec (s : St V) (id : Nat) :
    (∀ p, getSignalById s id = some p → p ∈ s.signalList ∧ ∃ g, s.sigs[p]? = some g ∧ getId g = id) ∧
    (getSignalById s id = none ↔ ∀ p ∈ s.signalList, ∀ g, s.sigs[p]? = some g → getId g ≠ id) := by
  refine ⟨fun p hp => ⟨List.mem_of_find?_eq_some hp, ?_⟩, ?_⟩
  · have := List.find?_some hp
    cases hg : s.sigs[p]? with
    | none => simp [hg] at this
    | some g => exact ⟨g, rfl, by simpa [hg] using this⟩
  · rw [getSignalById, List.find?_eq_none]
    constructor
    · intro h p hp g hg he
      exact h p hp (by simp [hg, he])
    · intro h p hp hh
      cases hg : s.sigs[p]? with
      | none => simp [hg] at hh
      | some g => exact h p hp g hg (by simpa [hg] using hh)

/-- Two signals in the list, the second is looked for. -/
example : getSignalById (⟨3, [⟨some 5, none, 1⟩, ⟨some 6, none, 2⟩], [0, 1]⟩ : St Nat) 131072 = some 1 := by decide +kernel

end Verif.Control.Signal
