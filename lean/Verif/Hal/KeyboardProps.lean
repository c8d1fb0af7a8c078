import Verif.Hal.Keyboard
import Mathlib.Data.List.Nodup
namespace Verif.Hal.Keyboard

/-! ### Specification (histories are newest first) -/

/-- The key with this code at this index was pressed since it was last reset. -/
def pressed (c : Char) (i : Nat) : List Op → Bool
  | [] => false
  | .press d :: h => d = c || pressed c i h
  | .reset j :: h => if j = i then false else pressed c i h
  | .get _ :: h => pressed c i h

/-- The key with this code was pressed since its input was last read. -/
def pending (c : Char) (id : String) : List Op → Bool
  | [] => false
  | .press d :: h => d = c || pending c id h
  | .reset _ :: h => pending c id h
  | .get j :: h => if j = id then false else pending c id h

/-! ### C86 -/

theorem go_eq (names : List String) (codes : List Char) (n : Nat) (keys : List Key) (hn : n + codes.length ≤ names.length)
    (h : n + codes.length < 256) :
    addKeys.go names n keys codes =
      some ⟨n + codes.length, keys ++ (codes.zip (names.drop n)).map (fun p => ⟨p.2, p.1, false, false⟩)⟩ := by
  induction codes generalizing n keys with
  | nil => simp [addKeys.go]
  | cons c cs ih =>
    simp only [List.length_cons] at hn h
    have hlt : n < names.length := by omega
    have hm : (n + 1) % 256 = n + 1 := Nat.mod_eq_of_lt (by omega)
    simp only [addKeys.go, List.getElem?_eq_getElem hlt, hm]
    have hd : names.drop n = names[n] :: names.drop (n+1) := List.drop_eq_getElem_cons hlt
    rw [ih (n+1) _ (by omega) (by omega), hd]
    have e : n + 1 + cs.length = n + (cs.length + 1) := by omega
    simp only [List.zip_cons_cons, List.map_cons, List.append_assoc, List.cons_append, List.nil_append, List.length_cons, e]

/-- `addKeys` reads beyond the end of the names exactly if there are fewer names than codes (for less than 256 codes). -/
theorem addKeys_defined (s : St) (codes : List Char) (names : List String) (h : codes.length < 256) :
    (addKeys s codes names).isSome ↔ codes.length ≤ names.length := by
  have H : ∀ (codes : List Char) (n : Nat) (keys : List Key), n + codes.length < 256 →
      ((addKeys.go names n keys codes).isSome ↔ codes = [] ∨ n + codes.length ≤ names.length) := by
    intro codes
    induction codes with
    | nil => intro n keys _; simp [addKeys.go]
    | cons c cs ih =>
      intro n keys h
      simp only [List.length_cons] at h
      have hm : (n + 1) % 256 = n + 1 := Nat.mod_eq_of_lt (by omega)
      by_cases hlt : n < names.length
      · simp only [addKeys.go, List.getElem?_eq_getElem hlt, hm]
        rw [ih (n+1) _ (by omega)]
        simp only [List.length_cons, reduceCtorEq, false_or]
        constructor
        · rintro (rfl | h)
          · simp only [List.length_nil]; omega
          · omega
        · intro h; right; omega
      · simp only [addKeys.go, List.getElem?_eq_none (Nat.not_lt.1 hlt)]
        simp only [Option.isSome_none, Bool.false_eq_true, reduceCtorEq, List.length_cons, false_or, false_iff]
        omega
  unfold addKeys
  rw [H codes 0 s.keys (by omega)]
  constructor
  · rintro (rfl | h)
    · simp
    · omega
  · intro h; right; omega

example : (addKeys init ['a', 'b'] ["A"]).isSome = false := by
  have := (addKeys_defined init ['a', 'b'] ["A"] (by decide)).not
  simpa using this.2 (by decide)

/-- The list after one block was constructed. -/
def oneBlock (codes : List Char) (names : List String) : St :=
  ⟨codes.length, (codes.zip names).map (fun p => ⟨p.2, p.1, false, false⟩)⟩

theorem addKeys_first (codes : List Char) (names : List String) (hl : codes.length ≤ names.length) (h : codes.length < 256) :
    addKeys init codes names = some (oneBlock codes names) := by
  unfold addKeys
  rw [go_eq names codes 0 _ (by omega) (by omega)]
  simp [oneBlock, init]

theorem modify_getElem? (keys : List Key) (i j : Nat) (f : Key → Key) :
    (modify keys i f)[j]? = keys[j]?.map (fun k => if j = i then f k else k) := by
  simp [modify]

theorem step_nofKeys (s : St) (op : Op) : (step s op).1.nofKeys = s.nofKeys := by
  cases op with
  | press c => rfl
  | reset i => simp only [step]; split <;> rfl
  | get id => simp only [step]; split <;> rfl

/-- How an operation changes entry `j` of the list. -/
theorem step_getElem? (s : St) (op : Op) (j : Nat) :
    (step s op).1.keys[j]? = s.keys[j]?.map (fun k => match op with
      | .press c => if j < s.nofKeys ∧ c = k.code then { k with state := true, event := true } else k
      | .reset i => if j = i ∧ i < s.nofKeys then { k with state := false } else k
      | .get id => if find s.keys s.nofKeys id = some j then { k with event := false } else k) := by
  cases op with
  | press c => simp [step]
  | reset i =>
    by_cases hi : i < s.nofKeys
    · simp only [step, Nat.not_le.2 hi, ge_iff_le, if_false, modify_getElem?, hi, and_true]
    · simp only [step, Nat.not_lt.1 hi, ge_iff_le, if_true, hi, and_false, if_false]
      simp
  | get id =>
    simp only [step]
    cases hf : find s.keys s.nofKeys id with
    | none => simp
    | some i =>
      simp only [modify_getElem?, Option.some.injEq]
      congr 1
      funext k
      by_cases h : j = i
      · simp [h]
      · simp [h, Ne.symm h]

theorem after_nofKeys (s : St) (h : List Op) : (after s h).nofKeys = s.nofKeys := by
  induction h with
  | nil => rfl
  | cons op h ih => simp only [after, step_nofKeys, ih]

theorem find_unique (keys : List Key) (n : Nat) (id : String) (i : Nat) (hi : i < n)
    (hk : keys[i]?.map Key.name = some id) (hu : ∀ j < n, keys[j]?.map Key.name = some id → j = i) : find keys n id = some i := by
  unfold find
  rw [List.find?_eq_some_iff_getElem]
  refine ⟨by simpa using hk, i, by simpa using hi, by simp, ?_⟩
  intro j hj
  simp only [List.getElem_range, Bool.not_eq_true', decide_eq_false_iff_not]
  intro hc
  have := hu j (by omega) hc
  omega

/-- What is known about the keys of a single block after any history. -/
theorem after_key (codes : List Char) (names : List String) (hl : codes.length ≤ names.length) (hnd : names.Nodup) (h : List Op)
    (i : Nat) (hi : i < codes.length) :
    (after (oneBlock codes names) h).keys[i]? =
      some ⟨names[i], codes[i], pressed codes[i] i h, pending codes[i] names[i] h⟩ := by
  have hnd' : ∀ a b (ha : a < names.length) (hb : b < names.length), names[a] = names[b] → a = b :=
    fun a b ha hb e => (List.Nodup.getElem_inj_iff hnd).1 e
  induction h generalizing i with
  | nil =>
    have h1 : i < names.length := by omega
    simp [after, oneBlock, pressed, pending, List.getElem?_zip_eq_some, hi, h1]
  | cons op h ih =>
    have hn : (after (oneBlock codes names) h).nofKeys = codes.length := after_nofKeys _ h
    have h1 : i < names.length := by omega
    simp only [after, step_getElem?, ih i hi, hn, Option.map_some]
    congr 1
    cases op with
    | press c =>
      by_cases hc : c = codes[i]
      · simp [hi, hc, pressed, pending]
      · simp [hc, pressed, pending]
    | reset j =>
      by_cases hj : i = j
      · subst hj; simp [hi, pressed, pending]
      · simp [hj, Ne.symm hj, pressed, pending]
    | get id =>
      have hname : ∀ j < codes.length, (after (oneBlock codes names) h).keys[j]?.map Key.name = names[j]? := by
        intro j hj
        rw [ih j hj, List.getElem?_eq_getElem (by omega : j < names.length)]; rfl
      by_cases hid : id = names[i]
      · have hf : find (after (oneBlock codes names) h).keys codes.length id = some i := by
          apply find_unique _ _ _ _ hi
          · rw [hname i hi, List.getElem?_eq_getElem h1, hid]
          · intro j hj hc
            rw [hname j hj, List.getElem?_eq_getElem (by omega : j < names.length), hid] at hc
            exact hnd' j i (by omega) h1 (by simpa using hc)
        rw [hid] at hf
        simp [hf, hid, pressed, pending]
      · have hf : find (after (oneBlock codes names) h).keys codes.length id ≠ some i := by
          intro hf
          unfold find at hf
          have := List.find?_some hf
          simp only [decide_eq_true_eq] at this
          rw [hname i hi, List.getElem?_eq_getElem h1] at this
          exact hid (by simpa using this.symm)
        simp [hf, hid, pressed, pending]

/-- **C86 (partial).** With one block of less than 256 keys with distinct names: after any history of key strokes, resets and
reads, output `i` is true exactly if its key was pressed since it was last reset, and reading input `i` delivers true exactly if
the key was pressed since it was last read.  Missing: a second block, see `second_block_shows_first` and
`second_block_events_lost`. -/
theorem one_block_partial (codes : List Char) (names : List String) (hl : codes.length ≤ names.length) (hnd : names.Nodup)
    (h256 : codes.length < 256) (h : List Op) :
    ∃ s, addKeys init codes names = some s ∧
      (codes ≠ [] → ∃ outs, runBlock codes.length (after s h) = some outs ∧ outs.length = codes.length ∧
        ∀ i (hi : i < codes.length), outs[i]? = some (pressed codes[i] i h)) ∧
      (∀ i (hi : i < codes.length), (step (after s h) (.get names[i])).2 = pending codes[i] names[i] h) := by
  refine ⟨oneBlock codes names, addKeys_first codes names hl h256, ?_, ?_⟩
  · intro hne
    have hn : (after (oneBlock codes names) h).nofKeys = codes.length := after_nofKeys _ h
    have hlen : ∀ i, i < codes.length → i < (after (oneBlock codes names) h).keys.length := by
      intro i hi
      have := after_key codes names hl hnd h i hi
      exact (List.getElem?_eq_some_iff.1 this).1
    have hge : codes.length ≤ (after (oneBlock codes names) h).keys.length := by
      have hpos : 0 < codes.length := List.length_pos_iff.2 hne
      have := hlen (codes.length - 1) (by omega)
      omega
    by_cases h1 : codes.length = 1
    · have h0 := after_key codes names hl hnd h 0 (by omega)
      rw [← List.head?_eq_getElem?] at h0
      refine ⟨[pressed (codes[0]'(by omega)) 0 h], by simp [runBlock, h1, h0], by simp [h1], ?_⟩
      intro i hi
      have : i = 0 := by omega
      subst this; simp
    · refine ⟨((after (oneBlock codes names) h).keys.take codes.length).map Key.state, by simp [runBlock, h1, hn], ?_, ?_⟩
      · simp; omega
      · intro i hi
        rw [List.getElem?_map, List.getElem?_take_of_lt hi, after_key codes names hl hnd h i hi]
        rfl
  · intro i hi
    have hn : (after (oneBlock codes names) h).nofKeys = codes.length := after_nofKeys _ h
    have h1 : i < names.length := by omega
    have hf : find (after (oneBlock codes names) h).keys codes.length names[i] = some i := by
      apply find_unique _ _ _ _ hi
      · rw [after_key codes names hl hnd h i hi]; rfl
      · intro j hj hc
        rw [after_key codes names hl hnd h j hj] at hc
        exact (List.Nodup.getElem_inj_iff hnd).1 (by simpa using hc)
    simp only [step, hn, hf, after_key codes names hl hnd h i hi]
    rfl

/-- The list after two blocks were constructed. -/
theorem addKeys_second (codes1 codes2 : List Char) (names1 names2 : List String) (hl1 : codes1.length ≤ names1.length)
    (hl2 : codes2.length ≤ names2.length) (h1 : codes1.length < 256) (h2 : codes2.length < 256) :
    (addKeys init codes1 names1).bind (fun s => addKeys s codes2 names2) =
      some ⟨codes2.length, (oneBlock codes1 names1).keys ++ (oneBlock codes2 names2).keys⟩ := by
  rw [addKeys_first codes1 names1 hl1 h1]
  simp only [Option.bind_some, addKeys]
  rw [go_eq names2 codes2 0 _ (by omega) (by omega)]
  simp [oneBlock]

/-- **C86, violated.** With two blocks of the same number of keys, output `i` of either block shows the key of the first block:
immediately after both were constructed and a key of the first is pressed, the second block reports it as its own. -/
theorem second_block_shows_first (codes1 codes2 : List Char) (names1 names2 : List String) (hl1 : codes1.length ≤ names1.length)
    (hl2 : codes2.length ≤ names2.length) (h1 : codes1.length < 256) (he : codes1.length = codes2.length) (hne : codes1 ≠ [])
    (c : Char) :
    ∃ s, (addKeys init codes1 names1).bind (fun s => addKeys s codes2 names2) = some s ∧
      runBlock codes2.length (after s [.press c]) = some (codes1.map (fun d => decide (d = c))) := by
  refine ⟨_, addKeys_second codes1 codes2 names1 names2 hl1 hl2 h1 (by omega), ?_⟩
  have hk : ∀ i (hi : i < codes1.length),
      (after ⟨codes2.length, (oneBlock codes1 names1).keys ++ (oneBlock codes2 names2).keys⟩ [.press c]).keys[i]?.map Key.state =
        some (decide (codes1[i] = c)) := by
    intro i hi
    have hin : i < names1.length := by omega
    have hk0 : ((oneBlock codes1 names1).keys ++ (oneBlock codes2 names2).keys)[i]? = some ⟨names1[i], codes1[i], false, false⟩ := by
      rw [List.getElem?_append_left (by simp [oneBlock]; omega)]
      simp [oneBlock, List.getElem?_zip_eq_some, hi, hin]
    simp only [after, step_getElem?, hk0, Option.map_some]
    by_cases hc : c = codes1[i]
    · simp [hc, ← he, hi]
    · simp [hc, Ne.symm hc]
  have hn : (after ⟨codes2.length, (oneBlock codes1 names1).keys ++ (oneBlock codes2 names2).keys⟩ [.press c]).nofKeys = codes1.length := by
    rw [after_nofKeys, he]
  have hlen : (after ⟨codes2.length, (oneBlock codes1 names1).keys ++ (oneBlock codes2 names2).keys⟩ [.press c]).keys.length =
      codes1.length + codes2.length := by
    simp [after, step, oneBlock]; omega
  generalize hs : after ⟨codes2.length, (oneBlock codes1 names1).keys ++ (oneBlock codes2 names2).keys⟩ [.press c] = s at *
  have hpos : 0 < codes1.length := List.length_pos_iff.2 hne
  by_cases hone : codes2.length = 1
  · have h0 := hk 0 hpos
    have hc1 : codes1.length = 1 := by omega
    rw [← List.head?_eq_getElem?] at h0
    obtain ⟨k, hk1, hk2⟩ := Option.map_eq_some_iff.1 h0
    simp only [runBlock, hone, if_true, hk1, Option.map_some, hk2]
    obtain ⟨d, rfl⟩ := List.length_eq_one_iff.1 hc1
    simp
  · have hrb : runBlock codes2.length s = some ((s.keys.take codes1.length).map Key.state) := by
      simp [runBlock, hone, hn, he]
    rw [hrb]
    congr 1
    apply List.ext_getElem?
    intro i
    by_cases hi : i < codes1.length
    · rw [List.getElem?_map, List.getElem?_take_of_lt hi, hk i hi]
      simp [hi]
    · rw [List.getElem?_eq_none (by simp; omega), List.getElem?_eq_none (by simp; omega)]

/-- **C86, violated.** The inputs of the keys of the second block never deliver true, whatever is pressed (if it has no more keys
than the first, and other names). -/
theorem second_block_events_lost (codes1 codes2 : List Char) (names1 names2 : List String) (hl1 : codes1.length ≤ names1.length)
    (hl2 : codes2.length ≤ names2.length) (h1 : codes1.length < 256) (he : codes2.length ≤ codes1.length)
    (id : String) (hid : id ∉ names1) (h : List Op) :
    ∃ s, (addKeys init codes1 names1).bind (fun s => addKeys s codes2 names2) = some s ∧ (step (after s h) (.get id)).2 = false := by
  refine ⟨_, addKeys_second codes1 codes2 names1 names2 hl1 hl2 h1 (by omega), ?_⟩
  have hname : ∀ (h : List Op) (s : St) (i : Nat), (after s h).keys[i]?.map Key.name = s.keys[i]?.map Key.name := by
    intro h s i
    induction h with
    | nil => rfl
    | cons op h ih =>
      rw [← ih]
      simp only [after, step_getElem?, Option.map_map]
      congr 1
      funext k
      cases op with
      | press c => simp only [Function.comp]; split <;> rfl
      | reset i => simp only [Function.comp]; split <;> rfl
      | get id => simp only [Function.comp]; split <;> rfl
  simp only [step, after_nofKeys]
  have hf : find (after ⟨codes2.length, (oneBlock codes1 names1).keys ++ (oneBlock codes2 names2).keys⟩ h).keys codes2.length id = none := by
    unfold find
    rw [List.find?_eq_none]
    intro i hi
    have hi : i < codes2.length := by simpa using hi
    have hin : i < names1.length := by omega
    rw [hname]
    have hk0 : ((oneBlock codes1 names1).keys ++ (oneBlock codes2 names2).keys)[i]? =
        some ⟨names1[i], codes1[i]'(by omega), false, false⟩ := by
      rw [List.getElem?_append_left (by simp [oneBlock]; omega)]
      have : i < codes1.length := by omega
      simp [oneBlock, List.getElem?_zip_eq_some, this, hin]
    simp only [hk0, Option.map_some, decide_eq_true_eq, Option.some.injEq]
    intro hc
    exact hid (hc ▸ List.getElem_mem hin)
  rw [hf]

/-- Non-vacuity: two keys; `a` is pressed, read, reset, `b` is pressed. -/
example :
    let h : List Op := [.press 'b', .reset 0, .get "A", .press 'a']
    ∃ s, addKeys init ['a', 'b'] ["A", "B"] = some s ∧ runBlock 2 (after s h) = some [false, true] ∧
      (step (after s h) (.get "A")).2 = false ∧ (step (after s h) (.get "B")).2 = true := by
  exact ⟨_, rfl, by decide, by decide, by decide⟩

/-- Non-vacuity of the violation: the block for `b` reports `a`, and its input stays false when `b` is pressed. -/
example :
    ∃ s, (addKeys init ['a'] ["A"]).bind (fun s => addKeys s ['b'] ["B"]) = some s ∧
      runBlock 1 (after s [.press 'a']) = some [true] ∧ runBlock 1 (after s [.press 'b']) = some [false] ∧
      (step (after s [.press 'b']) (.get "B")).2 = false := by
  exact ⟨_, rfl, by decide, by decide, by decide⟩

/-- Case of `one_block_partial`. -/
example := one_block_partial ['a', 'b'] ["A", "B"] (by decide) (by decide) (by decide)

end Verif.Hal.Keyboard
