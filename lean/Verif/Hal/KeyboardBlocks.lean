/-
C295: any number of keyboard blocks in one program: what every block shows (exact rule behind the partial claim C86).
No new model; the definitions are those of `Keyboard.lean`.
-/
import Verif.Hal.KeyboardProps

namespace Verif.Hal.Keyboard

/-- The constructors of several blocks, one after the other: codes and names of the keys of each. -/
def construct (bs : List (List Char × List String)) : Option St := bs.foldlM (fun s b => addKeys s b.1 b.2) init

/-- Specification: the codes of the keys of all blocks, in the order of the constructions. -/
def allCodes (bs : List (List Char × List String)) : List Char := bs.flatMap Prod.fst

theorem addKeys_any (s : St) (codes : List Char) (names : List String) (hl : codes.length ≤ names.length) (h : codes.length < 256) :
    addKeys s codes names = some ⟨codes.length, s.keys ++ (codes.zip names).map fun p => ⟨p.2, p.1, false, false⟩⟩ := by
  unfold addKeys
  rw [go_eq names codes 0 _ (by omega) (by omega)]
  simp

theorem zip_codes (codes : List Char) (names : List String) (hl : codes.length ≤ names.length) :
    ((codes.zip names).map fun p => (⟨p.2, p.1, false, false⟩ : Key)).map Key.code = codes := by
  rw [List.map_map]
  show (codes.zip names).map (fun p => p.1) = codes
  exact List.map_fst_zip hl

theorem construct_spec (bs : List (List Char × List String)) (b : List Char × List String)
    (hv : ∀ x ∈ bs ++ [b], x.1.length ≤ x.2.length ∧ x.1.length < 256) :
    ∃ s, construct (bs ++ [b]) = some s ∧ s.nofKeys = b.1.length ∧ s.keys.map Key.code = allCodes (bs ++ [b]) ∧ ∀ k ∈ s.keys, k.state = false ∧ k.event = false := by
  have key : ∀ (bs : List (List Char × List String)), (∀ x ∈ bs, x.1.length ≤ x.2.length ∧ x.1.length < 256) → ∀ s0 : St, (∀ k ∈ s0.keys, k.state = false ∧ k.event = false) →
      ∃ s, bs.foldlM (fun s b => addKeys s b.1 b.2) s0 = some s ∧ s.keys.map Key.code = s0.keys.map Key.code ++ allCodes bs ∧ ∀ k ∈ s.keys, k.state = false ∧ k.event = false := by
    intro bs
    induction bs with
    | nil => intro _ s0 h0; exact ⟨s0, rfl, by simp [allCodes], h0⟩
    | cons b bs ih =>
      intro hv s0 h0
      obtain ⟨hb1, hb2⟩ := hv b (by simp)
      have hk : ∀ k ∈ s0.keys ++ (b.1.zip b.2).map (fun p => (⟨p.2, p.1, false, false⟩ : Key)), k.state = false ∧ k.event = false := by
        intro k hk
        rcases List.mem_append.1 hk with h | h
        · exact h0 k h
        · obtain ⟨p, -, rfl⟩ := List.mem_map.1 h
          exact ⟨rfl, rfl⟩
      obtain ⟨s, h1, h2, h3⟩ := ih (fun x hx => hv x (by simp [hx])) ⟨b.1.length, _⟩ hk
      refine ⟨s, ?_, ?_, h3⟩
      · rw [List.foldlM_cons, addKeys_any s0 b.1 b.2 hb1 hb2]
        exact h1
      · rw [h2, List.map_append, zip_codes b.1 b.2 hb1]
        simp [allCodes]
  obtain ⟨s, h1, h2, h3⟩ := key bs (fun x hx => hv x (by simp [hx])) init (by simp [init])
  obtain ⟨hb1, hb2⟩ := hv b (by simp)
  refine ⟨⟨b.1.length, s.keys ++ (b.1.zip b.2).map fun p => ⟨p.2, p.1, false, false⟩⟩, ?_, rfl, ?_, ?_⟩
  · rw [construct, List.foldlM_append, h1]
    simp [addKeys_any s b.1 b.2 hb1 hb2]
  · rw [List.map_append, h2, zip_codes b.1 b.2 hb1]
    simp [allCodes, init]
  · intro k hk
    rcases List.mem_append.1 hk with h | h
    · exact h3 k h
    · obtain ⟨p, -, rfl⟩ := List.mem_map.1 h
      exact ⟨rfl, rfl⟩

/-- The state of a key after any history: those beyond the number of keys of the last block never change. -/
theorem state_after (s : St) (hs : ∀ k ∈ s.keys, k.state = false ∧ k.event = false) (h : List Op) (j : Nat) :
    (after s h).keys[j]?.map (fun k => (k.code, k.state)) = s.keys[j]?.map fun k => (k.code, decide (j < s.nofKeys) && pressed k.code j h) := by
  induction h with
  | nil =>
    cases hk : s.keys[j]? with
    | none => simp [after, hk]
    | some k => simp [after, hk, pressed, (hs k (List.mem_of_getElem? hk)).1]
  | cons op h ih =>
    simp only [after, step_getElem?, after_nofKeys, Option.map_map]
    cases hk : s.keys[j]? with
    | none =>
      rw [hk, Option.map_none, Option.map_eq_none_iff] at ih
      simp [ih]
    | some k =>
      rw [hk, Option.map_some, Option.map_eq_some_iff] at ih
      obtain ⟨k', hk', he⟩ := ih
      simp only [Prod.mk.injEq] at he
      obtain ⟨e1, e2⟩ := he
      rw [hk']
      simp only [Option.map_some, Option.some.injEq, Function.comp_apply]
      cases op with
      | press c =>
        by_cases hj : j < s.nofKeys
        · by_cases hc : c = k.code
          · simp [hj, hc, e1, pressed]
          · simp [hj, hc, e1, e2, pressed]
        · simp [hj, e1, e2]
      | reset i =>
        by_cases hj : j < s.nofKeys
        · by_cases hi : j = i
          · subst hi; simp [hj, e1, pressed]
          · simp [hi, Ne.symm hi, hj, e1, e2, pressed]
        · by_cases hi : j = i
          · subst hi; simp [hj, e1, e2]
          · simp [hi, hj, e1, e2]
      | get id =>
        by_cases hf : find (after s h).keys s.nofKeys id = some j
        · simp [hf, e1, e2, pressed]
        · simp [hf, e1, e2, pressed]

/-- **C295** Any number of blocks, any history of key strokes, resets and reads.  A block with more than one key (or none) shows the keys of the *first* blocks, as many as the *last* block has; it writes beyond
its outputs exactly if the last block has more keys than it.  A block with one key shows the first key of the first block. -/
theorem blocks_exact (bs : List (List Char × List String)) (b : List Char × List String)
    (hv : ∀ x ∈ bs ++ [b], x.1.length ≤ x.2.length ∧ x.1.length < 256) (h : List Op) :
    ∃ s, construct (bs ++ [b]) = some s ∧
      (∀ N, N ≠ 1 → runBlock N (after s h) = if N < b.1.length then none else some (((allCodes (bs ++ [b])).take b.1.length).mapIdx fun j c => pressed c j h)) ∧
      runBlock 1 (after s h) = (allCodes (bs ++ [b])).head?.map fun c => [decide (0 < b.1.length) && pressed c 0 h] := by
  obtain ⟨s, h1, h2, h3, h4⟩ := construct_spec bs b hv
  have hst := state_after s h4 h
  have hcode : ∀ j : Nat, (allCodes (bs ++ [b]))[j]? = s.keys[j]?.map Key.code := by intro j; rw [← h3, List.getElem?_map]
  have hstate : ∀ j : Nat, (after s h).keys[j]?.map Key.state = (allCodes (bs ++ [b]))[j]?.map fun c => decide (j < b.1.length) && pressed c j h := by
    intro j
    have := congrArg (Option.map Prod.snd) (hst j)
    rw [Option.map_map, Option.map_map] at this
    rw [hcode j, Option.map_map, ← h2]
    exact this
  refine ⟨s, h1, fun N hN => ?_, ?_⟩
  · have hn : (after s h).nofKeys = b.1.length := by rw [after_nofKeys, h2]
    rw [runBlock, if_neg hN, hn]
    by_cases hlt : N < b.1.length
    · rw [if_pos hlt, if_pos hlt]
    · rw [if_neg (by omega), if_neg hlt]
      congr 1
      apply List.ext_getElem?
      intro j
      rw [List.getElem?_map, List.getElem?_mapIdx]
      by_cases hj : j < b.1.length
      · rw [List.getElem?_take_of_lt hj, List.getElem?_take_of_lt hj, hstate j]
        simp [hj]
      · rw [List.getElem?_eq_none (by simp; omega), List.getElem?_eq_none (by simp; omega)]
        rfl
  · rw [runBlock, if_pos rfl, List.head?_eq_getElem?, List.head?_eq_getElem?]
    have := congrArg (Option.map fun x => [x]) (hstate 0)
    rw [Option.map_map, Option.map_map] at this
    exact this

/-- Three blocks with one, two and two keys: the second and the third one show the keys of the first and the second block. -/
example : ∃ s, construct [(['a'], ["A"]), (['b', 'c'], ["B", "C"]), (['d', 'e'], ["D", "E"])] = some s ∧
    runBlock 2 (after s [.press 'b', .press 'e']) = some [false, true] := by
  obtain ⟨s, h1, h2, -⟩ := blocks_exact [(['a'], ["A"]), (['b', 'c'], ["B", "C"])] (['d', 'e'], ["D", "E"]) (by decide) [.press 'b', .press 'e']
  exact ⟨s, h1, by rw [h2 2 (by decide)]; decide⟩

/-- **C295** A block shows its own keys in every history exactly if its keys are the first ones of all, as many as the last block has (so only the first block can be right, and only if the last one has as many keys or the keys are the same). -/
theorem own_keys_iff (bs : List (List Char × List String)) (b : List Char × List String)
    (hv : ∀ x ∈ bs ++ [b], x.1.length ≤ x.2.length ∧ x.1.length < 256) (codes : List Char) (hc : codes.length ≠ 1) :
    (∀ h, ∃ s, construct (bs ++ [b]) = some s ∧ runBlock codes.length (after s h) = some (codes.mapIdx fun j c => pressed c j h)) ↔
      codes = (allCodes (bs ++ [b])).take b.1.length := by
  constructor
  · intro hall
    obtain ⟨s, h1, h2⟩ := hall []
    obtain ⟨s', h1', h3, -⟩ := blocks_exact bs b hv []
    rw [h1] at h1'; cases h1'
    rw [h3 _ hc] at h2
    by_cases hlt : codes.length < b.1.length
    · rw [if_pos hlt] at h2; cases h2
    · rw [if_neg hlt] at h2
      have hlen := congrArg List.length (Option.some.inj h2)
      simp only [List.length_mapIdx] at hlen
      apply List.ext_getElem hlen.symm
      intro j hj1 hj2
      by_contra hne
      obtain ⟨s, h1, h2⟩ := hall [.press codes[j]]
      obtain ⟨s', h1', h3, -⟩ := blocks_exact bs b hv [.press codes[j]]
      rw [h1] at h1'; cases h1'
      rw [h3 _ hc, if_neg hlt] at h2
      have := congrArg (fun l => l[j]?) (Option.some.inj h2)
      simp only [List.getElem?_mapIdx, List.getElem?_eq_getElem hj1, List.getElem?_eq_getElem hj2, Option.map_some, Option.some.injEq] at this
      simp [pressed] at this
      exact hne (by rw [List.getElem_take]; exact this)
  · intro e h
    obtain ⟨s, h1, h2, -⟩ := blocks_exact bs b hv h
    have hlen : b.1.length ≤ (allCodes (bs ++ [b])).length := by simp [allCodes]
    refine ⟨s, h1, ?_⟩
    have hl : codes.length = b.1.length := by rw [e, List.length_take]; omega
    rw [h2 _ hc, if_neg (by omega), ← e]

example : ¬ ∀ h, ∃ s, construct ([(['b', 'c'], ["B", "C"])] ++ [(['d', 'e'], ["D", "E"])]) = some s ∧ runBlock 2 (after s h) = some (['d', 'e'].mapIdx fun j c => pressed c j h) := by
  have := own_keys_iff [(['b', 'c'], ["B", "C"])] (['d', 'e'], ["D", "E"]) (by decide) ['d', 'e'] (by decide)
  rw [show (2 : Nat) = ['d', 'e'].length from rfl, this]
  decide

end Verif.Hal.Keyboard
