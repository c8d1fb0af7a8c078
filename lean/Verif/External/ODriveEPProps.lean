import Verif.External.ODriveEP
import Mathlib.Tactic.Ring
import Mathlib.Tactic.Linarith
import Mathlib.Tactic.NormNum
/-!
Theorems on the USB protocol of the ODrive library (C131-C134).
-/
namespace Verif.External.ODriveEP

/-! ### C131: packets and sequence numbers -/

/-- Specification: the number in a field of bytes, low byte first. -/
def le : List Nat → Nat
  | [] => 0
  | b :: bs => b + 256 * le bs

theorem byte_lt (v : Int) (k : Nat) : byte v k < 256 := by
  unfold byte
  have h1 := Int.emod_nonneg (v / 256 ^ k) (b := 256) (by norm_num)
  have h2 := Int.emod_lt_of_pos (v / 256 ^ k) (b := 256) (by norm_num)
  omega

theorem le_short (v : Int) : (le [byte (toShort v) 0, byte (toShort v) 1] : Int) = v % 2 ^ 16 := by
  simp only [le, byte, toShort]
  norm_num
  omega

theorem le_int (v : Int) : (le [byte v 0, byte v 1, byte v 2, byte v 3] : Int) = v % 2 ^ 32 := by
  simp only [le, byte]
  norm_num
  omega

/-- C131: what a drive reads in the packet of a request: sequence number, endpoint with the acknowledge bit 2^15, size of the answer, address (only if it is a
read with an address), the data, and the check value, 1 for endpoint 0 and 0x9b40 else; nothing else is in the packet, and all bytes are bytes. -/
theorem packet_fields (e : Ep) (id : Nat) (hid : id < 2 ^ 15) (data : List Nat) (hd : ∀ b ∈ data, b < 256) (ack read : Bool)
    (length : Int) (hl : 0 ≤ length ∧ length < 2 ^ 15) (address : Int) (ha : 0 ≤ address ∧ address < 2 ^ 31) :
    ∃ fseq fid flen fadr fcrc : List Nat, sends e id data ack length read address = fseq ++ fid ++ flen ++ fadr ++ data ++ fcrc ∧
      fseq.length = 2 ∧ le fseq = nextSeq e.seq ∧
      fid.length = 2 ∧ le fid = id + (if ack then 2 ^ 15 else 0) ∧
      flen.length = 2 ∧ (le flen : Int) = length ∧
      fadr.length = (if read then 4 else 0) ∧ (read = true → (le fadr : Int) = address) ∧
      fcrc.length = 2 ∧ le fcrc = (if id = 0 then 1 else 0x9b40) ∧
      ∀ b ∈ sends e id data ack length read address, b < 256 := by
  have hseq : nextSeq e.seq < 2 ^ 15 := by
    unfold nextSeq
    exact Nat.or_lt_two_pow (Nat.mod_lt _ (by norm_num)) (by norm_num)
  have hor : id ||| 0x8000 = id + 2 ^ 15 := by
    have := Nat.two_pow_add_eq_or_of_lt hid 1
    rw [Nat.or_comm]; simp only [Nat.mul_one] at this; norm_num at this ⊢; omega
  have hack : (ackId id ack) = ((id + (if ack then 2 ^ 15 else 0) : Nat) : Int) := by
    unfold ackId; cases ack <;> simp [hor]
  refine ⟨[byte (toShort (nextSeq e.seq)) 0, byte (toShort (nextSeq e.seq)) 1],
    [byte (toShort (ackId id ack)) 0, byte (toShort (ackId id ack)) 1],
    [byte (toShort length) 0, byte (toShort length) 1],
    if read then [byte address 0, byte address 1, byte address 2, byte address 3] else [],
    [byte (toShort (if ackId id ack % 2 ^ 15 = 0 then 1 else 0x9b40)) 0, byte (toShort (if ackId id ack % 2 ^ 15 = 0 then 1 else 0x9b40)) 1],
    ?_, rfl, ?_, rfl, ?_, rfl, ?_, ?_, ?_, rfl, ?_, ?_⟩
  · cases read <;> simp [sends, packet, appendShort, appendInt]
  · have := le_short (nextSeq e.seq)
    omega
  · have := le_short (ackId id ack)
    rw [hack] at this ⊢
    cases ack <;> simp_all <;> omega
  · have := le_short length
    omega
  · cases read <;> rfl
  · intro hr
    subst hr
    have := le_int address
    simp only [if_true]
    omega
  · have h1 : (ackId id ack % 2 ^ 15 = 0) ↔ id = 0 := by
      rw [hack]; cases ack <;> simp <;> omega
    have := le_short (if ackId id ack % 2 ^ 15 = 0 then 1 else 0x9b40)
    by_cases h0 : id = 0
    · rw [if_pos (h1.2 h0)] at this ⊢
      rw [if_pos h0]; omega
    · rw [if_neg (fun h => h0 (h1.1 h))] at this ⊢
      rw [if_neg h0]; omega
  · intro b hb
    have h8 : ∀ v k, b = byte v k → b < 256 := fun v k h => h ▸ byte_lt v k
    cases read <;> simp [sends, packet, appendShort, appendInt] at hb
    · rcases hb with h | h | h | h | h | h | h | h | h <;> first | exact hd _ h | exact h8 _ _ h
    · rcases hb with h | h | h | h | h | h | h | h | h | h | h | h | h <;> first | exact hd _ h | exact h8 _ _ h

example : sends { seq := 0x80 } 5 [1, 2] true 4 false 0 = [0x81, 0, 5, 0x80, 4, 0, 1, 2, 0x40, 0x9b] := by decide +kernel

theorem or_128 (x : Nat) : x ||| 128 = x / 256 * 256 + 128 + x % 128 := by
  have h1 : (x ||| 128) / 256 = x / 256 := by
    have := Nat.or_div_two_pow (a := x) (b := 128) (n := 8)
    simpa using this
  have h2 : (x ||| 128) % 256 = 128 + x % 128 := by
    have := Nat.or_mod_two_pow (a := x) (b := 128) (n := 8)
    norm_num at this
    rw [this]
    have h : ∀ y < 256, y ||| 128 = 128 + y % 128 := by decide +kernel
    rw [h _ (Nat.mod_lt _ (by norm_num))]
    omega
  omega

/-- The sequence number after `n` requests. -/
def seqAfter : Nat → Nat
  | 0 => 0
  | n + 1 => nextSeq (seqAfter n)

/-- C131: the closed form of the sequence numbers; bit 7 is always set. -/
theorem seq_closed (n : Nat) (hn : 0 < n) : seqAfter n = n / 128 % 128 * 256 + 128 + n % 128 := by
  induction n with
  | zero => omega
  | succ n ih =>
    rw [seqAfter, nextSeq, or_128]
    by_cases h : n = 0
    · subst h; decide
    · rw [ih (by omega)]; omega

/-- C131: two requests of one object have the same sequence number exactly if their distance is a multiple of 16384. -/
theorem seq_repeats_iff (i j : Nat) (hi : 0 < i) (hj : 0 < j) : seqAfter i = seqAfter j ↔ i % 16384 = j % 16384 := by
  rw [seq_closed i hi, seq_closed j hj]
  omega

example : seqAfter 127 = 0xFF ∧ seqAfter 128 = 0x180 ∧ seqAfter 1 = seqAfter 16385 := by
  refine ⟨by decide +kernel, by decide +kernel, (seq_repeats_iff _ _ (by decide) (by decide)).2 (by decide)⟩

/-- C131: every request, however it ends, uses the next number and leaves the mutex free. -/
theorem request_unlocks (e : Ep) (u : Usb) (ack : Bool) (code : Int) (p : Option (List Nat)) (e' : Ep) (h : request e u ack = .ret code p e') :
    e'.seq = nextSeq e.seq ∧ e'.locked = false := by
  unfold request at h
  by_cases h1 : u.sent ≠ 0
  · rw [if_pos h1] at h; cases h; exact ⟨rfl, rfl⟩
  · rw [if_neg h1] at h
    cases ack
    · cases h; exact ⟨rfl, rfl⟩
    · by_cases h2 : u.got ≠ 0
      · rw [if_pos rfl, if_pos h2] at h; cases h; exact ⟨rfl, rfl⟩
      · rw [if_pos rfl, if_neg h2] at h
        cases hd : decode u.bytes with
        | none => rw [hd] at h; cases h
        | some x => rw [hd] at h; cases h; exact ⟨rfl, rfl⟩

example : request {} ⟨0, -7, []⟩ true = .ret (-7) none ⟨0x81, false⟩ := by decide

/-! ### C132: answers -/

/-- Specification: the answer of a drive to the request with number `seq`. -/
def reply (seq : Nat) (value : List Nat) : List Nat := [seq % 256, seq / 256 + 128] ++ value

/-- C132: if both transfers succeed and the answer is that of the drive to this request, `getData` succeeds and gives the value of the drive. -/
theorem get_partial (e : Ep) (value old : List Nat) (hlen : value.length = old.length) :
    getData e ⟨0, 0, reply (nextSeq e.seq) value⟩ old = .ret 0 value { seq := nextSeq e.seq, locked := false } := by
  simp only [getData, request, reply, decode, List.cons_append, List.nil_append, ne_eq, not_true_eq_false, if_false, if_true,
    Option.getD_some, hlen, lt_self_iff_false]
  by_cases h : old.length > 0
  · rw [if_pos h, List.take_of_length_le (by omega)]
  · rw [if_neg h]
    have h1 : old = [] := List.length_eq_zero_iff.1 (by omega)
    have h2 : value = [] := List.length_eq_zero_iff.1 (by rw [hlen]; omega)
    rw [h1, h2]

example : getData {} ⟨0, 0, reply 0x81 [1, 2, 3, 4]⟩ [0, 0, 0, 0] = .ret 0 [1, 2, 3, 4] ⟨0x81, false⟩ := by decide

/-- C132: a failed transfer is reported and leaves the variable alone. -/
theorem get_failed (e : Ep) (u : Usb) (old : List Nat) (h : u.sent ≠ 0 ∨ u.got ≠ 0) :
    ∃ code e', getData e u old = .ret code old e' ∧ code ≠ 0 := by
  unfold getData request
  by_cases h1 : u.sent ≠ 0
  · simp only [if_pos h1]; exact ⟨_, _, rfl, h1⟩
  · have h2 : u.got ≠ 0 := by tauto
    simp only [if_neg h1, if_pos h2, if_true]; exact ⟨_, _, rfl, h2⟩

example : getData {} ⟨0, -7, []⟩ [9, 9] = .ret (-7) [9, 9] ⟨0x81, false⟩ := by decide

/-- C132: `getData` has defined behaviour exactly if a transfer fails or the answer has a header and either no data or at least as many bytes as the variable. -/
theorem get_defined_iff (e : Ep) (u : Usb) (old : List Nat) :
    getData e u old ≠ .undefined ↔ u.sent ≠ 0 ∨ u.got ≠ 0 ∨ u.bytes.length = 2 ∨ 2 + max 1 old.length ≤ u.bytes.length := by
  by_cases hf : u.sent ≠ 0 ∨ u.got ≠ 0
  · obtain ⟨c, e', h, _⟩ := get_failed e u old hf
    rw [h]; simp; tauto
  · push Not at hf
    unfold getData request
    simp only [hf.1, hf.2, ne_eq, not_true_eq_false, if_false, if_true, false_or]
    match u.bytes with
    | [] => simp [decode]
    | [_] => simp [decode]; omega
    | b0 :: b1 :: rest =>
      simp only [decode, Option.getD_some, List.length_cons, not_true_eq_false, if_false]
      by_cases h0 : rest.length > 0
      · rw [if_pos h0]
        by_cases h1 : rest.length < old.length
        · rw [if_pos h1]; simp only [not_true_eq_false, false_iff]; omega
        · rw [if_neg h1]; simp only [reduceCtorEq, not_false_eq_true, true_iff]; omega
      · rw [if_neg h0]; simp only [reduceCtorEq, not_false_eq_true, true_iff]; omega

example : getData {} ⟨0, 0, [0x81, 0x80, 7]⟩ [0, 0, 0, 0] = .undefined := by decide

/-- C132 violated: an answer without data counts as success and the variable keeps what it had. -/
theorem empty_answer_violated (e : Ep) (b0 b1 : Nat) (old : List Nat) : ∃ e', getData e ⟨0, 0, [b0, b1]⟩ old = .ret 0 old e' := ⟨_, rfl⟩

/-- C132 violated: the sequence number of the answer has no influence: the answer to any other request is taken. -/
theorem other_answer_violated (e : Ep) (b0 b1 c0 c1 : Nat) (rest old : List Nat) :
    getData e ⟨0, 0, b0 :: b1 :: rest⟩ old = getData e ⟨0, 0, c0 :: c1 :: rest⟩ old := rfl

/-- What a caller sees of a call: the return value and the variable; `none`: undefined. -/
def seen : Get → Option (Int × List Nat)
  | .undefined => none
  | .ret code value _ => some (code, value)

theorem reads_shifted (n : Nat) (later : List (Nat × List Nat)) : ∀ (e : Ep) (a : Nat × List Nat), a.2.length = n → (∀ x ∈ later, x.2.length = n) →
    (reads n e [reply a.1 a.2] (later.map fun x => [reply x.1 x.2])).map seen = (a :: later).dropLast.map fun x => some (0, x.2) := by
  induction later with
  | nil => intro e a _ _; rfl
  | cons y ys ih =>
    intro e a ha hl
    have h : getData e ⟨0, 0, reply a.1 a.2⟩ (List.replicate n 0) = .ret 0 a.2 { seq := nextSeq e.seq, locked := false } :=
      get_partial e a.2 (List.replicate n 0) (by simpa using ha)
    simp only [List.map_cons, reads, transfer, List.cons_append, List.nil_append, h, seen, List.dropLast_cons_cons]
    rw [ih _ y (hl y (by simp)) (fun x hx => hl x (by simp [hx]))]

/-- C132 violated: one answer which is late by more than the time limit shifts all later values: after it, every read succeeds and returns the value
of the read before, for any number of reads. -/
theorem late_answer_violated (n : Nat) (e : Ep) (first second : Nat × List Nat) (later : List (Nat × List Nat))
    (hl : ∀ x ∈ first :: second :: later, x.2.length = n) :
    (reads n e [] ([] :: [reply first.1 first.2, reply second.1 second.2] :: later.map fun x => [reply x.1 x.2])).map seen =
      some (-7, List.replicate n 0) :: (first :: second :: later).dropLast.map fun x => some (0, x.2) := by
  have h : ∀ e, getData e ⟨0, 0, reply first.1 first.2⟩ (List.replicate n 0) = .ret 0 first.2 { seq := nextSeq e.seq, locked := false } :=
    fun e => get_partial e first.2 (List.replicate n 0) (by simpa using hl first (by simp))
  have hf : ∀ e : Ep, getData e ⟨0, -7, []⟩ (List.replicate n 0) = .ret (-7) (List.replicate n 0) { seq := nextSeq e.seq, locked := false } := fun _ => rfl
  simp only [reads, transfer, List.nil_append, hf, h, List.map_cons, seen, List.dropLast_cons_cons]
  rw [reads_shifted n later _ second (hl second (by simp)) (fun x hx => hl x (by simp [hx]))]

example : (reads 1 {} [] [[], [reply 0x81 [7], reply 0x82 [8]], [reply 0x83 [9]]]).map seen = [some (-7, [0]), some (0, [7]), some (0, [8])] := by decide +kernel

/-! ### C133: the download of the description -/

theorem download_true (answer : Nat → List Nat) (s : Js) (rest : List Bool) :
    download answer s (true :: rest) = if (answer s.address).length = 0 then .text (s.str ++ answer s.address) else
      download answer { len := some (answer s.address).length, rx := answer s.address, address := s.address + (answer s.address).length,
                        str := s.str ++ answer s.address } rest := by
  simp [download, pass]

theorem download_false (answer : Nat → List Nat) (s : Js) (l : Nat) (hl : s.len = some l) (h0 : 0 < l) (rest : List Bool) :
    download answer s (false :: rest) = download answer { s with address := s.address + l, str := s.str ++ s.rx.take l } rest := by
  have h : ¬ l = 0 := by omega
  simp [download, pass, hl, h]

theorem serve_length (doc : List Nat) (c a : Nat) : (serve doc c a).length = min c (doc.length - a) := by simp [serve]

theorem serve_drop (doc : List Nat) (c a : Nat) : serve doc c a ++ doc.drop (a + (serve doc c a).length) = doc.drop a := by
  rw [serve_length, ← List.drop_drop, serve]
  by_cases h : c ≤ doc.length - a
  · rw [min_eq_left h, List.take_append_drop]
  · have h1 : (doc.drop a).length ≤ c := by simp; omega
    rw [min_eq_right (by omega), List.take_of_length_le h1, List.drop_eq_nil_of_le (as := doc.drop a) (by simp), List.append_nil]

theorem download_from (doc : List Nat) (c : Nat) (hc : 0 < c) (k : Nat) : ∀ (s : Js), doc.length ≤ s.address + c * k →
    download (serve doc c) s (List.replicate (k + 1) true) = .text (s.str ++ doc.drop s.address) := by
  induction k with
  | zero =>
    intro s h
    have h0 : serve doc c s.address = [] := by simp [serve]; omega
    have h1 : doc.drop s.address = [] := by simp; omega
    simp [download_true, h0, h1]
  | succ k ih =>
    intro s h
    rw [List.replicate_succ, download_true]
    by_cases h0 : (serve doc c s.address).length = 0
    · have h1 := serve_drop doc c s.address
      rw [if_pos h0]
      rw [List.length_eq_zero_iff.1 h0] at h1 ⊢
      simp only [serve_length] at h0
      have h2 : doc.drop s.address = [] := by simp; omega
      rw [h2]
    · rw [if_neg h0, ih, List.append_assoc, serve_drop]
      simp only [serve_length] at h0 ⊢
      rw [Nat.mul_succ] at h
      omega

/-- C133: if no request fails, the download ends with exactly the description of the drive, for every description and every size of the answers. -/
theorem download_partial (doc : List Nat) (c : Nat) (hc : 0 < c) (k : Nat) (hk : doc.length ≤ c * k) :
    download (serve doc c) {} (List.replicate (k + 1) true) = .text doc := by
  simpa using download_from doc c hc k {} (by simpa using hk)

example : download (serve [1, 2, 3, 4, 5] 2) {} [true, true, true, true] = .text [1, 2, 3, 4, 5] := by decide

theorem download_prefix (answer : Nat → List Nat) (oks : List Bool) : ∀ (s : Js) (t : List Nat), download answer s oks = .text t → s.str <+: t := by
  induction oks with
  | nil => intro s t h; simp [download] at h
  | cons ok rest ih =>
    intro s t h
    simp only [download] at h
    split at h
    · simp at h
    · rename_i s1 h1
      have hs : s.str <+: s1.str := by
        unfold pass at h1
        simp only at h1
        split at h1
        · simp at h1
        · simp only [Option.some.injEq] at h1
          subst h1
          cases ok <;> simp
      split at h
      · simp only [Loop.text.injEq] at h
        rw [← h]; exact hs
      · exact hs.trans (ih _ _ h)

theorem download_append (answer : Nat → List Nat) (oks more : List Bool) : ∀ (s : Js) (t : List Nat), download answer s oks = .text t →
    download answer s (oks ++ more) = .text t := by
  induction oks with
  | nil => intro s t h; simp [download] at h
  | cons ok rest ih =>
    intro s t h
    simp only [List.cons_append, download] at h ⊢
    split at h
    · simp at h
    · split at h
      · rename_i h2; simp only [h2, if_true]; exact h
      · rename_i h2; simp only [h2, if_false]; exact ih _ _ h

theorem good_from (doc : List Nat) (c : Nat) (hc : 0 < c)
    (hd : ∀ j, c * (j + 1) < doc.length → serve doc c (c * j) ≠ serve doc c (c * (j + 1))) (oks : List Bool) :
    ∀ (j : Nat), c * j < doc.length →
    download (serve doc c) { len := some (serve doc c (c * j)).length, rx := serve doc c (c * j), address := c * j + (serve doc c (c * j)).length, str := doc.take (c * (j + 1)) } oks = .text doc →
    ∃ n, doc.length ≤ c * (j + 1) + c * n ∧ List.replicate (n + 1) true <+: oks := by
  induction oks with
  | nil => intro j _ h; simp [download] at h
  | cons ok rest ih =>
    intro j hj h
    have hl : (serve doc c (c * j)).length = min c (doc.length - c * j) := serve_length doc c (c * j)
    have hm : c * (j + 1) = c * j + c := by ring
    cases ok with
    | true =>
      by_cases he : doc.length ≤ c * (j + 1)
      · exact ⟨0, by omega, by simp⟩
      · have hl' : (serve doc c (c * j)).length = c := by omega
        have ha : c * j + (serve doc c (c * j)).length = c * (j + 1) := by omega
        rw [download_true] at h
        simp only [ha] at h
        have hl2 : (serve doc c (c * (j + 1))).length = min c (doc.length - c * (j + 1)) := serve_length doc c (c * (j + 1))
        rw [if_neg (by omega)] at h
        have hs : doc.take (c * (j + 1)) ++ serve doc c (c * (j + 1)) = doc.take (c * (j + 1 + 1)) := by
          have : c * (j + 1 + 1) = c * (j + 1) + c := by ring
          rw [this, List.take_add]; rfl
        rw [hs] at h
        obtain ⟨n, h1, h2⟩ := ih (j + 1) (by omega) h
        refine ⟨n + 1, ?_, ?_⟩
        · have e1 : c * (j + 1 + 1) = c * (j + 1) + c := by ring
          have e2 : c * (n + 1) = c * n + c := by ring
          omega
        · rw [List.replicate_succ]
          exact (List.cons_prefix_cons).2 ⟨rfl, h2⟩
    | false =>
      exfalso
      rw [download_false _ _ _ rfl (by omega)] at h
      have hp := download_prefix _ _ _ _ h
      simp only [List.take_length] at hp
      have hlen := hp.length_le
      simp only [List.length_append, List.length_take] at hlen
      have hfull : c * (j + 1) + c ≤ doc.length := by omega
      have hl' : (serve doc c (c * j)).length = c := by omega
      refine hd j (by omega) ?_
      obtain ⟨x, hx⟩ := hp
      have h1 : doc.drop (c * (j + 1)) = serve doc c (c * j) ++ x := by
        conv_lhs => rw [← hx]
        rw [List.append_assoc, List.drop_append, List.length_take, List.drop_of_length_le (by rw [List.length_take]; omega)]
        have : c * (j + 1) - min (c * (j + 1)) doc.length = 0 := by omega
        rw [this]; simp
      show _ = (doc.drop (c * (j + 1))).take c
      rw [h1, List.take_append_of_le_length (by omega), List.take_of_length_le (by omega)]

/-- C133, the exact rule: for a description of which no two neighbouring parts are equal, the text which the download ends with is the description if and
only if every request up to the end gets through: one failure anywhere spoils the text. -/
theorem download_exact_iff (doc : List Nat) (c : Nat) (hc : 0 < c) (hne : doc ≠ [])
    (hd : ∀ j, c * (j + 1) < doc.length → serve doc c (c * j) ≠ serve doc c (c * (j + 1))) (oks : List Bool) :
    download (serve doc c) {} oks = .text doc ↔ ∃ n, doc.length ≤ c * n ∧ List.replicate (n + 1) true <+: oks := by
  have hpos : 0 < doc.length := List.length_pos_iff.2 hne
  constructor
  · intro h
    match oks with
    | [] => simp [download] at h
    | false :: rest => exact absurd h (by simp [download, pass])
    | true :: rest =>
      rw [download_true] at h
      have hl : (serve doc c 0).length = min c (doc.length - 0) := serve_length doc c 0
      simp only at h
      rw [if_neg (by omega)] at h
      obtain ⟨n, h1, h2⟩ := good_from doc c hc hd rest 0 (by omega) (by simpa [serve] using h)
      refine ⟨n + 1, ?_, ?_⟩
      · have e2 : c * (n + 1) = c * n + c := by ring
        omega
      · rw [List.replicate_succ]
        exact (List.cons_prefix_cons).2 ⟨rfl, h2⟩
  · rintro ⟨n, h1, x, hx⟩
    rw [← hx]
    exact download_append _ _ _ _ _ (download_partial doc c hc n h1)

example : ∀ j, 2 * (j + 1) < [1, 2, 3, 4, 5].length → serve [1, 2, 3, 4, 5] 2 (2 * j) ≠ serve [1, 2, 3, 4, 5] 2 (2 * (j + 1)) := by
  intro j h
  have : j < 2 := by simp at h; omega
  match j with
  | 0 => decide
  | 1 => decide

/-- C133: with equal neighbouring parts a failure may go unnoticed in the text. -/
example : download (serve [7, 7, 7, 7] 2) {} [true, false, true] = .text [7, 7, 7, 7] := by decide

/-- C133 violated: if the first request fails, an indeterminate length is used. -/
theorem first_failed_violated (answer : Nat → List Nat) (rest : List Bool) : download answer {} (false :: rest) = .undefined := rfl

theorem download_some (doc : List Nat) (c : Nat) (hc : 0 < c) (j : Nat) (rest : List Bool) (hlen : c * (j + 1) ≤ doc.length) :
    download (serve doc c) {} (List.replicate (j + 1) true ++ rest) =
      download (serve doc c) { len := some c, rx := (doc.drop (c * j)).take c, address := c * (j + 1), str := doc.take (c * (j + 1)) } rest := by
  induction j generalizing rest with
  | zero =>
    have h1 : (serve doc c 0).length = c := by rw [serve_length]; simp; simpa using hlen
    have h2 : ¬ c = 0 := by omega
    simp only [List.replicate_succ, List.replicate_zero, List.cons_append, List.nil_append, download_true, h1, h2, if_false]
    simp [serve]
  | succ j ih =>
    have h : List.replicate (j + 1 + 1) true ++ rest = List.replicate (j + 1) true ++ true :: rest := by
      rw [List.replicate_succ', List.append_assoc]; rfl
    rw [h, ih _ (le_trans (Nat.mul_le_mul_left c (by omega)) hlen), download_true]
    have hm : c * (j + 1 + 1) = c * (j + 1) + c := by ring
    have h1 : (serve doc c (c * (j + 1))).length = c := by rw [serve_length]; omega
    rw [if_neg (by simp only [h1]; omega)]
    simp only [h1, hm, List.take_add]
    rfl

/-- C133 violated: if one later request fails, the text has the part before it twice and lacks the part which was asked for. -/
theorem one_failed_violated (doc : List Nat) (c : Nat) (hc : 0 < c) (j k : Nat) (hlen : c * (j + 1) ≤ doc.length) (hk : doc.length ≤ c * (j + 2 + k)) :
    download (serve doc c) {} (List.replicate (j + 1) true ++ false :: List.replicate (k + 1) true) =
      .text (doc.take (c * (j + 1)) ++ (doc.drop (c * j)).take c ++ doc.drop (c * (j + 2))) := by
  rw [download_some doc c hc j _ hlen, download_false _ _ c rfl hc]
  have hm : c * (j + 1) + c = c * (j + 2) := by ring
  rw [download_from doc c hc k]
  · simp [hm, List.take_take]
  · simp only [hm]
    rw [show c * (j + 2 + k) = c * (j + 2) + c * k by ring] at hk
    exact hk

example : download (serve [1, 2, 3, 4, 5] 2) {} [true, false, true, true] = .text [1, 2, 1, 2, 5] := by decide

theorem download_stuck (answer : Nat → List Nat) (l : Nat) (h0 : 0 < l) (m : Nat) : ∀ (s : Js), s.len = some l → l ≤ s.rx.length →
    ∃ s', download answer s (List.replicate m false) = .busy s' ∧ s'.str.length = s.str.length + l * m := by
  induction m with
  | zero => intro s _ _; exact ⟨s, rfl, by simp⟩
  | succ m ih =>
    intro s hl hr
    rw [List.replicate_succ, download_false _ _ l hl h0]
    obtain ⟨s', h1, h2⟩ := ih { s with address := s.address + l, str := s.str ++ s.rx.take l } hl hr
    refine ⟨s', h1, ?_⟩
    rw [h2]
    simp only [List.length_append, List.length_take, min_eq_left hr]
    ring

/-- C133 violated: if the drive is gone after some part, the loop never ends and the text grows without limit. -/
theorem unplugged_violated (doc : List Nat) (c : Nat) (hc : 0 < c) (j m : Nat) (hlen : c * (j + 1) ≤ doc.length) :
    ∃ s, download (serve doc c) {} (List.replicate (j + 1) true ++ List.replicate m false) = .busy s ∧ m ≤ s.str.length := by
  rw [download_some doc c hc j _ hlen]
  obtain ⟨s', h1, h2⟩ := download_stuck (serve doc c) c hc m
    { len := some c, rx := (doc.drop (c * j)).take c, address := c * (j + 1), str := doc.take (c * (j + 1)) } rfl
    (by simp only [List.length_take, List.length_drop]
        rw [Nat.mul_succ] at hlen
        omega)
  refine ⟨s', h1, ?_⟩
  rw [h2]
  have := Nat.le_mul_of_pos_left m hc
  omega

example : 2 * (0 + 1) ≤ [1, 2, 3, 4, 5].length := by decide

/-! ### C134: the search for the device -/

/-- Specification: a device which can be used: an ODrive which opens, whose interface can be claimed, and with a serial number with which the
number asked for begins (see C108 for the comparison). -/
def Usable (nr : Nat) (d : Dev) : Prop :=
  d.desc = true ∧ d.product = true ∧ d.opens = true ∧ (d.inactive = true ∨ d.detaches = true) ∧ d.claims = true ∧ d.serial ≠ [] ∧
    d.serial <+: Hal.ODriveUsb.hex nr

theorem visit_spec (nr : Nat) (i : Nat) (d : Dev) (l : Lib) :
    (¬ Usable nr d ∧ visit nr i d l = (false, l)) ∨
    (Usable nr d ∧ visit nr i d l = (true, { l with openH := i :: l.openH, claimed := (i, 2) :: l.claimed, handle := some i })) := by
  have hp : Hal.ODriveUsb.same (Hal.ODriveUsb.hex nr) d.serial = true ↔ d.serial <+: Hal.ODriveUsb.hex nr := by
    rw [Hal.ODriveUsb.same, beq_iff_eq, List.prefix_iff_eq_take]
    exact eq_comm
  obtain ⟨desc, product, opens, inactive, detaches, claims, serial⟩ := d
  simp only at hp
  unfold visit Usable
  simp only [Lib.open, Lib.close, Lib.claim, Lib.release]
  cases desc
  · simp
  cases product
  · simp
  cases opens
  · simp
  cases claims
  · cases inactive <;> cases detaches <;> simp
  by_cases h0 : serial = []
  · cases inactive <;> cases detaches <;> simp [h0]
  by_cases hs : Hal.ODriveUsb.same (Hal.ODriveUsb.hex nr) serial = true
  · have := hp.1 hs
    cases inactive <;> cases detaches <;> simp [h0, hs, this]
  · have h2 : ¬ serial <+: Hal.ODriveUsb.hex nr := fun h => hs (hp.2 h)
    cases inactive <;> cases detaches <;> simp [h0, hs, h2]

theorem search_spec (nr : Nat) (ds : List Dev) : ∀ (i : Nat) (l : Lib),
    ((∀ d ∈ ds, ¬ Usable nr d) ∧ search nr i ds l = (false, l)) ∨
    (∃ k d, ds[k]? = some d ∧ Usable nr d ∧ (∀ d' ∈ ds.take k, ¬ Usable nr d') ∧
      search nr i ds l = (true, { l with openH := (i + k) :: l.openH, claimed := (i + k, 2) :: l.claimed, handle := some (i + k) })) := by
  induction ds with
  | nil => intro i l; left; simp [search]
  | cons d ds ih =>
    intro i l
    rcases visit_spec nr i d l with ⟨hu, hv⟩ | ⟨hu, hv⟩
    · simp only [search, hv]
      rcases ih (i + 1) l with ⟨h1, h2⟩ | ⟨k, d', h1, h2, h3, h4⟩
      · left; exact ⟨by simpa [hu] using h1, h2⟩
      · right
        refine ⟨k + 1, d', by simpa using h1, h2, by simpa [hu] using h3, ?_⟩
        rw [h4, show i + 1 + k = i + (k + 1) by omega]
    · right
      exact ⟨0, d, by simp, hu, by simp, by simp [search, hv]⟩

/-- C134: for a list with devices `init` succeeds exactly if there is a device which can be used, takes the first of them, and leaves exactly its handle
open and its interface claimed; if it fails nothing is open or claimed.  The list of devices is returned in both cases. -/
theorem init_partial (nr : Nat) (ds : List Dev) (hne : ds ≠ []) :
    ((∀ d ∈ ds, ¬ Usable nr d) ∧ init nr 0 ds {} = (1, { context := true })) ∨
    (∃ k d, ds[k]? = some d ∧ Usable nr d ∧ (∀ d' ∈ ds.take k, ¬ Usable nr d') ∧
      init nr 0 ds {} = (0, { context := true, openH := [k], claimed := [(k, 2)], handle := some k })) := by
  have h0 : ¬ ds.length = 0 := fun h => hne (List.length_eq_zero_iff.1 h)
  rcases search_spec nr ds 0 { context := true, list := true } with ⟨h1, h2⟩ | ⟨k, d, h1, h2, h3, h4⟩
  · left
    refine ⟨h1, ?_⟩
    simp [init, h0, h2]
  · right
    refine ⟨k, d, h1, h2, h3, ?_⟩
    simp [init, h0, h4]

example : init 0x207A 0 [⟨true, false, true, true, true, true, "207A".toList⟩, ⟨true, true, true, true, true, true, "207B".toList⟩,
    ⟨true, true, true, false, true, true, "207A".toList⟩] {} = (0, { context := true, openH := [2], claimed := [(2, 2)], handle := some 2 }) := by
  simp [init, search, visit, Lib.open, Lib.close, Lib.claim, Lib.release, Hal.ODriveUsb.same, Hal.ODriveUsb.hex, Hal.ODriveUsb.digits, Hal.ODriveUsb.digit]

/-- C134: `init` can not be used again, whatever the first call gave. -/
theorem init_once (nr nr' : Nat) (code : Int) (ds ds' : List Dev) (l : Lib) (h : (init nr 0 ds l).2.context = true) :
    init nr' code ds' (init nr 0 ds l).2 = (1, (init nr 0 ds l).2) := by
  rw [init, if_pos h]

example : (init 5 0 [] {}).2.context = true := by decide

/-- C134 violated: without any device `init` returns 0 as for success, there is no handle, and the list of devices is not returned. -/
theorem no_device_violated (nr : Nat) : init nr 0 [] {} = (0, { context := true, list := true }) := rfl

/-- C134 violated: the destructor releases interface 0, but interface 2 was claimed: it is never released. -/
theorem release_violated (nr : Nat) (ds : List Dev) (k : Nat) (h : (init nr 0 ds {}).2.handle = some k) :
    (destroy (init nr 0 ds {}).2).openH = [] ∧ (destroy (init nr 0 ds {}).2).context = false ∧
      (destroy (init nr 0 ds {}).2).claimed = [(k, 2)] := by
  by_cases hne : ds = []
  · subst hne
    rw [no_device_violated] at h
    cases h
  · rcases init_partial nr ds hne with ⟨_, h2⟩ | ⟨k', d, _, _, _, h4⟩
    · rw [h2] at h; cases h
    · rw [h4] at h ⊢
      simp only [Option.some.injEq] at h
      subst h
      simp [destroy, Lib.release, Lib.close]

example : (init 5 0 [⟨true, true, true, true, true, true, "5".toList⟩] {}).2.handle = some 0 := by
  simp [init, search, visit, Lib.open, Lib.close, Lib.claim, Lib.release, Hal.ODriveUsb.same, Hal.ODriveUsb.hex, Hal.ODriveUsb.digits, Hal.ODriveUsb.digit]

end Verif.External.ODriveEP
