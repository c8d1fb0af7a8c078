/-
C279-C281: exact rules behind the partial claims C25 (Delay), C31 (WrapAround) and C57, C79, C80 (CAN blocks).
No new model; the definitions are those of `Delay.lean`, `WrapAround.lean` and `Can.lean`.
-/
import Verif.Control.DelayProps
import Verif.Control.WrapAroundProps
import Verif.Control.CanProps
import Mathlib.Algebra.CharZero.Defs
import Mathlib.Tactic.Tauto

namespace Verif.Control.Delay
variable {S : Type} {K : Type} [Field K] [LinearOrder K] [IsStrictOrderedRing K] [FloorRing K]

/-- **C279** A delay which the constructor accepts: with `n` whole sampling periods in the configured delay the `k`-th output is the input of `n - 1` samples earlier, nothing before. -/
theorem delay_exact (delay ts : K) (hts : 0 < ts) (hd : ts ≤ delay) (hmax : delay < 4294967296 * ts) (n : Nat) (h1 : (n : K) * ts ≤ delay) (h2 : delay < (n + 1) * ts) (xs : List S) :
    ∃ s0 s outs, new delay ts = .ok s0 ∧ runs s0 xs = some (s, outs) ∧ outs.length = xs.length ∧
      ∀ k, k < xs.length → outs[k]? = some (if k + 1 < n then none else xs[k + 1 - n]?) := by
  obtain ⟨n', hn', e1, e2, e3⟩ := (new_length (S := S) delay ts hts (by linarith) hmax).2 hd
  have hnn : n' = n := by
    have a : (n : K) < n' + 1 := by
      by_contra hc; push Not at hc; nlinarith
    have b : (n' : K) < n + 1 := by
      by_contra hc; push Not at hc; nlinarith
    have a' : n < n' + 1 := by exact_mod_cast a
    have b' : n' < n + 1 := by exact_mod_cast b
    omega
  subst hnn
  obtain ⟨s, outs, r1, r2, r3, r4⟩ := delay_shifts_partial n' hn' xs
  refine ⟨_, s, outs, e3, r1, r2, fun k hk => ?_⟩
  by_cases hc : k + 1 < n'
  · rw [if_pos hc]; exact r3 k hk (by omega)
  · rw [if_neg hc, r4 k hk (by omega), show k + 1 - n' = k - (n' - 1) by omega]

/-- **C279** The sample which the configured delay asks for is output exactly if it happens to be equal to the one a sampling period later. -/
theorem delay_right_iff (n : Nat) (hn : 1 ≤ n) (xs : List S) (k : Nat) (hk : k < xs.length) (hkn : n ≤ k) :
    ∃ s outs, runs (mk n) xs = some (s, outs) ∧ (outs[k]? = some xs[k - n]? ↔ xs[k - n]? = xs[k - n + 1]?) := by
  obtain ⟨s, outs, r1, -, -, r4⟩ := delay_shifts_partial n hn xs
  refine ⟨s, outs, r1, ?_⟩
  rw [r4 k hk (by omega), show k - (n - 1) = k - n + 1 by omega, Option.some.injEq, eq_comm]

/-- A delay of 3 ms at 1 ms: the third output is the first input. -/
example : ((3 : Nat) : ℚ) * (1 / 1000) ≤ 3 / 1000 ∧ (3 / 1000 : ℚ) < ((3 : Nat) + 1) * (1 / 1000) ∧ (runs (mk 3) [4, 5, 5, 7, 8]).map (·.2) = some [none, none, some 4, some 5, some 5] ∧
    [4, 5, 5, 7, 8][4 - 3]? = [4, 5, 5, 7, 8][4 - 3 + 1]? := ⟨by norm_num, by norm_num, by decide, by decide⟩

end Verif.Control.Delay

namespace Verif.Control.WrapAround
variable {K : Type} [Field K] [LinearOrder K] [IsStrictOrderedRing K] [FloorRing K]

/-- **C280** The output of an enabled block is in the range and congruent to the input exactly if the input is `min` or not a multiple of the width away from it. -/
theorem wraps_iff (s : St K) (he : s.enabled = true) (hlt : s.min < s.max) (x : K) :
    (s.min ≤ run s x ∧ run s x < s.max ∧ Congruent (s.max - s.min) x (run s x)) ↔ (x = s.min ∨ ∀ k : Int, x ≠ s.min + k * (s.max - s.min)) := by
  refine ⟨fun h => ?_, wraps_partial s he hlt x⟩
  by_cases hl : ∃ k : Int, x = s.min + k * (s.max - s.min)
  · left
    obtain ⟨k, rfl⟩ := hl
    rw [lattice_points_pass s he hlt k] at h
    exact congruent_unique s.min (s.max - s.min) s.min _ _ (by linarith) ⟨-k, by push_cast; ring⟩ ⟨0, by simp⟩ h.1 (by linarith [h.2.1]) (le_refl _) (by linarith)
  · right
    intro k hk
    exact hl ⟨k, hk⟩

/-- **C280** In every case the output is congruent to the input; outside of the range it is the input itself. -/
theorem wrap_congruent (s : St K) (hlt : s.min < s.max) (x : K) :
    Congruent (s.max - s.min) x (run s x) ∧ (¬ (s.min ≤ run s x ∧ run s x < s.max) → run s x = x) := by
  by_cases he : s.enabled = true
  · by_cases hx : x = s.min ∨ ∀ k : Int, x ≠ s.min + k * (s.max - s.min)
    · have h := wraps_partial s he hlt x hx
      exact ⟨h.2.2, fun hn => absurd ⟨h.1, h.2.1⟩ hn⟩
    · push Not at hx
      obtain ⟨-, k, hk⟩ := hx
      have := lattice_points_pass s he hlt k
      rw [← hk] at this
      rw [this]
      exact ⟨⟨0, by simp⟩, fun _ => rfl⟩
  · rw [disabled_passes s (by simpa using he)]
    exact ⟨⟨0, by simp⟩, fun _ => rfl⟩

/-- The range from 0 to 5: 7 is wrapped, 10 is not. -/
example : ¬ (0 ≤ run (⟨0, 5, true⟩ : St ℚ) 10 ∧ run (⟨0, 5, true⟩ : St ℚ) 10 < 5) ∧ (0 : ℚ) < 5 := by
  refine ⟨fun h => ?_, by norm_num⟩
  have := lattice_points_pass (⟨0, 5, true⟩ : St ℚ) rfl (by norm_num) 2
  norm_num at this
  rw [this] at h
  exact absurd h.2 (by norm_num)

end Verif.Control.WrapAround

namespace Verif.Control.Can

section Receive
variable {K : Type} [Field K] {N M P : Nat} (dec : List Byte → Int)

/-- One mapping: decoded exactly if the message has at least as many bytes as the mapping. -/
theorem objects_isOk_iff (p : Pdo) (hp : Good N M P p) (data : List Byte) (o : Outs K) :
    (∃ o', objects N M P dec p data p.length 0 0 o = .ok o') ↔ offset p.length p.length.length ≤ data.length := by
  constructor
  · rintro ⟨o', h⟩
    by_contra hc
    rw [short_message dec p hp data (by omega) o] at h
    cases h
  · intro h
    have := objects_ok dec p hp data h 0 (Nat.zero_le _) o
    rw [List.drop_zero] at this
    exact ⟨_, this⟩

theorem message_isOk_iff (pdo : List Pdo) (hp : ∀ p ∈ pdo, Good N M P p) (m : Msg) (o : Outs K) :
    (∃ o', message N M P dec pdo m o = .ok o') ↔
      ∀ p ∈ pdo, m.node = p.nodeId ∧ m.nr = p.nr → offset p.length p.length.length ≤ m.data.length := by
  unfold message
  induction pdo generalizing o with
  | nil => exact ⟨fun _ => by simp, fun _ => ⟨o, rfl⟩⟩
  | cons p pdo ih =>
    have hq : ∀ q ∈ pdo, Good N M P q := fun q h => hp q (List.mem_cons_of_mem _ h)
    rw [List.foldlM_cons]
    by_cases hm : m.node = p.nodeId ∧ m.nr = p.nr
    · rw [if_pos hm]
      by_cases hl : offset p.length p.length.length ≤ m.data.length
      · obtain ⟨o1, h1⟩ := (objects_isOk_iff dec p (hp p (List.mem_cons_self ..)) m.data o).2 hl
        rw [h1]
        change (∃ o', _ = _) ↔ _
        rw [show (Except.ok o1 >>= fun o => pdo.foldlM (fun o p => if m.node = p.nodeId ∧ m.nr = p.nr then objects N M P dec p m.data p.length 0 0 o else .ok o) o) =
          pdo.foldlM (fun o p => if m.node = p.nodeId ∧ m.nr = p.nr then objects N M P dec p m.data p.length 0 0 o else .ok o) o1 from rfl, ih hq o1]
        constructor
        · intro h q hqm
          rcases List.mem_cons.1 hqm with rfl | hqm
          · exact fun _ => hl
          · exact h q hqm
        · exact fun h q hqm => h q (List.mem_cons_of_mem _ hqm)
      · constructor
        · rintro ⟨o', h⟩
          cases e : objects N M P dec p m.data p.length 0 0 o with
          | ok o1 => exact absurd ((objects_isOk_iff dec p (hp p (List.mem_cons_self ..)) m.data o).1 ⟨_, e⟩) hl
          | error x => rw [e] at h; cases h
        · intro h
          exact absurd (h p (List.mem_cons_self ..) hm) hl
    · rw [if_neg hm]
      rw [show (Except.ok o >>= fun o => pdo.foldlM (fun o p => if m.node = p.nodeId ∧ m.nr = p.nr then objects N M P dec p m.data p.length 0 0 o else .ok o) o) =
        pdo.foldlM (fun o p => if m.node = p.nodeId ∧ m.nr = p.nr then objects N M P dec p m.data p.length 0 0 o else .ok o) o from rfl, ih hq o]
      constructor
      · intro h q hqm
        rcases List.mem_cons.1 hqm with rfl | hqm
        · exact fun hc => absurd hc hm
        · exact h q hqm
      · exact fun h q hqm => h q (List.mem_cons_of_mem _ hqm)

/-- **C281** (receive) A run of an enabled block reads only received bytes exactly if each of the messages it takes is at least as long as every mapping configured for its node and number. -/
theorem receive_defined_iff (b : Receiver K) (hp : ∀ p ∈ b.pdo, Good N M P p) (he : b.enabled = true) (bus : List (Option Msg)) (o : Outs K) :
    (∃ o', receive N M P dec b bus o = .ok o') ↔
      ∀ m, some m ∈ bus.take b.nofPDO → ∀ p ∈ b.pdo, m.node = p.nodeId ∧ m.nr = p.nr → offset p.length p.length.length ≤ m.data.length := by
  unfold receive
  rw [if_pos he]
  generalize bus.take b.nofPDO = l
  induction l generalizing o with
  | nil => exact ⟨fun _ => by simp, fun _ => ⟨o, rfl⟩⟩
  | cons a l ih =>
    rw [List.foldlM_cons]
    cases a with
    | none =>
      change (∃ o', l.foldlM _ o = _) ↔ _
      rw [ih o]
      constructor
      · intro h m hm
        rcases List.mem_cons.1 hm with h' | h'
        · cases h'
        · exact h m h'
      · exact fun h m hm => h m (List.mem_cons_of_mem _ hm)
    | some m =>
      cases e : message N M P dec b.pdo m o with
      | ok o1 =>
        have h0 := (message_isOk_iff dec b.pdo hp m o).1 ⟨_, e⟩
        simp only [e]
        change (∃ o', l.foldlM _ o1 = _) ↔ _
        rw [ih o1]
        constructor
        · intro h m' hm'
          rcases List.mem_cons.1 hm' with h' | h'
          · cases h'; exact h0
          · exact h m' h'
        · exact fun h m' hm' => h m' (List.mem_cons_of_mem _ hm')
      | error x =>
        simp only [e]
        constructor
        · rintro ⟨o', h⟩; cases h
        · intro h
          obtain ⟨o', h'⟩ := (message_isOk_iff dec b.pdo hp m o).2 (h m (List.mem_cons_self ..))
          rw [e] at h'; cases h'

end Receive

section Send
variable {K : Type} [Field K] [LinearOrder K] [IsStrictOrderedRing K] [FloorRing K]

/-- The floating point value of an object is in the range of `uint32_t` after scaling and truncation. -/
def InRange (s : Ins K) (scale : Nat → K) (p : Pdo) (i : Int) : Prop :=
  i > 0 → -1 < s.real p.nodeNr (i - 1).toNat * scale p.nodeNr ∧ s.real p.nodeNr (i - 1).toNat * scale p.nodeNr < 2 ^ 32

theorem encode_isOk (M P N : Nat) (enc : Nat → Nat → List Byte) (henc : ∀ w n, (enc w n).length = n) (s : Ins K) (scale : Nat → K) (p : Pdo) (hp : Good N M P p)
    (i : Nat) (hi : i ≤ p.length.length) (done r : List Byte) (hdone : done.length = offset p.length i) (h8 : done.length ≤ 8)
    (h : encode M P enc s scale p (p.length.drop i) i done = .ok r) :
    offset p.length p.length.length ≤ 8 ∧ ∀ j idx, i ≤ j → p.idx[j]? = some idx → InRange s scale p idx := by
  generalize hn : p.length.length - i = n
  induction n generalizing i done with
  | zero =>
    have : i = p.length.length := by omega
    subst this
    refine ⟨by omega, fun j idx hj hx => ?_⟩
    have := (List.getElem?_eq_some_iff.1 hx).1
    rw [hp.count] at this
    omega
  | succ n ih =>
    have hlt : i < p.length.length := by omega
    have hlt' : i < p.idx.length := by rw [hp.count]; exact hlt
    have hoff := (offset_succ p.length i hlt).2
    have hg : p.length.getD i 0 = p.length[i] := by simp [List.getD_eq_getElem?_getD, List.getElem?_eq_getElem hlt]
    rw [List.drop_eq_getElem_cons hlt, encode, List.getElem?_eq_getElem hlt'] at h
    simp only at h
    have hr := hp.range _ (List.getElem_mem hlt')
    by_cases hv : InRange s scale p p.idx[i]
    · rw [wordOf_ok M P s scale p.nodeNr _ hr hv] at h
      change (if _ then _ else _) = _ at h
      by_cases ho : 8 < done.length + p.length[i] / 8
      · rw [if_pos ho] at h; cases h
      · rw [if_neg ho] at h
        obtain ⟨a, b⟩ := ih (i + 1) hlt _ (by rw [List.length_append, henc, hdone, hoff, hg]) (by rw [List.length_append, henc]; omega) h (by omega)
        refine ⟨a, fun j idx hj hx => ?_⟩
        rcases Nat.lt_or_ge i j with h' | h'
        · exact b j idx h' hx
        · have : j = i := by omega
          subst this
          rw [List.getElem?_eq_getElem hlt'] at hx
          cases hx
          exact hv
    · exfalso
      unfold InRange at hv
      push Not at hv
      obtain ⟨hpos, hv⟩ := hv
      have : wordOf M P s scale p.nodeNr p.idx[i] = .error .conversion := by
        unfold wordOf toU32
        rw [if_pos hpos, if_pos (by omega), if_neg (fun hc => absurd hc.2 (not_lt.2 (hv hc.1)))]
      rw [this] at h
      cases h

/-- **C281** (send) For a possible mapping a message is sent exactly if the mapping has at most eight bytes and all floating point values, scaled and truncated, are numbers from 0 to 2^32 - 1. -/
theorem send_defined_iff (N M P : Nat) (enc : Nat → Nat → List Byte) (henc : ∀ w n, (enc w n).length = n) (s : Ins K) (scale : Nat → K) (p : Pdo) (hp : Good N M P p) :
    (∃ m, sendPdo M P enc s scale p = .ok m) ↔ offset p.length p.length.length ≤ 8 ∧ ∀ i ∈ p.idx, InRange s scale p i := by
  constructor
  · rintro ⟨m, h⟩
    unfold sendPdo at h
    cases e : encode M P enc s scale p p.length 0 [] with
    | error x => rw [e] at h; cases h
    | ok r =>
      have := encode_isOk M P N enc henc s scale p hp 0 (Nat.zero_le _) [] r rfl (by simp) (by rw [List.drop_zero]; exact e)
      refine ⟨this.1, fun i hi => ?_⟩
      obtain ⟨j, hj⟩ := List.getElem?_of_mem hi
      exact this.2 j i (Nat.zero_le _) hj
  · rintro ⟨h1, h2⟩
    obtain ⟨m, hm, -⟩ := sent_partial N M P enc henc s scale p hp h1 h2
    exact ⟨m, hm⟩

end Send

/-- What `CANreceive` should deliver for the nodes `ids`, if `content` are the bytes sent by each node. -/
def wantedAngles {K : Type} [Field K] (scale : Nat → K) (ids : List Nat) (content : Nat → Fin 8 → Byte) : List K :=
  ids.zipIdx.map fun x => (((content x.1 7).val * 256 + (content x.1 6).val : Nat) : K) * scale x.2

/-- **C281** (CANreceive) Frames with the identifiers `arrived`, one after the other: the angles are right for all contents exactly if they arrived in the order of the nodes. -/
theorem angles_right_iff {K : Type} [Field K] [CharZero K] (scale : Nat → K) (hs : ∀ i, scale i ≠ 0) (ids arrived : List Nat) :
    (∀ content : Nat → Fin 8 → Byte, angles scale (arrived.map fun id => ⟨id, content id⟩) = wantedAngles scale ids content) ↔ arrived = ids := by
  have hang : ∀ content : Nat → Fin 8 → Byte, angles scale (arrived.map fun id => ⟨id, content id⟩) = wantedAngles scale arrived content := by
    intro content
    unfold angles wantedAngles
    rw [List.zipIdx_map, List.map_map]
    rfl
  constructor
  · intro h
    have hlen : arrived.length = ids.length := by
      have := congrArg List.length ((hang fun _ _ => 0).symm.trans (h fun _ _ => 0))
      simpa [wantedAngles] using this
    apply List.ext_getElem hlen
    intro i h1 h2
    let c : Nat → Fin 8 → Byte := fun id j => if id = ids[i] ∧ j = 6 then 1 else 0
    have e := congrArg (fun l => l[i]?) ((hang c).symm.trans (h c))
    simp only [wantedAngles, List.getElem?_map, List.getElem?_zipIdx, List.getElem?_eq_getElem h1, List.getElem?_eq_getElem h2, Option.map_some, Option.some.injEq,
      Nat.zero_add] at e
    have e' := mul_right_cancel₀ (hs i) e
    by_contra hne
    have a : c arrived[i] 7 = 0 := by simp [c]
    have b : c arrived[i] 6 = 0 := by simp [c, hne]
    have a' : c ids[i] 7 = 0 := by simp [c]
    have b' : c ids[i] 6 = 1 := by simp [c]
    rw [a, b, a', b'] at e'
    have : ((0 : Nat) : K) = ((1 : Nat) : K) := by simpa using e'
    exact absurd (Nat.cast_injective this) (by decide)
  · rintro rfl
    exact hang

/-- Cases: a message of seven bytes for a mapping of seven, a mapping of six bytes with a value in the range; two nodes. -/
example : Good 2 3 1 ⟨1, 5, 2, [16, 32, 8], [0, 3, -1]⟩ ∧ offset [16, 32, 8] 3 = 7 ∧
    InRange (K := ℚ) ⟨fun _ _ => 3 / 2, fun _ _ => 0, fun _ => 0⟩ (fun _ => 4) ⟨0, 3, 2, [16, 32], [0, 1]⟩ 1 ∧
    wantedAngles (fun i => ((i : ℚ) + 1)) [3, 4] (fun id j => if j = 6 then Fin.ofNat 256 id else 0) = [3, 8] := by
  refine ⟨⟨by decide, by decide, by decide⟩, by decide, fun _ => by norm_num, by decide +kernel⟩

end Verif.Control.Can
