/-
C120: set points over CAN.
-/
import Verif.Control.CanSend
import Mathlib.Data.Rat.Floor
import Mathlib.Tactic.Linarith
import Mathlib.Tactic.NormNum

set_option linter.unusedSectionVars false

namespace Verif.Control.CanSend

open Verif.Control.Can (Byte)

variable {K : Type} [Field K] [LinearOrder K] [IsStrictOrderedRing K] [FloorRing K]

/-! ### Specification -/

/-- The message "absolute position with speed limit": the bytes the drive reads (all but the second one, which the code leaves open). -/
structure IsSetPoint (enc : Nat → Nat → List Byte) (node : Nat) (speed pos : Nat) (f : Frame) : Prop where
  id : f.id = 0x140 + node
  len : f.len = 8 ∧ f.data.length = 8
  cmd : f.data[0]? = some (some 0xa5)
  speed : (f.data.drop 2).take 2 = (enc speed 2).map some
  pos : f.data.drop 4 = (enc pos 4).map some

/-- Inputs the drives can be given: position times scale and speed are within the ranges of the unsigned numbers. -/
def InRange (b : Block K) (s input : Nat → K) : Prop :=
  ∀ i < b.nodes.length, 0 ≤ s i ∧ s i < 2 ^ 16 ∧ 0 ≤ input i * b.scale i ∧ input i * b.scale i < 2 ^ 32

theorem toUnsigned_ok (bits : Nat) (x : K) (h0 : 0 ≤ x) (h1 : x < 2 ^ bits) : toUnsigned bits x = some ⌊x⌋.toNat :=
  if_pos ⟨by linarith, h1⟩

theorem frame_ok (N : Nat) (enc : Nat → Nat → List Byte) (henc : ∀ w n, (enc w n).length = n) (b : Block K) (s input : Nat → K) (hs : b.speed = some s)
    (hr : InRange b s input) (i node : Nat) (hi : i < b.nodes.length) (hN : i < N) :
    ∃ f, frame N enc b input i node = .ok f ∧ IsSetPoint enc node ⌊s i⌋.toNat ⌊input i * b.scale i⌋.toNat f := by
  obtain ⟨h1, h2, h3, h4⟩ := hr i hi
  refine ⟨_, by rw [frame, if_pos hN, toUnsigned_ok 32 _ h3 h4]; simp only [hs]; rw [toUnsigned_ok 16 _ h1 h2], rfl, ⟨rfl, by simp [henc]⟩, rfl, ?_, ?_⟩
  · show (List.drop 0 (List.map some (enc ⌊s i⌋.toNat 2) ++ _)).take 2 = _
    rw [List.drop_zero, List.take_left' (by simp [henc])]
  · show List.drop 2 (List.map some (enc ⌊s i⌋.toNat 2) ++ _) = _
    rw [List.drop_left' (by simp [henc])]

/-- The loop: the frames are those of the nodes from `i` on, up to the first call of `frameSend` which fails. -/
theorem loop_spec (N : Nat) (enc : Nat → Nat → List Byte) (henc : ∀ w n, (enc w n).length = n) (b : Block K) (s input : Nat → K) (hs : b.speed = some s)
    (hr : InRange b s input) (hN : b.nodes.length ≤ N) (bus : Nat → Bool) (m : Nat) (i : Nat) (hm : i + m ≤ b.nodes.length) (hb : ∀ k, i ≤ k → k < i + m → bus k = true)
    (hend : i + m = b.nodes.length ∨ bus (i + m) = false) :
    ∃ fs, loop N enc b input bus (b.nodes.drop i) i = (fs, if i + m = b.nodes.length then .ok else .fault) ∧ fs.length = m ∧
      ∀ k node, k < m → b.nodes[i + k]? = some node → ∃ f, fs[k]? = some f ∧ IsSetPoint enc node ⌊s (i + k)⌋.toNat ⌊input (i + k) * b.scale (i + k)⌋.toNat f := by
  induction m generalizing i with
  | zero =>
    by_cases hl : i = b.nodes.length
    · refine ⟨[], ?_, rfl, fun k _ hk => absurd hk (Nat.not_lt_zero _)⟩
      rw [List.drop_eq_nil_of_le (by omega), if_pos (by omega)]
      rfl
    · have hlt : i < b.nodes.length := by omega
      obtain ⟨f, hf, -⟩ := frame_ok N enc henc b s input hs hr i b.nodes[i] hlt (by omega)
      have hfalse : bus i = false := by
        rcases hend with h | h
        · omega
        · exact h
      refine ⟨[], ?_, rfl, fun k _ hk => absurd hk (Nat.not_lt_zero _)⟩
      rw [List.drop_eq_getElem_cons hlt, loop, hf, if_neg (by omega : ¬ i + 0 = b.nodes.length)]
      simp [hfalse]
  | succ m ih =>
    have hlt : i < b.nodes.length := by omega
    obtain ⟨f, hf, hset⟩ := frame_ok N enc henc b s input hs hr i b.nodes[i] hlt (by omega)
    obtain ⟨fs, h1, h2, h3⟩ := ih (i + 1) (by omega) (fun k h1 h2 => hb k (by omega) (by omega)) (by rw [show i + 1 + m = i + (m + 1) by omega]; exact hend)
    refine ⟨f :: fs, ?_, by simp [h2], ?_⟩
    · rw [List.drop_eq_getElem_cons hlt, loop, hf]
      simp only [hb i (Nat.le_refl _) (by omega), if_true, h1]
      rw [show i + 1 + m = i + (m + 1) by omega]
    · intro k node hk hnode
      cases k with
      | zero =>
        rw [Nat.add_zero, List.getElem?_eq_getElem hlt] at hnode
        cases hnode
        exact ⟨f, rfl, hset⟩
      | succ k =>
        obtain ⟨g, hg, hg'⟩ := h3 k node (by omega) (by rw [← hnode]; congr 1; omega)
        refine ⟨g, hg, ?_⟩
        rw [show i + (k + 1) = i + 1 + k by omega]
        exact hg'

/-- **C120 (partial)** An enabled block with a speed set, set points in the ranges of the drives, and `frameSend` succeeding for the first `m` nodes (all, or failing for the next): exactly `m` frames
are sent, the `k`-th of which carries the set point of the `k`-th node; the run ends with a fault if and only if a frame could not be sent.
Missing: the second byte, see `byte_uninitialised_violated`; negative set points, see `negative_violated`; a run before `setSpeed`, see `speed_unset_violated`. -/
theorem sent_partial (N : Nat) (enc : Nat → Nat → List Byte) (henc : ∀ w n, (enc w n).length = n) (b : Block K) (he : b.enabled = true) (s input : Nat → K) (hs : b.speed = some s)
    (hr : InRange b s input) (hN : b.nodes.length ≤ N) (bus : Nat → Bool) (m : Nat) (hm : m ≤ b.nodes.length) (hb : ∀ k < m, bus k = true)
    (hend : m = b.nodes.length ∨ bus m = false) :
    ((run N enc b input bus).2 = if m = b.nodes.length then .ok else .fault) ∧ (run N enc b input bus).1.length = m ∧
      ∀ k node, k < m → b.nodes[k]? = some node →
        ∃ f, (run N enc b input bus).1[k]? = some f ∧ IsSetPoint enc node ⌊s k⌋.toNat ⌊input k * b.scale k⌋.toNat f := by
  obtain ⟨fs, h1, h2, h3⟩ := loop_spec N enc henc b s input hs hr hN bus m 0 (by omega) (fun k _ hk => hb k (by omega)) (by simpa using hend)
  rw [List.drop_zero] at h1
  have hrun : run N enc b input bus = (fs, if m = b.nodes.length then .ok else .fault) := by
    rw [run, if_pos he, h1, Nat.zero_add]
  rw [hrun]
  refine ⟨rfl, h2, fun k node hk hn => ?_⟩
  have := h3 k node hk (by rwa [Nat.zero_add])
  rwa [Nat.zero_add] at this

/-- Little endian bytes of a number. -/
def le (w : Nat) : Nat → List Byte
  | 0 => []
  | n + 1 => Fin.ofNat 256 w :: le (w / 256) n

theorem le_length (w n : Nat) : (le w n).length = n := by
  induction n generalizing w with
  | zero => rfl
  | succ n ih => simp [le, ih]

/-- The block of the examples: two drives, scale 100, speed 500. -/
def exBlock : Block ℚ := ⟨true, fun _ => 100, some fun _ => 500, [1, 2]⟩

/-- Position 1.5 of the second drive is sent as 150 = 0x96, speed 500 as 0x1f4. -/
example : ∃ f, (run 2 le exBlock (fun i => if i = 1 then 3 / 2 else 0) fun _ => true).1[1]? = some f ∧
    f.id = 0x142 ∧ f.data.drop 4 = [some 0x96, some 0, some 0, some 0] ∧ (f.data.drop 2).take 2 = [some 0xf4, some 0x01] := by
  have hr : InRange exBlock (fun _ => 500) (fun i => if i = 1 then 3 / 2 else 0) := by
    intro i hi
    have : i = 0 ∨ i = 1 := by
      have : i < 2 := hi
      omega
    rcases this with rfl | rfl <;> simp only [exBlock] <;> norm_num
  obtain ⟨-, -, h⟩ := sent_partial 2 le le_length exBlock rfl (fun _ => 500) (fun i => if i = 1 then 3 / 2 else 0) rfl hr (by decide) (fun _ => true) 2 (by decide) (fun _ _ => rfl) (Or.inl rfl)
  obtain ⟨f, hf, hset⟩ := h 1 2 (by decide) rfl
  have e1 : ⌊(500 : ℚ)⌋.toNat = 500 := by norm_num; rfl
  have e2 : ⌊(if 1 = 1 then 3 / 2 else 0 : ℚ) * exBlock.scale 1⌋.toNat = 150 := by simp only [exBlock]; norm_num; rfl
  refine ⟨f, hf, hset.id, ?_, ?_⟩
  · rw [hset.pos, e2]; decide
  · rw [hset.speed, e1]; decide

/-- **C120** A disabled block sends nothing; a new block is disabled, and is constructed if and only if there is room for its nodes; its positions are not scaled. -/
theorem disabled_silent (N : Nat) (enc : Nat → Nat → List Byte) (b : Block K) (input : Nat → K) (bus : Nat → Bool) (h : b.enabled = false) : run N enc b input bus = ([], .ok) := by
  rw [run, h]; rfl

theorem construct_spec (N : Nat) (nodes : List Nat) (rest : Nat → K) :
    (construct N nodes rest = none ↔ N < nodes.length) ∧
      ∀ b, construct N nodes rest = some b → b.enabled = false ∧ b.nodes = nodes ∧ b.nodes.length ≤ N ∧ (∀ i < nodes.length, b.scale i = 1) ∧ (enable b).enabled = true ∧ (disable (enable b)).enabled = false := by
  unfold construct
  constructor
  · split
    · simp; omega
    · simp; omega
  · intro b hb
    split at hb
    · rename_i h
      cases hb
      exact ⟨rfl, rfl, h, fun i hi => if_pos hi, rfl, rfl⟩
    · cases hb

/-- Three nodes do not fit into a block for two. -/
example : construct 2 [1, 2, 3] (fun _ => (0 : ℚ)) = none := (construct_spec 2 [1, 2, 3] _).1.2 (by decide)

/-- **C120** Whatever happens, the frames go to the first nodes, in their order, one each: nobody else gets a frame. -/
theorem recipients (N : Nat) (enc : Nat → Nat → List Byte) (b : Block K) (input : Nat → K) (bus : Nat → Bool) :
    (run N enc b input bus).1.map Frame.id = (b.nodes.take (run N enc b input bus).1.length).map (0x140 + ·) := by
  have key : ∀ (l : List Nat) (i : Nat), (loop N enc b input bus l i).1.map Frame.id = (l.take (loop N enc b input bus l i).1.length).map (0x140 + ·) := by
    intro l
    induction l with
    | nil => intro i; rfl
    | cons n l ih =>
      intro i
      unfold loop
      cases hf : frame N enc b input i n with
      | error e => rfl
      | ok f =>
        have hid : f.id = 0x140 + n := by
          unfold frame at hf
          repeat' split at hf
          all_goals first | cases hf; rfl | cases hf
        cases bus i
        · rfl
        · simp [hid, ih]
  unfold run
  cases b.enabled
  · rfl
  · exact key _ _

/-- The second of three frames cannot be sent: only the first drive is served. -/
example : (run 3 le { exBlock with nodes := [1, 2, 3] } (fun _ => 1) fun k => k != 1).1.map Frame.id = [0x141] := by
  rw [recipients]
  obtain ⟨-, h, -⟩ := sent_partial 3 le le_length { exBlock with nodes := [1, 2, 3] } rfl (fun _ => 500) (fun _ => 1) rfl
    (by intro i _; simp only [exBlock]; norm_num) (by decide) (fun k => k != 1) 1 (by decide) (by decide) (Or.inr rfl)
  rw [h]; rfl

/-- **C120 violated**: the second byte of every frame which is ever sent was never written. -/
theorem byte_uninitialised_violated (N : Nat) (enc : Nat → Nat → List Byte) (b : Block K) (input : Nat → K) (bus : Nat → Bool) :
    ∀ f ∈ (run N enc b input bus).1, f.data[1]? = some none := by
  have key : ∀ (l : List Nat) (i : Nat), ∀ f ∈ (loop N enc b input bus l i).1, f.data[1]? = some none := by
    intro l
    induction l with
    | nil => intro i f hf; cases hf
    | cons n l ih =>
      intro i g hg
      unfold loop at hg
      cases hf : frame N enc b input i n with
      | error e => rw [hf] at hg; cases hg
      | ok f =>
        rw [hf] at hg
        have hb : f.data[1]? = some none := by
          unfold frame at hf
          repeat' split at hf
          all_goals first | cases hf; rfl | cases hf
        cases hbus : bus i
        · simp [hbus] at hg
        · simp only [hbus, if_true, List.mem_cons] at hg
          rcases hg with rfl | hg
          · exact hb
          · exact ih _ _ hg
  unfold run
  cases b.enabled
  · intro f hf; cases hf
  · exact key _ _

/-- And frames are sent. -/
example : (run 2 le exBlock (fun _ => 1) fun _ => true).1.length = 2 := 
  (sent_partial 2 le le_length exBlock rfl (fun _ => 500) (fun _ => 1) rfl (by intro i _; simp only [exBlock]; norm_num) (by decide) (fun _ => true) 2 (by decide) (fun _ _ => rfl) (Or.inl rfl)).2.1

/-- **C120 violated**: a set point of -1 or below for the first node (after scaling): the conversion is undefined, nothing is sent. -/
theorem negative_violated (N : Nat) (hN : 0 < N) (enc : Nat → Nat → List Byte) (b : Block K) (he : b.enabled = true) (n : Nat) (l : List Nat) (hn : b.nodes = n :: l) (input : Nat → K)
    (bus : Nat → Bool) (h : input 0 * b.scale 0 ≤ -1) : run N enc b input bus = ([], .conversion) := by
  have : toUnsigned 32 (input 0 * b.scale 0) = none := if_neg fun hc => absurd h (not_le.2 hc.1)
  rw [run, if_pos he, hn, loop, frame, if_pos hN, this]

example : run 2 le exBlock (fun _ => -1 / 2) (fun _ => true) = ([], .conversion) :=
  negative_violated 2 (by decide) le exBlock rfl 1 [2] rfl _ _ (by simp only [exBlock]; norm_num)

/-- **C120 violated**: a new block which is enabled before `setSpeed` sends with a speed which was never set. -/
theorem speed_unset_violated (N : Nat) (enc : Nat → Nat → List Byte) (n : Nat) (l : List Nat) (rest : Nat → K) (b : Block K) (hb : construct N (n :: l) rest = some b) (input : Nat → K)
    (bus : Nat → Bool) (h0 : 0 ≤ input 0) (h1 : input 0 < 2 ^ 32) : run N enc (enable b) input bus = ([], .uninitialised) := by
  unfold construct at hb
  split at hb
  · rename_i hl
    cases hb
    have hN : 0 < N := by
      have : (n :: l).length = l.length + 1 := rfl
      omega
    have hs : input 0 * (enable (⟨false, fun i => if i < (n :: l).length then 1 else rest i, none, n :: l⟩ : Block K)).scale 0 = input 0 := by
      show input 0 * (if 0 < (n :: l).length then 1 else rest 0) = _
      rw [if_pos (by simp), mul_one]
    rw [run]
    show (if true = true then loop N enc _ input bus (n :: l) 0 else _) = _
    rw [if_pos rfl, loop, frame, if_pos hN, hs, toUnsigned_ok 32 _ h0 h1]
    rfl
  · cases hb

example : ∃ b, construct 2 [1, 2] (fun _ => (0 : ℚ)) = some b ∧ run 2 le (enable b) (fun _ => 7) (fun _ => true) = ([], .uninitialised) :=
  ⟨_, rfl, speed_unset_violated 2 le 1 [2] (fun _ => 0) _ rfl _ _ (by norm_num) (by norm_num)⟩

end Verif.Control.CanSend
