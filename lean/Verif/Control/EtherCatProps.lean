import Verif.Control.EtherCat
import Mathlib.Algebra.Order.Field.Basic
import Mathlib.Algebra.Order.Floor.Ring
import Mathlib.Data.Rat.Floor
import Mathlib.Tactic.Linarith
import Mathlib.Tactic.NormNum
import Mathlib.Tactic.SplitIfs
import Mathlib.Tactic.FinCases
import Mathlib.Data.Fin.VecNotation
/-!
Theorems about the EtherCAT blocks.
-/
namespace Verif.Control.EtherCat

/-! ### Digital terminals -/

/-- Every output of the digital input terminal is the corresponding bit. -/
theorem el1008_bit (val : BitVec 32) (i : Fin 8) : el1008 val i = val.getLsbD i.val := by
  have hi : i.val < 32 := by omega
  rw [Bool.eq_iff_iff]
  simp only [el1008, bne_iff_ne, ne_eq]
  constructor
  · intro h
    by_contra hb
    apply h
    apply BitVec.eq_of_getLsbD_eq
    intro j hj
    simp only [BitVec.getLsbD_and, BitVec.getLsbD_shiftLeft, BitVec.getLsbD_one, BitVec.getLsbD_zero]
    by_cases hji : j = i.val
    · subst hji; simp at hb; simp [hb]
    · have : j < i.val ∨ j - i.val ≠ 0 := by omega
      rcases this with h | h <;> simp [h]
  · intro hb h
    have := congrArg (fun b => b.getLsbD i.val) h
    simp only [BitVec.getLsbD_and, hb] at this
    simp [hi] at this

theorem putBit_bit (val : BitVec 32) (i : Nat) (hi : i < 32) (b : Bool) (j : Nat) (hj : j < 32) :
    (putBit val i b).getLsbD j = if j = i then b else val.getLsbD j := by
  unfold putBit
  cases b with
  | true =>
    simp only [if_true, BitVec.getLsbD_or, BitVec.getLsbD_shiftLeft, BitVec.getLsbD_one]
    by_cases h : j = i
    · subst h; simp [hj]
    · have : j < i ∨ j - i ≠ 0 := by omega
      rcases this with h' | h' <;> simp [h, h']
  | false =>
    simp only [Bool.false_eq_true, if_false, BitVec.getLsbD_and, BitVec.getLsbD_not, BitVec.getLsbD_shiftLeft, BitVec.getLsbD_one]
    by_cases h : j = i
    · subst h; simp [hj]
    · have : j < i ∨ j - i ≠ 0 := by omega
      rcases this with h' | h' <;> simp [h, h', hj]

theorem fold_bits (inp : Fin 8 → Bool) (l : List (Fin 8)) (hl : l.Nodup) (v : BitVec 32) :
    ∃ r, l.foldlM (fun val i => (some (inp i)).map (putBit val i.val)) v = some r ∧
      ∀ j, j < 32 → r.getLsbD j = if h : j < 8 ∧ (⟨j % 8, Nat.mod_lt _ (by decide)⟩ : Fin 8) ∈ l then inp ⟨j % 8, Nat.mod_lt _ (by decide)⟩ else v.getLsbD j := by
  induction l generalizing v with
  | nil => exact ⟨v, rfl, fun j _ => by simp⟩
  | cons a l ih =>
    obtain ⟨r, hr, hb⟩ := ih (List.nodup_cons.1 hl).2 (putBit v a.val (inp a))
    refine ⟨r, by simpa [List.foldlM_cons] using hr, fun j hj => ?_⟩
    rw [hb j hj, putBit_bit v a.val (by omega) (inp a) j hj]
    by_cases h8 : j < 8
    · have hm : j % 8 = j := Nat.mod_eq_of_lt h8
      by_cases hja : j = a.val
      · have e : (⟨j % 8, Nat.mod_lt _ (by decide)⟩ : Fin 8) = a := Fin.ext (by simp [hm, hja])
        have hn : a ∉ l := (List.nodup_cons.1 hl).1
        simp [h8, hja]
        have e' : (⟨a.val % 8, Nat.mod_lt _ (by decide)⟩ : Fin 8) = a := Fin.ext (by simp)
        simp [e']
      · have e : (⟨j % 8, Nat.mod_lt _ (by decide)⟩ : Fin 8) ≠ a := fun e => hja (by have := congrArg Fin.val e; simpa [hm] using this)
        simp [h8, hja, e]
    · have hja : j ≠ a.val := by omega
      simp [h8, hja]

/-- The digital output terminal: with all inputs connected, whatever the variable contained, bit `i` of the value which is written is input `i`; the bits
from 8 on are those of the variable which was not initialised. -/
theorem el2008_bits (junk : BitVec 32) (inp : Fin 8 → Bool) :
    ∃ r, el2008 junk (fun i => some (inp i)) = some r ∧ (∀ i : Fin 8, r.getLsbD i.val = inp i) ∧ ∀ j, 8 ≤ j → j < 32 → r.getLsbD j = junk.getLsbD j := by
  obtain ⟨r, hr, hb⟩ := fold_bits inp (List.finRange 8) (List.nodup_finRange 8) junk
  refine ⟨r, hr, fun i => ?_, fun j h1 h2 => ?_⟩
  · rw [hb i.val (by omega)]
    have e : (⟨i.val % 8, Nat.mod_lt _ (by decide)⟩ : Fin 8) = i := Fin.ext (Nat.mod_eq_of_lt i.isLt)
    simp [e, List.mem_finRange]
  · rw [hb j h2, dif_neg (by omega)]

/-- Wired to a digital input terminal, the inputs come back. -/
theorem digital_roundtrip (junk : BitVec 32) (inp : Fin 8 → Bool) :
    ∃ r, el2008 junk (fun i => some (inp i)) = some r ∧ ∀ i, el1008 r i = inp i := by
  obtain ⟨r, hr, hb, -⟩ := el2008_bits junk inp
  exact ⟨r, hr, fun i => by rw [el1008_bit, hb]⟩

example : el2008 0xABCDEF55#32 (fun i => some (decide (i.val < 3))) = some 0xABCDEF07#32 := by decide

/-- Violation: the value which is written is not determined by the inputs: two values of the variable give two results if they differ from bit 8 on. -/
theorem el2008_junk_violated (a b : BitVec 32) (inp : Fin 8 → Bool) (j : Nat) (hj : 8 ≤ j) (hj' : j < 32) (h : a.getLsbD j ≠ b.getLsbD j) :
    el2008 a (fun i => some (inp i)) ≠ el2008 b (fun i => some (inp i)) := by
  obtain ⟨r, hr, -, h1⟩ := el2008_bits a inp
  obtain ⟨q, hq, -, h2⟩ := el2008_bits b inp
  rw [hr, hq]
  intro e
  have := Option.some.inj e
  subst this
  exact h (by rw [← h1 j hj hj', ← h2 j hj hj'])

example : (0x100#32).getLsbD 8 ≠ (0#32).getLsbD 8 := by decide

/-- An input which is not connected: nothing is written. -/
theorem el2008_all_or_nothing (junk : BitVec 32) (inp : Fin 8 → Option Bool) : el2008 junk inp = none ↔ ∃ i, inp i = none := by
  have key : ∀ (l : List (Fin 8)) (v : BitVec 32), l.foldlM (fun val i => (inp i).map (putBit val i.val)) v = none ↔ ∃ i ∈ l, inp i = none := by
    intro l
    induction l with
    | nil => intro v; simp
    | cons a l ih =>
      intro v
      simp only [List.foldlM_cons]
      cases h : inp a with
      | none => simp [h]
      | some b => simp [ih, h]
  rw [el2008, key]
  simp [List.mem_finRange]

example : el2008 0#32 (fun i => if i = 5 then none else some true) = none := by decide

/-- Violation: a second digital input terminal cannot be created: its inputs have the same names as those of the first. -/
theorem second_terminal_violated (w : Hal.World) (p0 p1 q0 q1 : Hal.Sig) (s t : Hal.St) (h : el1008New w p0 p1 s = some t)
    (hn : w.idOf q0 = w.idOf p0) : el1008New w q0 q1 t = none := by
  unfold el1008New at h
  simp only [Hal.add] at h
  by_cases h0 : (s.reg (w.idOf p0)).isSome = true
  · simp [h0] at h
  · simp only [h0, Bool.false_eq_true, if_false] at h
    by_cases h1 : (Hal.upd s.reg (w.idOf p0) (some (some p0)) (w.idOf p1)).isSome = true
    · simp [h1] at h
    · simp only [h1, Bool.false_eq_true, if_false, Option.some.injEq] at h
      subst h
      have hne : w.idOf p0 ≠ w.idOf p1 := by
        intro e; apply h1; simp [Hal.upd, e]
      have : (Hal.upd (Hal.upd s.reg (w.idOf p0) (some (some p0))) (w.idOf p1) (some (some p1)) (w.idOf q0)).isSome = true := by
        rw [hn]; simp [Hal.upd, hne]
      unfold el1008New
      simp only [Hal.add, this, if_true]

/-- The first terminal can be created when the names are free. -/
theorem first_terminal (w : Hal.World) (p0 p1 : Hal.Sig) (s : Hal.St) (h0 : s.reg (w.idOf p0) = none) (h1 : s.reg (w.idOf p1) = none)
    (hne : w.idOf p0 ≠ w.idOf p1) :
    ∃ t, el1008New w p0 p1 s = some t ∧ t.reg (w.idOf p0) = some (some p0) ∧ t.reg (w.idOf p1) = some (some p1) := by
  refine ⟨{ s with reg := Hal.upd (Hal.upd s.reg (w.idOf p0) (some (some p0))) (w.idOf p1) (some (some p1)) }, ?_, ?_, ?_⟩
  · simp [el1008New, Hal.add, Hal.upd, h0, h1, Ne.symm hne]
  · simp [Hal.upd, hne]
  · simp [Hal.upd]

example : let w : Hal.World := ⟨fun p => if p % 2 = 0 then "EL1008_0" else "EL1008_1", fun _ => .logic⟩
    (∃ t, el1008New w 0 1 Hal.init = some t) ∧ w.idOf 2 = w.idOf 0 := by
  intro w
  obtain ⟨t, ht, -⟩ := first_terminal w 0 1 Hal.init rfl rfl (by decide)
  exact ⟨⟨t, ht⟩, by decide⟩

/-! ### Analog terminals -/

variable {K : Type} [Field K] [LinearOrder K] [FloorRing K] [IsStrictOrderedRing K]

/-- Specification: limited to 0 V to 10 V. -/
def limited (x : K) : K := max 0 (min x 10)

/-- The analog input terminal: the whole range of 16 bits covers -10 V to 10 V, and larger raw values give larger voltages. -/
theorem el3004_range (raw : Int) (h1 : -32768 ≤ raw) (h2 : raw ≤ 32767) : (-10 : K) ≤ el3004 raw ∧ (el3004 raw : K) < 10 := by
  have h1' : (-32768 : K) ≤ raw := by exact_mod_cast h1
  have h2' : (raw : K) ≤ 32767 := by exact_mod_cast h2
  unfold el3004
  constructor
  · rw [le_div_iff₀ (by norm_num)]; linarith
  · rw [div_lt_iff₀ (by norm_num)]; linarith

theorem el3004_mono (a b : Int) : (el3004 a : K) < el3004 b ↔ a < b := by
  unfold el3004
  rw [div_lt_div_iff_of_pos_right (by norm_num)]
  exact Int.cast_lt

example : (el3004 (-32768) : ℚ) = -10 ∧ (el3004 16384 : ℚ) = 5 := by constructor <;> norm_num [el3004]

theorem el4004_fin (x : K) : el4004 (.fin x) = some ⌊limited x * (32767 / 10)⌋ := by
  have h0 : (0 : K) ≤ limited x := le_max_left _ _
  have h10 : limited x ≤ (10 : K) := max_le (by norm_num) (min_le_right _ _)
  have hv : (if XVal.lt (.fin 10) (if XVal.lt (.fin x) (.fin 0) then XVal.fin 0 else .fin x) = true then XVal.fin 10
      else (if XVal.lt (.fin x) (.fin 0) then XVal.fin 0 else .fin x)) = (XVal.fin (limited x) : XVal K) := by
    unfold limited
    by_cases hx : x < 0
    · have : ¬ (10 : K) < 0 := by norm_num
      have h2 : min x 10 = x := min_eq_left (by linarith [show (0 : K) < 10 by norm_num])
      rw [h2, max_eq_left hx.le]
      simp [XVal.lt, hx, this]
    · push_neg at hx
      by_cases hx' : (10 : K) < x
      · rw [min_eq_right hx'.le, max_eq_right (by norm_num)]
        simp [XVal.lt, hx', not_lt.2 hx]
      · push_neg at hx'
        rw [min_eq_left hx', max_eq_right hx]
        simp [XVal.lt, not_lt.2 hx, not_lt.2 hx']
  unfold el4004
  simp only [hv]
  have hy0 : (0 : K) ≤ limited x * (32767 / 10) := by positivity
  have hy1 : limited x * (32767 / 10) ≤ (32767 : K) := by linarith
  rw [if_pos hy0]
  have f0 : 0 ≤ ⌊limited x * (32767 / 10 : K)⌋ := Int.floor_nonneg.2 hy0
  have f1 : ⌊limited x * (32767 / 10 : K)⌋ ≤ 32767 := by
    have : ((⌊limited x * (32767 / 10 : K)⌋ : Int) : K) ≤ ((32767 : Int) : K) := le_trans (Int.floor_le _) (by exact_mod_cast hy1)
    exact Int.cast_le.1 this
  rw [if_pos ⟨by omega, f1⟩]

/-- The analog output terminal: for every voltage, also outside of the range, the raw value is between 0 and 32767 and is less than one step below the
limited voltage. -/
theorem el4004_raw (x : K) : ∃ r, el4004 (.fin x) = some r ∧ 0 ≤ r ∧ r ≤ 32767 ∧
    0 ≤ limited x - r / (32767 / 10) ∧ limited x - r / (32767 / 10) < 1 / (32767 / 10) := by
  have h0 : (0 : K) ≤ limited x := le_max_left _ _
  have h10 : limited x ≤ (10 : K) := max_le (by norm_num) (min_le_right _ _)
  have hy0 : (0 : K) ≤ limited x * (32767 / 10) := by positivity
  have hy1 : limited x * (32767 / 10) ≤ (32767 : K) := by linarith
  refine ⟨_, el4004_fin x, Int.floor_nonneg.2 hy0, ?_, ?_, ?_⟩
  · have : ((⌊limited x * (32767 / 10 : K)⌋ : Int) : K) ≤ ((32767 : Int) : K) := le_trans (Int.floor_le _) (by exact_mod_cast hy1)
    exact Int.cast_le.1 this
  · have := Int.floor_le (limited x * (32767 / 10 : K))
    rw [sub_nonneg, div_le_iff₀ (by norm_num)]
    exact this
  · have := Int.lt_floor_add_one (limited x * (32767 / 10 : K))
    rw [sub_lt_iff_lt_add, ← add_div, lt_div_iff₀ (by norm_num)]
    linarith

example : ∃ r, el4004 (.fin (37/10 : ℚ)) = some r ∧ 0 ≤ r ∧ r ≤ 32767 := by
  obtain ⟨r, h, h1, h2, -⟩ := el4004_raw (37/10 : ℚ)
  exact ⟨r, h, h1, h2⟩

/-- Infinite values are limited too. -/
theorem el4004_infinite : el4004 (.pinf : XVal K) = some 32767 ∧ el4004 (.ninf : XVal K) = some 0 := by
  have a := el4004_fin (10 : K)
  have b := el4004_fin (0 : K)
  have la : limited (10 : K) = 10 := by norm_num [limited]
  have lb : limited (0 : K) = 0 := by norm_num [limited]
  rw [la] at a; rw [lb] at b
  have e : ⌊(10 : K) * (32767 / 10)⌋ = 32767 := by
    rw [show (10 : K) * (32767 / 10) = ((32767 : Int) : K) by norm_num]; exact Int.floor_intCast _
  rw [e] at a
  simp only [zero_mul, Int.floor_zero] at b
  constructor
  · rw [← a]
    have h1 : ¬ (10 : K) < 0 := by norm_num
    simp only [el4004, XVal.lt, Bool.false_eq_true, if_false, if_true, h1, decide_false, lt_irrefl]
  · rw [← b]
    have h1 : ¬ (10 : K) < 0 := by norm_num
    simp only [el4004, XVal.lt, Bool.false_eq_true, if_false, if_true, h1, decide_false, lt_irrefl]

/-- Violation: NaN passes both comparisons and the conversion is undefined. -/
theorem el4004_nan_violated : el4004 (.nan : XVal K) = none := by simp [el4004, XVal.lt]

/-- Wired to an analog input terminal: the value read is never above the limited voltage and less than two steps below it. -/
theorem analog_roundtrip (x : K) (r : Int) (h : el4004 (.fin x) = some r) :
    (el3004 r : K) ≤ limited x ∧ limited x - el3004 r < 2 / (32768 / 10) := by
  obtain ⟨r', hr', h0, h1, h2, h3⟩ := el4004_raw x
  rw [h] at hr'
  obtain rfl := Option.some.inj hr'
  have hl : limited x ≤ (10 : K) := max_le (by norm_num) (min_le_right _ _)
  have h0' : (0 : K) ≤ r := by exact_mod_cast h0
  have e2 : (r : K) ≤ limited x * (32767 / 10) := by
    rwa [sub_nonneg, div_le_iff₀ (by norm_num)] at h2
  have e3 : limited x * (32767 / 10) < r + 1 := by
    rw [sub_lt_iff_lt_add, ← add_div, lt_div_iff₀ (by norm_num)] at h3
    linarith
  unfold el3004
  constructor
  · rw [div_le_iff₀ (by norm_num)]
    have : (0 : K) ≤ limited x := le_max_left _ _
    linarith
  · rw [sub_lt_iff_lt_add, ← add_div, lt_div_iff₀ (by norm_num)]
    linarith

/-- Violation: the two terminals use different scales (3276.7 and 3276.8 per volt): no positive voltage comes back exactly. -/
theorem analog_scale_violated (x : K) (hx : 0 < x) (r : Int) (h : el4004 (.fin x) = some r) : (el3004 r : K) < limited x := by
  obtain ⟨r', hr', h0, h1, h2, h3⟩ := el4004_raw x
  rw [h] at hr'
  obtain rfl := Option.some.inj hr'
  have hl : (0 : K) < limited x := lt_of_lt_of_le (lt_min hx (by norm_num)) (le_max_right _ _)
  have e2 : (r : K) ≤ limited x * (32767 / 10) := by
    rwa [sub_nonneg, div_le_iff₀ (by norm_num)] at h2
  unfold el3004
  rw [div_lt_iff₀ (by norm_num)]
  linarith

example : el4004 (.fin (5 : ℚ)) = some 16383 ∧ (el3004 16383 : ℚ) < 5 := by
  constructor
  · rw [el4004_fin]
    have : limited (5 : ℚ) = 5 := by norm_num [limited]
    rw [this]
    norm_num
  · norm_num [el3004]

/-- All four channels are written when all inputs are connected and none is NaN. -/
theorem el4004_all (inp : Nat → Option (XVal K)) (l : List Nat) (h : ∀ i ∈ l, ∃ v, inp i = some v ∧ v ≠ .nan) :
    (el4004Run inp l).2 = .ok ∧ (el4004Run inp l).1.map Prod.fst = l ∧
    ∀ p ∈ (el4004Run inp l).1, ∃ v, inp p.1 = some v ∧ el4004 v = some p.2 := by
  induction l with
  | nil => simp [el4004Run]
  | cons i l ih =>
    obtain ⟨v, hv, hn⟩ := h i List.mem_cons_self
    obtain ⟨h1, h2, h3⟩ := ih (fun j hj => h j (List.mem_cons_of_mem _ hj))
    have : ∃ r, el4004 v = some r := by
      cases v with
      | fin x => exact ⟨_, el4004_fin x⟩
      | pinf => exact ⟨_, el4004_infinite.1⟩
      | ninf => exact ⟨_, el4004_infinite.2⟩
      | nan => exact absurd rfl hn
    obtain ⟨r, hr⟩ := this
    simp only [el4004Run, hv, hr]
    refine ⟨h1, by simp [h2], fun p hp => ?_⟩
    rcases List.mem_cons.1 hp with rfl | hp
    · exact ⟨v, hv, hr⟩
    · exact h3 p hp

example : ∀ i ∈ [0, 1, 2, 3], ∃ v, (fun i : Nat => some (XVal.fin (i : ℚ))) i = some v ∧ v ≠ .nan := by
  intro i _; exact ⟨_, rfl, by simp⟩

/-- Violation: when a later input is not connected, the channels before it have been written already. -/
theorem el4004_partly_violated (inp : Nat → Option (XVal K)) (a b : List Nat) (i : Nat) (ha : ∀ j ∈ a, ∃ v, inp j = some v ∧ v ≠ .nan) (hi : inp i = none) :
    (el4004Run inp (a ++ i :: b)).2 = .fault ∧ (el4004Run inp (a ++ i :: b)).1.map Prod.fst = a := by
  induction a with
  | nil => simp [el4004Run, hi]
  | cons j a ih =>
    obtain ⟨v, hv, hn⟩ := ha j List.mem_cons_self
    obtain ⟨h1, h2⟩ := ih (fun k hk => ha k (List.mem_cons_of_mem _ hk))
    have : ∃ r, el4004 v = some r := by
      cases v with
      | fin x => exact ⟨_, el4004_fin x⟩
      | pinf => exact ⟨_, el4004_infinite.1⟩
      | ninf => exact ⟨_, el4004_infinite.2⟩
      | nan => exact absurd rfl hn
    obtain ⟨r, hr⟩ := this
    simp only [List.cons_append, el4004Run, hv, hr]
    exact ⟨h1, by simp [h2]⟩

example : let inp : Nat → Option (XVal ℚ) := fun i => if i = 2 then none else some (.fin 1)
    (∀ j ∈ [0, 1], ∃ v, inp j = some v ∧ v ≠ .nan) ∧ inp 2 = none := by
  intro inp
  refine ⟨fun j hj => ⟨.fin 1, ?_, by simp⟩, rfl⟩
  simp only [List.mem_cons, List.not_mem_nil, or_false] at hj
  rcases hj with rfl | rfl <;> rfl

/-! ### Elmo drive -/

/-- Specification: the target which belongs to a mode. -/
def target (m : Mode) (i : Inputs) : Option Call :=
  match m with
  | .position => i.position.map .setTargetPosition
  | .velocity => i.velocity.map .setTargetVelocity
  | .torque => i.torque.map .setTargetTorque
  | .other => none

/-- With the inputs connected exactly the target of the mode of the drive and the torque limit are sent; in the other modes nothing is sent. -/
theorem elmo_sends (m : Mode) (i : Inputs) (t : Call) (max : Int) (ht : target m i = some t) (hm : i.torqueMax = some max) :
    elmo m i = ([t, .setMaximumTorque max], true) := by
  cases m <;> simp only [target, elmo] at ht ⊢ <;> first | (rw [ht, hm]; rfl) | cases ht

theorem elmo_other (i : Inputs) : elmo .other i = ([], true) := rfl

example : target .velocity ⟨none, some 500, none, some 100⟩ = some (.setTargetVelocity 500) := rfl

/-- Without the target input nothing is sent and a fault is raised. -/
theorem elmo_no_target (m : Mode) (i : Inputs) (h : m ≠ .other) (ht : target m i = none) : elmo m i = ([], false) := by
  cases m <;> simp_all [target, elmo, send]

example : target .torque ⟨some 1, some 500, none, some 100⟩ = none := rfl

/-- Violation: the target is sent before the torque limit: without the limit the drive has got a new target when the fault is raised. -/
theorem elmo_no_limit_violated (m : Mode) (i : Inputs) (t : Call) (ht : target m i = some t) (hm : i.torqueMax = none) : elmo m i = ([t], false) := by
  cases m <;> simp only [target, elmo] at ht ⊢ <;> first | (rw [ht, hm]; rfl) | cases ht

example : elmo .position ⟨some 1000, none, none, none⟩ = ([.setTargetPosition 1000], false) := by decide

end Verif.Control.EtherCat
