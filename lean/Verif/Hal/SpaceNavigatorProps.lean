import Verif.Hal.SpaceNavigator
import Mathlib.Tactic.IntervalCases
namespace Verif.Hal.SpaceNavigator

/-! ### Specification: the packet protocol described in the comment SpaceNavigator.cpp:52-88 -/

inductive Packet where
  | motion (x y z rx ry rz : Int)
  | buttons (left right : Bool)

/-- Low and high byte of a 16 bit two's complement number. -/
def low (v : Int) : Byte := BitVec.ofInt 8 v
def high (v : Int) : Byte := BitVec.ofInt 8 (v / 256)

def Packet.bytes : Packet → List Byte
  | .motion x y z rx ry rz =>
    [1, low x, high x, low y, high y, low z, high z, 2, low rx, high rx, low ry, high ry, low rz, high rz]
  | .buttons l r => [3, (if l then 1 else 0) + (if r then 2 else 0), 0]

def Packet.inRange : Packet → Prop
  | .motion x y z rx ry rz => ∀ v ∈ [x, y, z, rx, ry, rz], -32768 ≤ v ∧ v ≤ 32767
  | .buttons _ _ => True

/-- The last motion and the last button state in a list of packets. -/
def lastMotion : List Packet → Option (Int × Int × Int × Int × Int × Int)
  | [] => none
  | .motion x y z rx ry rz :: ps => (lastMotion ps).or (some (x, y, z, rx, ry, rz))
  | .buttons _ _ :: ps => lastMotion ps

def lastButtons : List Packet → Option (Bool × Bool)
  | [] => none
  | .buttons l r :: ps => (lastButtons ps).or (some (l, r))
  | .motion .. :: ps => lastButtons ps

/-- The last value of a button or axis code in a list of events (event mode; oldest event first). -/
def lastValue (sel : Ev → Bool) : List Ev → Option Int
  | [] => none
  | e :: es => (lastValue sel es).or (if sel e then some e.value else none)

def isButton (n : Nat) (e : Ev) : Bool := e.type == 1 && e.code == 256 + n
def isAxis (n : Nat) (e : Ev) : Bool := (e.type == 2 || e.type == 3) && e.code == n

/-! ### C89 -/

theorem decode_bv (w : BitVec 16) : decode (w.setWidth 8) ((w >>> 8).setWidth 8) = w.toInt := by
  have h : (((((((w >>> 8).setWidth 8 : Byte).zeroExtend 32 <<< 8) &&& 0xff00#32).truncate 16).signExtend 32) |||
      ((w.setWidth 8 : Byte).zeroExtend 32 &&& 0xff#32)) = w.signExtend 32 := by
    apply BitVec.eq_of_getLsbD_eq
    intro i hi
    interval_cases i <;> simp [BitVec.getElem_signExtend, BitVec.msb_eq_getLsbD_last]
  show BitVec.toInt _ = _
  rw [h, BitVec.toInt_signExtend_of_le (by decide)]

/-- Two's complement, low byte first. -/
theorem decode_low_high (v : Int) (h1 : -32768 ≤ v) (h2 : v ≤ 32767) : decode (low v) (high v) = v := by
  have hl : low v = (BitVec.ofInt 16 v).setWidth 8 := by
    apply BitVec.eq_of_toNat_eq
    simp [low, BitVec.toNat_ofInt]; omega
  have hh : high v = ((BitVec.ofInt 16 v) >>> 8).setWidth 8 := by
    apply BitVec.eq_of_toNat_eq
    simp [high, BitVec.toNat_ofInt, Nat.shiftRight_eq_div_pow]; omega
  rw [hl, hh, decode_bv, BitVec.toInt_ofInt]
  simp [Int.bmod]; omega

example : decode 0xa2 0xfe = -350 := by decide +kernel

theorem parse_motion (s : St) (buf : Nat → Byte) (x y z rx ry rz : Int) (rest : List Byte)
    (h : (Packet.motion x y z rx ry rz).inRange) :
    ∃ buf', parse s buf ((Packet.motion x y z rx ry rz).bytes ++ rest) =
      parse { s with
        axis := fun i => if i = 0 then x else if i = 1 then y else if i = 2 then z else s.axis i
        rot := fun i => if i = 0 then some rx else if i = 1 then some ry else if i = 2 then some rz else s.rot i } buf' rest := by
  simp only [Packet.inRange, List.mem_cons, List.not_mem_nil, or_false, forall_eq_or_imp, forall_eq] at h
  obtain ⟨⟨a1, a2⟩, ⟨b1, b2⟩, ⟨c1, c2⟩, ⟨d1, d2⟩, ⟨e1, e2⟩, f1, f2⟩ := h
  rw [Packet.bytes, List.cons_append, parse]
  simp only [if_true]
  refine ⟨_, congrArg (fun t => parse t _ _) ?_⟩
  simp [motion, fill, decode_low_high, *]

theorem parse_buttons (s : St) (buf : Nat → Byte) (l r : Bool) (rest : List Byte) :
    ∃ buf', parse s buf ((Packet.buttons l r).bytes ++ rest) = parse { s with left := l, right := r } buf' rest := by
  rw [Packet.bytes, List.cons_append, parse]
  simp only
  rw [if_neg (by decide), if_pos trivial]
  refine ⟨_, congrArg (fun t => parse t _ _) ?_⟩
  cases l <;> cases r <;> simp [buttons, fill]

/-- C89: whatever was shown before, after a stream of complete packets the axes, the rotations and the buttons are those of the last
motion packet and of the last button packet. -/
theorem stream_partial (s : St) (buf : Nat → Byte) (ps : List Packet) (h : ∀ p ∈ ps, p.inRange) :
    let t := parse s buf (ps.flatMap Packet.bytes)
    (t.left, t.right) = (lastButtons ps).getD (s.left, s.right) ∧
    (t.axis 0, t.axis 1, t.axis 2, t.rot 0, t.rot 1, t.rot 2) =
      match lastMotion ps with
      | some (x, y, z, rx, ry, rz) => (x, y, z, some rx, some ry, some rz)
      | none => (s.axis 0, s.axis 1, s.axis 2, s.rot 0, s.rot 1, s.rot 2) := by
  induction ps generalizing s buf with
  | nil => simp [parse, lastButtons, lastMotion]
  | cons p ps ih =>
    have hp := h p (by simp)
    have ht : ∀ q ∈ ps, q.inRange := fun q hq => h q (by simp [hq])
    rw [List.flatMap_cons]
    cases p with
    | motion x y z rx ry rz =>
      obtain ⟨b, hb⟩ := parse_motion s buf x y z rx ry rz (ps.flatMap Packet.bytes) hp
      rw [hb]
      have := ih { s with
        axis := fun i => if i = 0 then x else if i = 1 then y else if i = 2 then z else s.axis i
        rot := fun i => if i = 0 then some rx else if i = 1 then some ry else if i = 2 then some rz else s.rot i } b ht
      refine ⟨this.1, ?_⟩
      rw [this.2]
      cases hm : lastMotion ps <;> simp [lastMotion, hm]
    | buttons l r =>
      obtain ⟨b, hb⟩ := parse_buttons s buf l r (ps.flatMap Packet.bytes)
      rw [hb]
      have := ih { s with left := l, right := r } b ht
      refine ⟨?_, this.2⟩
      rw [this.1]
      cases hm : lastButtons ps <;> simp [lastButtons, hm]

example : ∀ p ∈ [Packet.motion 1 (-1) 350 (-350) 0 3, .buttons true false], p.inRange := by simp [Packet.inRange]

/-- C89: bytes which start no packet are skipped. -/
theorem garbage_skipped (s : St) (buf : Nat → Byte) (g rest : List Byte) (h : ∀ c ∈ g, c ≠ 1 ∧ c ≠ 3) :
    ∃ buf', parse s buf (g ++ rest) = parse s buf' rest := by
  induction g generalizing buf with
  | nil => exact ⟨buf, rfl⟩
  | cons c g ih =>
    have hc := h c (by simp)
    obtain ⟨b, hb⟩ := ih (fun i => if i = 0 then c else buf i) (fun d hd => h d (by simp [hd]))
    refine ⟨b, ?_⟩
    rw [List.cons_append, parse]
    simp only [hc.1, hc.2, if_false]
    exact hb

example : ∀ c ∈ ([0, 2, 0xff] : List Byte), c ≠ 1 ∧ c ≠ 3 := by decide

/-- C89 does not hold when the stream ends inside a packet: the number of bytes read is not checked (101, 110), and the rest comes from
the packet before.  A motion packet with low byte 1, then the first byte of a button packet which announces that both buttons are
released: the left button shows as pressed. -/
theorem truncated_violated (s : St) (buf : Nat → Byte) (y z rx ry rz : Int) :
    (parse s buf ((Packet.motion 1 y z rx ry rz).bytes ++ (Packet.buttons false false).bytes.take 1)).left = true := by
  rw [Packet.bytes, List.cons_append, parse]
  simp only [if_true]
  simp [Packet.bytes, parse, fill, buttons, low]

example : (Packet.motion 1 0 0 0 0 0).inRange ∧ lastButtons [.motion 1 0 0 0 0 0, .buttons false false] = some (false, false) := by
  simp [Packet.inRange, lastButtons]

/-- C89 does not hold for a reader which starts inside a packet: the remaining bytes of a motion packet are taken for a button packet
when one of them is 3. -/
theorem midway_violated (s : St) (buf : Nat → Byte) (x y z rx ry : Int) :
    (parse s buf ((Packet.motion x y z rx ry 0x0103).bytes.drop 12)).left = true := by
  have : (Packet.motion x y z rx ry 0x0103).bytes.drop 12 = [3, 1] := by simp [Packet.bytes, low, high]
  rw [this]
  simp [parse, fill, buttons]

theorem event_one (s : St) (e : Ev) (i : Nat) (hi : i < 3) :
    (event s e).axis i = (if isAxis i e then e.value else s.axis i) ∧
    (event s e).rot i = (if isAxis (i + 3) e then some e.value else s.rot i) ∧
    (event s e).left = (if isButton 0 e then decide (e.value ≠ 0) else s.left) ∧
    (event s e).right = (if isButton 1 e then decide (e.value ≠ 0) else s.right) := by
  obtain ⟨ty, co, v⟩ := e
  simp only [isAxis, isButton, event, Bool.and_eq_true, Bool.or_eq_true, beq_iff_eq]
  by_cases t1 : ty = 1
  · subst t1
    by_cases c6 : co = 256
    · subst c6; simp
    · by_cases c7 : co = 257
      · subst c7; simp
      · simp [c6, c7]
  · by_cases t2 : ty = 2 ∨ ty = 3
    · simp only [t1, t2, if_true, if_false, true_and, false_and]
      by_cases c3 : co < 3
      · have : ¬ co = i + 3 := by omega
        simp [c3, this, eq_comm]
      · have h0 : ¬ co = i := by omega
        by_cases c6 : co < 6
        · have : i = co - 3 ↔ co = i + 3 := by omega
          simp [c3, c6, h0, this]
        · have : ¬ co = i + 3 := by omega
          simp [c3, c6, h0, this]
    · simp [t1, t2]

/-- C89, event mode: buttons and axes show the value of the last event with their code. -/
theorem events (s : St) (es : List Ev) (i : Nat) (hi : i < 3) :
    let t := es.foldl event s
    t.axis i = (lastValue (isAxis i) es).getD (s.axis i) ∧
    t.rot i = (lastValue (isAxis (i + 3)) es).or (s.rot i) ∧
    t.left = ((lastValue (isButton 0) es).map (fun v => decide (v ≠ 0))).getD s.left ∧
    t.right = ((lastValue (isButton 1) es).map (fun v => decide (v ≠ 0))).getD s.right := by
  induction es generalizing s with
  | nil => simp [lastValue]
  | cons e es ih =>
    obtain ⟨h1, h2, h3, h4⟩ := ih (event s e)
    simp only [List.foldl_cons]
    rw [h1, h2, h3, h4]
    obtain ⟨e1, e2, e3, e4⟩ := event_one s e i hi
    rw [e1, e2, e3, e4]
    simp only [lastValue]
    refine ⟨?_, ?_, ?_, ?_⟩
    · cases lastValue (isAxis i) es <;> cases isAxis i e <;> simp
    · cases lastValue (isAxis (i + 3)) es <;> cases isAxis (i + 3) e <;> simp
    · cases lastValue (isButton 0) es <;> cases isButton 0 e <;> simp
    · cases lastValue (isButton 1) es <;> cases isButton 1 e <;> simp

example : lastValue (isAxis 4) [⟨2, 4, 7⟩, ⟨3, 4, -9⟩, ⟨1, 4, 1⟩] = some (-9) := by decide

/-- C89, from the constructor on, event mode: what had no event yet is 0 or not pressed, a rotation without event has no value at all. -/
theorem events_fresh (es : List Ev) (i : Nat) (hi : i < 3) :
    let t := es.foldl event init
    t.axis i = (lastValue (isAxis i) es).getD 0 ∧ t.rot i = lastValue (isAxis (i + 3)) es ∧
    (t.left = true ↔ ∃ v, lastValue (isButton 0) es = some v ∧ v ≠ 0) ∧ (t.right = true ↔ ∃ v, lastValue (isButton 1) es = some v ∧ v ≠ 0) := by
  obtain ⟨h1, h2, h3, h4⟩ := events init es i hi
  refine ⟨by rw [h1]; rfl, by rw [h2]; simp [init], ?_, ?_⟩
  · rw [h3]; cases lastValue (isButton 0) es <;> simp [init]
  · rw [h4]; cases lastValue (isButton 1) es <;> simp [init]

/-- C89, violated: before the first motion packet the rotations are not initialised, whatever buttons are pressed; the other axes are 0. -/
theorem rotation_unset_violated (buf : Nat → Byte) (bs : List (Bool × Bool)) :
    let t := parse init buf ((bs.map fun b => Packet.buttons b.1 b.2).flatMap Packet.bytes)
    (t.axis 0, t.axis 1, t.axis 2, t.rot 0, t.rot 1, t.rot 2) = (0, 0, 0, none, none, none) ∧ (t.left, t.right) = bs.getLast?.getD (false, false) := by
  have h := stream_partial init buf (bs.map fun b => Packet.buttons b.1 b.2) (by
    intro p hp
    obtain ⟨b, -, rfl⟩ := List.mem_map.1 hp
    trivial)
  have hm : lastMotion (bs.map fun b => Packet.buttons b.1 b.2) = none := by
    clear h
    induction bs with
    | nil => rfl
    | cons b bs ih => exact ih
  have hb : lastButtons (bs.map fun b => Packet.buttons b.1 b.2) = bs.getLast? := by
    clear h hm
    induction bs with
    | nil => rfl
    | cons b bs ih =>
      rw [List.map_cons, lastButtons, ih, List.getLast?_cons]
      cases bs.getLast? <;> rfl
  rw [hm, hb] at h
  exact ⟨h.2, h.1⟩

example : let t := [⟨1, 256, 1⟩, ⟨2, 4, 7⟩].foldl event init; t.left = true ∧ t.right = false ∧ t.axis 1 = 0 ∧ t.rot 1 = some 7 ∧ t.rot 0 = none := by decide

end Verif.Hal.SpaceNavigator
