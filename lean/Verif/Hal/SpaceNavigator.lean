/-!
Model of `SpaceNavigator::run` (src/hal/SpaceNavigator.cpp:91-207): the raw mode (95-133) as a reader of a byte stream, and the event
mode (134-206).  The state is read and written without races.
-/
namespace Verif.Hal.SpaceNavigator

abbrev Byte := BitVec 8

/-- `SpaceState`, SpaceNavigator.hpp:16-20.  `none`: not initialised (the constructor, 20-21, does not set `rotAxis`). -/
structure St where
  axis : Nat → Int
  rot : Nat → Option Int
  left : Bool
  right : Bool

/-- Constructor, SpaceNavigator.cpp:20-21. -/
def init : St := ⟨fun _ => 0, fun _ => none, false, false⟩

/-- Line 102 and the like: `(int16_t)(((int16_t)hi<<8)&0xff00) | ((int16_t)lo&0xff)`; the operands are converted to `int`
(32 bits) before the bitwise or. -/
def decode (lo hi : Byte) : Int :=
  let h : BitVec 32 := ((hi.zeroExtend 32 <<< 8) &&& 0xff00#32)
  ((h.truncate 16).signExtend 32 ||| (lo.zeroExtend 32 &&& 0xff#32)).toInt

/-- `fread(readbuff+1, 1, n, file)`: as many bytes as there are, the rest of the buffer keeps its contents. -/
def fill (buf : Nat → Byte) (n : Nat) (bs : List Byte) : Nat → Byte :=
  fun i => if 1 ≤ i ∧ i ≤ n then bs.getD (i - 1) (buf i) else buf i

/-- 102-107. -/
def motion (s : St) (b : Nat → Byte) : St :=
  { s with
    axis := fun i => if i = 0 then decode (b 1) (b 2) else if i = 1 then decode (b 3) (b 4)
                     else if i = 2 then decode (b 5) (b 6) else s.axis i
    rot := fun i => if i = 0 then some (decode (b 8) (b 9)) else if i = 1 then some (decode (b 10) (b 11))
                    else if i = 2 then some (decode (b 12) (b 13)) else s.rot i }

/-- 111-130. -/
def buttons (s : St) (b : Byte) : St :=
  if b = 0 then { s with left := false, right := false }
  else if b = 1 then { s with left := true, right := false }
  else if b = 2 then { s with left := false, right := true }
  else if b = 3 then { s with left := true, right := true }
  else s

/-- The loop 97-133 on the bytes which arrive; `buf` is `readbuff`. -/
def parse (s : St) (buf : Nat → Byte) : List Byte → St
  | [] => s
  | c :: bs =>
    let buf0 : Nat → Byte := fun i => if i = 0 then c else buf i
    if c = 1 then
      let buf1 := fill buf0 13 bs
      parse (motion s buf1) buf1 (bs.drop 13)
    else if c = 3 then
      let buf1 := fill buf0 2 bs
      parse (buttons s (buf1 1)) buf1 (bs.drop 2)
    else parse s buf0 bs
termination_by bs => bs.length
decreasing_by all_goals simp <;> omega

/-- `struct input_event` of the event mode. -/
structure Ev where
  type : Nat
  code : Nat
  value : Int
deriving DecidableEq, Repr

/-- 138-204. -/
def event (s : St) (e : Ev) : St :=
  if e.type = 1 then
    if e.code = 256 then { s with left := decide (e.value ≠ 0) }
    else if e.code = 257 then { s with right := decide (e.value ≠ 0) }
    else s
  else if e.type = 2 ∨ e.type = 3 then
    if e.code < 3 then { s with axis := fun i => if i = e.code then e.value else s.axis i }
    else if e.code < 6 then { s with rot := fun i => if i = e.code - 3 then some e.value else s.rot i }
    else s
  else s

end Verif.Hal.SpaceNavigator
