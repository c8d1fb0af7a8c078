/-!
Model of the reading of a velocity from an ODrive motor controller over a serial line: `get_vel_from_encoder`,
includes/eeros/hal/ODriveUART.hpp:186-224.

The serial line is the list of the characters which the device sends.  Simplified: `read` of one byte waits until there is a byte and does
not fail; `std::stod` is modelled for texts in which optional white space and an optional sign are followed by decimal digits (no
exponent, hexadecimal number, infinity or NaN), anything after the digits is ignored as by `stod`.
-/
namespace Verif.Hal.ODrive

/-- `size_data`, line 197. -/
def bufferSize : Nat := 100

inductive Read where
  /-- the text in front of the point, what is left on the line -/
  | ok (text rest : List Char)
  /-- a write behind the end of `tmpData` -/
  | overflow
  /-- waits for a byte for ever -/
  | blocked
deriving DecidableEq, Repr

/-- The loop of lines 202-206, with room for `n` more characters. -/
def readPoint : Nat → List Char → Read
  | _, [] => .blocked
  | 0, _ :: _ => .overflow
  | n + 1, c :: l =>
    if c = '.' then .ok [] l
    else match readPoint n l with
      | .ok t r => .ok (c :: t) r
      | x => x

/-- Value of a list of digits, most significant first. -/
def digitsValue (l : List Char) : Nat := l.foldl (fun v c => 10 * v + (c.toNat - '0'.toNat)) 0

/-- `std::stod`; `none`: throws `std::invalid_argument`. -/
def stod (t : List Char) : Option Int :=
  let t := t.dropWhile Char.isWhitespace
  let (neg, t) : Bool × List Char := match t with
    | '-' :: l => (true, l)
    | '+' :: l => (false, l)
    | l => (false, l)
  let d := t.takeWhile Char.isDigit
  if d = [] then none else some (if neg then - (digitsValue d : Int) else digitsValue d)

/-- The loop of lines 218-221: what is left after the carriage return; `none`: waits for ever. -/
def skipReturn : List Char → Option (List Char)
  | [] => none
  | c :: l => if c = '\r' then some l else skipReturn l

inductive Outcome where
  | velocity (v : Int) (rest : List Char)
  /-- `std::stod` throws; nobody catches it, the program is terminated -/
  | exception
  | overflow
  | blocked
deriving DecidableEq, Repr

/-- `get_vel_from_encoder`: the velocity and what is left on the line.  The last `read` (223) gets `got` bytes, at most two. -/
def getVel (got : Nat) (line : List Char) : Outcome :=
  match readPoint bufferSize line with
  | .overflow => .overflow
  | .blocked => .blocked
  | .ok text rest => match stod text with
    | none => .exception
    | some v => match skipReturn rest with
      | none => .blocked
      | some l => .velocity v (l.drop got)

end Verif.Hal.ODrive
