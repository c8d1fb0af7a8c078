/-
Reading and writing of integers, and splitting of text, as used by `config::Config` (`/repo/src/config/Config.cpp` 15, 18, 51, 59, 60).
`int` has 32 bits; the locale is the "C" locale.
-/
import Mathlib.Data.Nat.Digits.Defs

namespace Verif.Config

/-- How a call ends other than normally. -/
inductive Err where
  /-- a write beyond the end of an array -/
  | outOfBounds
  /-- `std::invalid_argument` thrown by `std::stoi` -/
  | invalid
  /-- `std::out_of_range` thrown by `std::stoi` -/
  | range
deriving DecidableEq

/-- `std::isspace` in the "C" locale. -/
def isSpace (c : Char) : Bool := c = ' ' || c = '\t' || c = '\n' || c = '\x0b' || c = '\x0c' || c = '\r'

/-- Value of a digit. -/
def digitVal (c : Char) : Nat := c.toNat - '0'.toNat

/-- Is it a decimal digit? -/
def isDigit (c : Char) : Bool := '0' ≤ c && c ≤ '9'

/-- Decimal digit. -/
def digitChar (d : Nat) : Char := Char.ofNat ('0'.toNat + d)

/-- Decimal representation of a natural number. -/
def natText (n : Nat) : List Char := if n = 0 then ['0'] else (Nat.digits 10 n).reverse.map digitChar

/-- `std::to_string(int)` and `os << int`. -/
def intText (v : Int) : List Char := if v < 0 then '-' :: natText v.natAbs else natText v.natAbs

/-- Is it a value of `int`? -/
def inInt (v : Int) : Bool := -2147483648 ≤ v && v ≤ 2147483647

/-- The optional sign of a number: is it negative, and the rest. -/
def sign (s : List Char) : Bool × List Char :=
  match s with
  | [] => (false, [])
  | c :: r => if c = '-' then (true, r) else if c = '+' then (false, r) else (false, s)

/-- `std::stoi`: white space, an optional sign, at least one digit; the rest is ignored. -/
def stoi (s : List Char) : Except Err Int :=
  let p := sign (s.dropWhile isSpace)
  let ds := p.2.takeWhile isDigit
  if ds.isEmpty then .error .invalid
  else
    let n := ds.foldl (fun n c => n * 10 + digitVal c) 0
    let v : Int := if p.1 then -(n : Int) else n
    if inInt v then .ok v else .error .range

/-- Repeated `std::getline` with a delimiter: the parts between the delimiters; an empty part after the last delimiter is not delivered. -/
def getlines (sep : Char) : List Char → List (List Char)
  | [] => []
  | c :: cs =>
    if c = sep then [] :: getlines sep cs
    else match getlines sep cs with
      | [] => [[c]]
      | l :: ls => (c :: l) :: ls

end Verif.Config
