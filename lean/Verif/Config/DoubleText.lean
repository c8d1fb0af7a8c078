/-
Reading and writing of floating point numbers, as used by `config::Config` for properties of type `double` (`/repo/src/config/Config.cpp` 30, 33, 83, 92).

A finite `double` is a rational number; the sign of a zero is left out.  Reading rounds to the nearest double (`Common/Round.lean`).
Left out: hexadecimal numbers, and upper case letters in "inf" and "nan".  `std::stod` throws if the result is too large, or too small to be a normal number (glibc
reports this for a number which is not exact; a decimal number of this size with few digits never is).
-/
import Verif.Config.Text
import Verif.Common.Round
import Verif.Common.XVal

namespace Verif.Config

open Verif.Common.Round (nearest rnd)

/-- The last `k` decimal digits of `n`, with leading zeros. -/
def pad : Nat → Nat → List Char
  | 0, _ => []
  | k + 1, n => pad k (n / 10) ++ [digitChar (n % 10)]

/-- `printf("%f")`: six decimals, rounded to nearest. -/
def fixedText (x : ℚ) : List Char :=
  let m := (nearest (|x| * 10 ^ 6)).toNat
  (if x < 0 then ['-'] else []) ++ natText (m / 10 ^ 6) ++ '.' :: pad 6 (m % 10 ^ 6)

/-- A number in `[10^5, 10^6)` and an exponent: six significant digits of a positive number. -/
def sixDigits (x : ℚ) : Nat × Int :=
  let e := Int.log 10 x
  let m := (nearest (x / 10 ^ (e - 5))).toNat
  if m = 10 ^ 6 then (10 ^ 5, e + 1) else (m, e)

/-- A fraction without zeros at its end, and without the point if nothing is left. -/
def stripFrac (fp : List Char) : List Char :=
  let r := (fp.reverse.dropWhile (· = '0')).reverse
  if r.isEmpty then [] else '.' :: r

/-- The exponent: sign and at least two digits. -/
def expText (e : Int) : List Char := 'e' :: (if e < 0 then '-' else '+') :: (if e.natAbs < 100 then pad 2 e.natAbs else natText e.natAbs)

/-- `printf("%g")` of a positive number. -/
def generalPos (x : ℚ) : List Char :=
  let (m, e) := sixDigits x
  if -4 ≤ e ∧ e < 6 then
    let k := (5 - e).toNat
    natText (m / 10 ^ k) ++ stripFrac (pad k (m % 10 ^ k))
  else natText (m / 10 ^ 5) ++ stripFrac (pad 5 (m % 10 ^ 5)) ++ expText e

/-- `printf("%g")`. -/
def generalText (x : ℚ) : List Char :=
  if x = 0 then ['0'] else if x < 0 then '-' :: generalPos (-x) else generalPos x

/-- With the numbers which are not finite. -/
def specialText (f : ℚ → List Char) : XVal ℚ → List Char
  | .fin x => f x
  | .pinf => ['i', 'n', 'f']
  | .ninf => ['-', 'i', 'n', 'f']
  | .nan => ['n', 'a', 'n']

/-- `std::to_string(double)` (30). -/
def toString6 : XVal ℚ → List Char := specialText fixedText

/-- `ss << double` (83). -/
def stream6 : XVal ℚ → List Char := specialText generalText

/-- Value of a sequence of decimal digits. -/
def digitsVal (ds : List Char) : Nat := ds.foldl (fun n c => n * 10 + digitVal c) 0

/-- The exponent at the beginning of a text: a letter, an optional sign, at least one digit; otherwise there is none. -/
def readExp : List Char → Int
  | [] => 0
  | c :: s =>
    if c = 'e' ∨ c = 'E' then
      let p := sign s
      let n := digitsVal (p.2.takeWhile isDigit)
      if p.1 then -(n : Int) else n
    else 0

/-- The digits before and after the point, and what follows. -/
def readDec (s : List Char) : List Char × List Char × List Char :=
  match s.dropWhile isDigit with
  | [] => (s.takeWhile isDigit, [], [])
  | c :: r => if c = '.' then (s.takeWhile isDigit, r.takeWhile isDigit, r.dropWhile isDigit) else (s.takeWhile isDigit, [], c :: r)

/-- The result of reading the number `v`. -/
def toDouble (v : ℚ) : Except Err (XVal ℚ) :=
  if v = 0 then .ok (.fin 0)
  else if 2 ^ 1024 ≤ |rnd v| then .error .range
  else if |v| < 1 / 2 ^ 1022 then .error .range
  else .ok (.fin (rnd v))

/-- `std::stod` after the sign. -/
def stodAbs (neg : Bool) (s : List Char) : Except Err (XVal ℚ) :=
  if ['i', 'n', 'f'].isPrefixOf s then .ok (if neg then .ninf else .pinf)
  else if ['n', 'a', 'n'].isPrefixOf s then .ok .nan
  else
    let (ip, fp, r) := readDec s
    if (ip ++ fp).isEmpty then .error .invalid
    else
      let v : ℚ := digitsVal (ip ++ fp) * 10 ^ (readExp r - fp.length)
      toDouble (if neg then -v else v)

/-- `std::stod` (33, 92): white space, an optional sign, a number; the rest is ignored. -/
def stod (s : List Char) : Except Err (XVal ℚ) :=
  let p := sign (s.dropWhile isSpace)
  stodAbs p.1 p.2

end Verif.Config
