/-
Model of `config::Config` and `config::FileConfig` (`/repo/src/config/Config.cpp`, `/repo/includes/eeros/config/FileConfig.hpp`).

Modelled: properties of all types (`int`, `double`, `std::string`, arrays of `int` and `double`), and the text of a file as a list of characters.  Not modelled: the file system;
here the properties of a configuration are given as a list in any order; `add` is in `Add.lean`.
-/
import Verif.Config.DoubleText

namespace Verif.Config

/-- Value of a property. -/
inductive Val where
  | int (v : Int)
  | str (s : List Char)
  /-- `std::size_t length, int *start, int *end, int defaultValue` (38): the elements and the default value. -/
  | arr (l : List Int) (dflt : Int)
  | dbl (v : XVal ℚ)
  /-- the same for `double` (70) -/
  | darr (l : List (XVal ℚ)) (dflt : XVal ℚ)
deriving DecidableEq

/-- A configuration: names and values of the properties. -/
abbrev Props := List (List Char × Val)

/-- The setters for an array (47-54, 79-86), with the text `f` of an element. -/
def arrText {α : Type} (f : α → List Char) : List α → List Char
  | [] => []
  | [v] => f v
  | v :: w :: l => f v ++ ',' :: ' ' :: arrText f (w :: l)

/-- The accessor `set` (14-16, 29-31, 47-54, 79-86, 108-110). -/
def text : Val → List Char
  | .int v => intText v
  | .str s => s
  | .arr l _ => arrText intText l
  | .dbl v => toString6 v
  | .darr l _ => arrText stream6 l

/-- The loop 59-62, 91-94: `old` are the elements from index `i` on; `rd` reads an element. -/
def readArr {α : Type} (rd : List Char → Except Err α) : List (List Char) → List α → Except Err (List α × List α)
  | [], old => .ok ([], old)
  | el :: els, old => do
    let v ← rd el
    match old with
    | [] => .error .outOfBounds
    | _ :: old =>
      let (new, rest) ← readArr rd els old
      .ok (v :: new, rest)

/-- The accessor `get` (17-19, 32-34, 55-66, 87-98, 111-114). -/
def parse (old : Val) (s : List Char) : Except Err Val :=
  match old with
  | .int _ => do
    let v ← stoi s
    .ok (.int v)
  | .str _ => .ok (.str (if 0 < s.length then s.drop 1 else []))
  | .arr l d => do
    let (new, rest) ← readArr stoi (getlines ',' s) l
    .ok (.arr (new ++ rest.map fun _ => d) d)
  | .dbl _ => do
    let v ← stod s
    .ok (.dbl v)
  | .darr l d => do
    let (new, rest) ← readArr stod (getlines ',' s) l
    .ok (.darr (new ++ rest.map fun _ => d) d)

/-- `FileConfig::save` (`FileConfig.hpp` 35-49): the text of the file. -/
def save (ps : Props) : List Char := ps.flatMap fun p => p.1 ++ [' ', '=', ' '] ++ text p.2 ++ ['\n']

/-- `FileConfig.hpp` 63-66: key and value of a line.  `iss >> key >> val` skips white space and reads up to white space; a stream at its end fails, and leaves the
string unchanged, in `>>` and in `getline`. -/
def splitLine (line : List Char) : List Char × List Char :=
  let s := line.dropWhile isSpace
  let key := s.takeWhile fun c => !isSpace c
  let s := (s.dropWhile fun c => !isSpace c).dropWhile isSpace
  let val := s.takeWhile fun c => !isSpace c
  let rest := s.dropWhile fun c => !isSpace c
  (key, if rest.isEmpty then val else rest)

/-- Writes a property through its accessor. -/
def assign (key val : List Char) : Props → Except Err Props
  | [] => .ok []
  | (n, v) :: ps =>
    if n = key then do
      let v ← parse v val
      .ok ((n, v) :: ps)
    else do
      let ps ← assign key val ps
      .ok ((n, v) :: ps)

/-- `FileConfig::load` (56-75) of a file with this text. -/
def load (file : List Char) (ps : Props) : Except Err Props :=
  (getlines '\n' file).foldlM (fun ps line => assign (splitLine line).1 (splitLine line).2 ps) ps

end Verif.Config
