/-!
Model of `HAL::readConfigFromFile(int* argc, char** argv)` (src/hal/HAL.cpp:23-64): which configuration file is read.

`getopt` is a function of the C library; the model is that of GNU for the options `"c:"` (operands are skipped, `--` ends the options, an argument may
follow in the same or in the next element).  An argument is a list of bytes.
-/
namespace Verif.Hal.HalArgs

/-- The bytes of an argument without the terminating zero. -/
abbrev Arg := List Nat

/-- Bytes of an ASCII text. -/
def bytes (s : String) : Arg := s.toList.map Char.toNat

/-- The rest of an element which begins with `-`: `rest` are the following elements, `p` is the path found so far (lines 38-46); the result is the path
and the elements which remain.  99 is `c`. -/
def letters : Arg → List Arg → Option Arg → Option Arg × List Arg
  | [], rest, p => (p, rest)
  | [c], rest, p =>
    if c = 99 then
      match rest with
      | [] => (p, [])
      | a :: rest => (some a, rest)
    else (p, rest)
  | c :: d :: cs, rest, p => if c = 99 then (some (d :: cs), rest) else letters (d :: cs) rest p

theorem letters_length (a : Arg) (rest : List Arg) (p : Option Arg) : (letters a rest p).2.length ≤ rest.length := by
  induction a with
  | nil => simp [letters]
  | cons c cs ih =>
    cases cs with
    | nil =>
      simp only [letters]
      split
      · cases rest <;> simp
      · simp
    | cons d cs =>
      simp only [letters]
      split
      · simp
      · exact ih

/-- The loop 36-58 over the elements; 45 is `-`. -/
def getopt (args : List Arg) (p : Option Arg) : Option Arg :=
  match args with
  | [] => p
  | a :: rest =>
    if a.head? = some 45 ∧ a.tail ≠ [] then
      if a.tail = [45] then p
      else
        have : (letters a.tail rest p).2.length < rest.length + 1 := Nat.lt_succ_of_le (letters_length _ _ _)
        getopt (letters a.tail rest p).2 (letters a.tail rest p).1
    else getopt rest p
termination_by args.length

/-- How the call ends. -/
inductive Outcome where
  /-- `Fault`, line 24 -/
  | fault
  /-- the file with this path is parsed (61-62) and the call returns true -/
  | parsed (path : Arg)
  /-- the call returns true (`return -1`, line 31) without reading a file -/
  | nothing
deriving DecidableEq, Repr

/-- The value of the `char` with byte `b`. -/
def charVal (signed : Bool) (b : Nat) : Int := if signed && b ≥ 128 then (b : Int) - 256 else b

/-- Line 29; a byte beyond the end is the terminating zero (or not read). -/
def enDash (signed : Bool) (a : Arg) : Bool :=
  charVal signed (a.getD 0 0) = 226 && charVal signed (a.getD 1 0) = 128 && charVal signed (a.getD 2 0) = 147

/-- The function.  `signed`: `char` is a signed type (x86); `again`: `getopt` has been through the arguments before, by an earlier call (`optind` keeps
its value). -/
def readConfig (signed again : Bool) (argv : List Arg) : Outcome :=
  if argv.length < 3 then .fault
  else if argv.any (enDash signed) then .nothing
  else .parsed ((if again then none else getopt ((argv.drop 1).take 2) none).getD [])

end Verif.Hal.HalArgs
