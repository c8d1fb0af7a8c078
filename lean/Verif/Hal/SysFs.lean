/-!
Model of the digital input and output over the file system of the kernel: src/hal/SysFsDigIn.cpp:6-42, src/hal/SysFsDigOut.cpp:6-49.
The file of a pin contains one digit and a line feed.  Constructors which throw are left out, and so is reading an output.
-/
namespace Verif.Hal.SysFs

/-- Position in the stream of the value file: before the digit, behind it, or failed after reading the end of the file. -/
inductive Pos where
  | start
  | behind
  | failed
deriving DecidableEq, Repr

structure In where
  inverted : Bool
  pos : Pos
deriving DecidableEq, Repr

/-- SysFsDigIn.cpp:6-31.  The constructor does not store its parameter `inverted`; the member holds what was in memory. -/
def In.new (memory : Bool) (_inverted : Bool) : In := ⟨memory, .start⟩

/-- `valueFile >> value`, line 39, where `junk` is the content of the local variable, which has no initial value.  Formatted input
skips white space; if it meets the end of the file it fails without storing a value, and the stream stays in that state. -/
def extract (p : Pos) (level : Bool) (junk : Int) : Int × Pos :=
  match p with
  | .start => (if level then 1 else 0, .behind)
  | .behind => (junk, .failed)
  | .failed => (junk, .failed)

/-- SysFsDigIn.cpp:36-42 -/
def In.get (s : In) (level : Bool) (junk : Int) : Bool × In :=
  let (value, pos) := extract s.pos level junk
  let value := if s.inverted then (if value = 0 then 1 else 0) else value
  (decide (value ≠ 0), { s with pos := pos })

/-- The results of reading while the pin has the given levels; each call finds some content in its local variable. -/
def In.reads (s : In) : List (Bool × Int) → List Bool
  | [] => []
  | (level, junk) :: l => (s.get level junk).1 :: In.reads (s.get level junk).2 l

/-- An output: `buffer` are the characters which the stream has not written to the file yet, `pin` the level. -/
structure Out where
  inverted : Bool
  buffer : List Bool
  pin : Bool
deriving DecidableEq, Repr

/-- SysFsDigOut.cpp:6-31, as above. -/
def Out.new (memory : Bool) (_inverted : Bool) (pin : Bool) : Out := ⟨memory, [], pin⟩

/-- SysFsDigOut.cpp:44-49.  `valueFile << int` appends a digit to the buffer of the stream, which is written when it has `size`
characters (`write`: what the kernel makes of them). -/
def Out.set (size : Nat) (write : List Bool → Bool) (s : Out) (value : Bool) : Out :=
  let value := if s.inverted then !value else value
  let buffer := s.buffer ++ [value]
  if buffer.length < size then { s with buffer := buffer } else { s with buffer := [], pin := write buffer }

end Verif.Hal.SysFs
