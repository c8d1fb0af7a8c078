/-
Model of `logger::Logger`, `logger::LogEntry`, `logger::LogWriter` with `StreamLogWriter`, and of `SysLogWriter` (`/repo/includes/eeros/logger/Logger.hpp`,
`LogEntry.hpp`, `LogWriter.hpp`, `/repo/src/logger/StreamLogWriter.cpp`, `SysLogWriter.cpp`).

A program is a sequence of operations on the static logger, on loggers, which are numbered in the order in which they are created, and on log entries, which are numbered
in the order in which they are begun and may live at the same time.  Text is a type `T` of chunks (whatever is inserted with `<<`).  Simplified: a record in the
output consists of level, category and chunks; time stamp, colours and line ends are left out, and so is the log file, to which the same text is written.
Creating a `SysLogWriter` is not possible with the public interface of `Logger`; it is modelled on its own.
-/

namespace Verif.Logger

/-- `enum class LogLevel` (`LogWriter.hpp` 12), most urgent first. -/
inductive Level where
  | fatal | error | warn | info | trace
deriving DecidableEq

/-- The underlying value of the enumeration, which `<=` compares. -/
def Level.val : Level → Nat
  | .fatal => 0 | .error => 1 | .warn => 2 | .info => 3 | .trace => 4

/-- `Logger` (`Logger.hpp` 117-118): pointer to the writer and category. -/
structure Logger where
  w : Option Nat
  category : Nat

/-- `LogEntry` (`LogEntry.hpp` 84-86); `os` is what was written into the stream: the level and category by `begin`, the chunks by `<<`. -/
structure Entry (T : Type) where
  w : Nat
  enable : Bool
  header : Option (Level × Nat)
  os : List T

/-- What a writer puts out at the end of a message (`StreamLogWriter.cpp` 82-88): the writer, the text. -/
structure Record (T : Type) where
  w : Nat
  header : Option (Level × Nat)
  text : List T

/-- Writers (their `visible_level`), the static logger, the loggers, the entries (those which ended are `none`), the output. -/
structure State (T : Type) where
  writers : List Level
  log : Logger
  loggers : List Logger
  entries : List (Option (Entry T))
  out : List (Record T)

/-- `Logger::log = getLogger(0)` (`Logger.cpp` 3): the static object is initialised with itself, its pointer is null. -/
def init {T : Type} : State T := { writers := [], log := ⟨none, 0⟩, loggers := [], entries := [], out := [] }

inductive Op (T : Type) where
  /-- `Logger::setDefaultStreamLogger(os)` -/
  | setDefault
  /-- `Logger::getLogger(category)` -/
  | getLogger (category : Nat)
  /-- `loggers[i].show(level)` -/
  | show (i : Nat) (level : Level)
  /-- `loggers[i].fatal()` .. `loggers[i].trace()` -/
  | begin (i : Nat) (level : Level)
  /-- `entries[e] << chunk` -/
  | insert (e : Nat) (chunk : T)
  /-- end of the life of `entries[e]` -/
  | finish (e : Nat)

/-- `Logger.hpp` 90-92: a new writer, visible level INFO (`LogWriter.hpp` 22).  The category of the new logger is not initialised, `getLogger` sets it before it is used. -/
def setDefault {T : Type} (s : State T) : State T :=
  { s with writers := s.writers ++ [.info], log := { s.log with w := some s.writers.length } }

/-- `Logger.hpp` 78-81. -/
def getLogger {T : Type} (c : Nat) (s : State T) : State T :=
  let log := { s.log with category := c }
  { s with log := log, loggers := s.loggers ++ [log] }

/-- `Logger.hpp` 112-114; `none`: there is no such logger or its pointer is null. -/
def showLevel {T : Type} (i : Nat) (level : Level) (s : State T) : Option (State T) := do
  let l ← s.loggers[i]?
  let w ← l.w
  some { s with writers := s.writers.set w level }

/-- `Logger.hpp` 33-69, `LogEntry.hpp` 28-32. -/
def beginEntry {T : Type} (i : Nat) (level : Level) (s : State T) : Option (State T) := do
  let l ← s.loggers[i]?
  let w ← l.w
  let visible ← s.writers[w]?
  let enable := decide (level.val ≤ visible.val)
  some { s with entries := s.entries ++ [some ⟨w, enable, if enable then some (level, l.category) else none, []⟩] }

/-- `LogEntry.hpp` 53-70. -/
def insert {T : Type} (e : Nat) (chunk : T) (s : State T) : Option (State T) := do
  let x ← s.entries[e]?
  let x ← x
  some { s with entries := s.entries.set e (some { x with os := x.os ++ [chunk] }) }

/-- `LogEntry.hpp` 42-44, `StreamLogWriter.cpp` 82-88. -/
def finish {T : Type} (e : Nat) (s : State T) : Option (State T) := do
  let x ← s.entries[e]?
  let x ← x
  some { s with entries := s.entries.set e none, out := if x.enable then s.out ++ [⟨x.w, x.header, x.os⟩] else s.out }

def step {T : Type} (op : Op T) (s : State T) : Option (State T) :=
  match op with
  | .setDefault => some (setDefault s)
  | .getLogger c => some (getLogger c s)
  | .show i l => showLevel i l s
  | .begin i l => beginEntry i l s
  | .insert e c => insert e c s
  | .finish e => finish e s

/-- A history, latest operation first. -/
def run {T : Type} : List (Op T) → Option (State T)
  | [] => some init
  | op :: h => do
    let s ← run h
    step op s

/-! ### SysLogWriter -/

/-- `LogWriter::visible_level`, and the fields of `SysLogWriter` (`SysLogWriter.hpp` 20-26). -/
structure Sys where
  visible : Level
  visibleLevel : Level
  enabled : Bool
  level : Level
deriving DecidableEq

/-- `SysLogWriter.cpp` 6-13; `level` is not initialised. -/
def Sys.init (l : Level) : Sys := { visible := .info, visibleLevel := .info, enabled := false, level := l }

/-- `Logger::show` (`Logger.hpp` 112-114). -/
def Sys.show (l : Level) (s : Sys) : Sys := { s with visible := l }

/-- Constructor of `LogEntry` (`LogEntry.hpp` 28-32) with `SysLogWriter::begin` (`SysLogWriter.cpp` 22-26); the result tells whether the entry is enabled. -/
def Sys.begin (l : Level) (s : Sys) : Bool × Sys :=
  if l.val ≤ s.visible.val then
    (true, if l.val ≤ s.visibleLevel.val then { s with enabled := true, level := l } else { s with enabled := false })
  else (false, s)

/-- Destructor of `LogEntry` (`LogEntry.hpp` 42-44) with `SysLogWriter::end` (`SysLogWriter.cpp` 51-78): the priority with which the text is logged, if it is logged. -/
def Sys.finish (enable : Bool) (s : Sys) : Option Level := if enable then if s.enabled then some s.level else none else none

end Verif.Logger
