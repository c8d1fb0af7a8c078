/-
Model of `ui::CursesUI` (`/repo/src/ui/CursesUI.cpp`, `/repo/includes/eeros/ui/CursesUI.hpp`): the text user interface of the sequencer.

Modelled: the list of messages, the layout of the screen, the life of the user interface (state, thread, instance counter), and what `printf` does with a message.
The curses library itself is not modelled: only which lines are written.  Keys have no effect (all of their handling is commented out, 233-267).
-/
import Mathlib.Data.List.Basic

namespace Verif.Ui.Curses

/-! ### Messages (`CursesUI.cpp` 290-296) -/

/-- `MESSAGE_LINES` (`CursesUI.hpp` 14). -/
def messageLines : Nat := 6

/-- `addMessage`: append, and drop the oldest one if there are more than `MESSAGE_LINES - 1`. -/
def addMessage {α : Type} (l : List α) (m : α) : List α :=
  if (l ++ [m]).length > messageLines - 1 then (l ++ [m]).tail else l ++ [m]

/-! ### Layout (`initScreen` 210-215) -/

/-- Line numbers are `unsigned int`; `LINES` is an `int`. -/
def u32 (x : Int) : Nat := (x % 2 ^ 32).toNat

structure Layout where
  header : Nat
  footer : Nat
  sequences : Nat
  commands : Nat
  status : Nat
  messages : Nat

/-- `HEADER_LINES` 3, `FOOTER_LINES` 2, `MAX_NOF_COMMANDS` 6, `STATUS_LINES` 4 (`CursesUI.hpp` 10-13). -/
def layout (LINES : Nat) : Layout :=
  let footer := u32 (LINES - 2)
  let commands := u32 (footer - 6 / 2 - 1)
  let status := u32 (commands - 4)
  ⟨0, footer, 3 + 1, commands, status, u32 (status - messageLines)⟩

/-- The areas of the screen. -/
inductive Area where
  | header | sequences | messages | status | commands | footer
deriving DecidableEq

/-- The lines written by `updateScreen` (182-190), for `nseq` sequences and `nmsg` messages: the title of an area and its contents
(48-62, 64-74, 86-95, 97-108, 110-113, 161-168, 174). -/
def written (L : Layout) (LINES nseq nmsg : Nat) : Area → List Nat
  | .header => (List.range 3).filter (L.header ≤ ·) ++ [L.header + 1]
  | .sequences => L.sequences :: (List.range nseq).map (L.sequences + 1 + ·)
  | .messages => L.messages :: (List.range nmsg).map (L.messages + 1 + ·)
  | .status => [L.status, L.status + 1]
  | .commands => L.commands :: [0, 1, 2, 4, 5].map fun i => L.commands + 1 + i / 2
  | .footer => [L.footer + 1, LINES - 1]

/-! ### `printMessage` (97-100) -/

/-- `mvprintw(line, 1, msg)`: the message is the format.  `none`: a conversion specification without an argument, which is undefined; `%%` prints one `%`. -/
def printf : List Char → Option (List Char)
  | [] => some []
  | ['%'] => none
  | '%' :: '%' :: rest => (printf rest).map ('%' :: ·)
  | '%' :: _ :: _ => none
  | c :: rest => (printf rest).map (c :: ·)

/-! ### Life -/

/-- `enum State` (`CursesUI.hpp` 23). -/
inductive State where
  | idle | active | stopping | stopped
deriving DecidableEq

/-- Where the thread is in `run` (218-272). -/
inductive Pc where
  /-- `while(state == idle)` (223) -/
  | waiting
  /-- `initScreen()` (228) -/
  | init
  /-- `while(state != active)` (230) -/
  | keys
  /-- `state = stopped` (271) -/
  | last
  | ended
deriving DecidableEq

structure Ui where
  state : State
  pc : Pc
  /-- the number of keys which were read -/
  read : Nat
  /-- the destructor has been entered -/
  destroying : Bool
deriving DecidableEq

/-- After the constructor (23-28): the thread of the base class is running. -/
def fresh : Ui := ⟨.idle, .waiting, 0, false⟩

/-- The calls of other threads, and a step of the thread of the user interface. -/
inductive Ev where
  | dispay | exit | destroy | thread
deriving DecidableEq

/-- One step.  `destroy`: the destructor (30-32) calls `exit` and then `~Thread` (`/repo/src/core/Thread.cpp` 23) waits for the end of the thread. -/
def step (u : Ui) : Ev → Ui
  | .dispay => if u.destroying then u else { u with state := .active }
  | .exit => if u.destroying then u else { u with state := .stopping }
  | .destroy => if u.destroying then u else { u with state := .stopping, destroying := true }
  | .thread =>
    match u.pc with
    | .waiting => if u.state = .idle then u else { u with pc := .init }
    | .init => { u with pc := .keys }
    | .keys => if u.state ≠ .active then { u with read := u.read + 1 } else { u with pc := .last }
    | .last => { u with state := .stopped, pc := .ended }
    | .ended => u

def steps (u : Ui) (es : List Ev) : Ui := es.foldl step u

/-- The destructor returns: the thread has ended. -/
def Ui.destroyed (u : Ui) : Prop := u.destroying = true ∧ u.pc = .ended

/-! ### Instances (17, 25-27) -/

/-- Operations on the user interfaces of a process: construct one, destroy one. -/
inductive Op where
  | construct | destroy
deriving DecidableEq

/-- `instanceCounter` and the number of existing objects. -/
structure Inst where
  counter : Nat
  alive : Nat
deriving DecidableEq

/-- The constructor increments the counter and throws if it is more than one; nobody decrements it.  The result says whether the operation succeeded. -/
def op (s : Inst) : Op → Inst × Bool
  | .construct => if s.counter + 1 > 1 then ({ s with counter := s.counter + 1 }, false) else (⟨s.counter + 1, s.alive + 1⟩, true)
  | .destroy => if s.alive = 0 then (s, false) else ({ s with alive := s.alive - 1 }, true)

def ops (s : Inst) (os : List Op) : Inst := os.foldl (fun s o => (op s o).1) s

end Verif.Ui.Curses
