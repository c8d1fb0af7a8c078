import Mathlib.Data.Nat.Notation
import Mathlib.Data.Int.Notation
/-!
Files and handles of libraries over the whole life of a device object: constructor, calls of its owner, passes of the thread, destructor.
Modelled: `Mouse` (src/hal/Mouse.cpp:12-48, 72-105), `XBox` (src/hal/XBox.cpp:13-53, 78-120), `SpaceNavigator`
(src/hal/SpaceNavigator.cpp:13-41, 89-93), `BaumerOM70` (src/hal/BaumerOM70.cpp:5-28, 29-30, 57-76, 82-88), `SBGEllipseA`
(includes/eeros/hal/SBGEllipseA.hpp:33-70, 90-97), `RPLidar` (src/hal/RPLidar.cpp:5-59, 84 ff.) and the function `name` of the first three.

Only the calls which acquire, use or release a resource are modelled, their results are arbitrary inputs.  A thread which waits for the flag
`starting` which the constructor has not cleared never ends, so the destructor waits in `join` and nothing after it is executed
(proved in `Verif/Hal/DeviceThreadProps.lean`).  The calls of the owner come before the passes of the thread here; their interleaving does
not change what is held (interleavings with the destructor: C233).
-/
namespace Verif.Hal.Resources

/-- The resources. -/
inductive Res
  | file
  | modbus
  | interface
  | handle
  | driver
  deriving DecidableEq, Repr

/-- What happens to a resource. -/
inductive Ev
  | acq (r : Res)
  | use (r : Res)
  | rel (r : Res)
  deriving DecidableEq, Repr

/-! ### Specification: used and released only while held -/

/-- Is `r` held after the events, if it was held (`h`) before; `none`: it was used or released without being held, or acquired twice. -/
def track (r : Res) : Bool → List Ev → Option Bool
  | h, [] => some h
  | h, .acq q :: es => if q = r then (if h then none else track r true es) else track r h es
  | h, .use q :: es => if q = r then (if h then track r h es else none) else track r h es
  | h, .rel q :: es => if q = r then (if h then track r false es else none) else track r h es

/-- No resource is used or released without being held. -/
def Legal (es : List Ev) : Prop := ∀ r, track r false es ≠ none

/-- Moreover all resources are given back. -/
def Balanced (es : List Ev) : Prop := ∀ r, track r false es = some false

theorem track_append (r : Res) (a b : List Ev) : ∀ h, track r h (a ++ b) = (track r h a).bind fun h' => track r h' b := by
  induction a with
  | nil => intro h; rfl
  | cons e es ih =>
    intro h
    cases e with
    | acq q =>
      simp only [List.cons_append, track]
      by_cases hq : q = r
      · cases h <;> simp [hq, ih]
      · simp [hq, ih]
    | use q =>
      simp only [List.cons_append, track]
      by_cases hq : q = r
      · cases h <;> simp [hq, ih]
      · simp [hq, ih]
    | rel q =>
      simp only [List.cons_append, track]
      by_cases hq : q = r
      · cases h <;> simp [hq, ih]
      · simp [hq, ih]

/-- Uses of one resource. -/
theorem track_uses (r q : Res) (n : ℕ) (h : Bool) :
    track r h (List.replicate n (.use q)) = if q = r ∧ h = false ∧ n ≠ 0 then none else some h := by
  induction n with
  | zero => simp [track]
  | succ n ih =>
    simp only [List.replicate_succ, track]
    by_cases hq : q = r
    · subst hq
      cases h
      · simp
      · simp [ih]
    · simp [hq, ih]

/-! ### Mouse and XBox -/

/-- The constructor opens the file, the thread reads `n` times if this has succeeded (Mouse.cpp:72-77, XBox.cpp:78-83), the destructor closes
it. `close(-1)` fails without any effect. -/
def mouse (opened : Bool) (n : ℕ) : List Ev :=
  (if opened then [.acq .file] else []) ++ (if opened then List.replicate n (.use .file) else []) ++ (if opened then [.rel .file] else [])

/-- C312. Mouse and XBox use their file only while it is open and close it, also if it cannot be opened. -/
theorem mouse_balanced (opened : Bool) (n : ℕ) : Balanced (mouse opened n) := by
  intro r
  cases opened with
  | false => rfl
  | true =>
    simp only [mouse, if_true, track_append]
    cases r <;> simp [track, track_uses]

example : mouse true 2 = [.acq .file, .use .file, .use .file, .rel .file] := by decide +kernel

/-! ### SpaceNavigator -/

/-- As the mouse, but the destructor calls `fclose` with the null pointer if the file could not be opened. -/
def spaceNavigator (opened : Bool) (n : ℕ) : List Ev :=
  (if opened then [.acq .file] else []) ++ (if opened then List.replicate n (.use .file) else []) ++ [.rel .file]

/-- C312. The space navigator is right exactly if its device could be opened. -/
theorem spaceNavigator_iff (opened : Bool) (n : ℕ) :
    (Legal (spaceNavigator opened n) ↔ opened = true) ∧ (Balanced (spaceNavigator opened n) ↔ opened = true) := by
  cases opened with
  | false =>
    have h : track .file false (spaceNavigator false n) = none := rfl
    exact ⟨⟨fun hl => absurd h (hl .file), by simp⟩, ⟨fun hb => absurd (hb .file) (by simp [h]), by simp⟩⟩
  | true =>
    have hb : Balanced (spaceNavigator true n) := by
      intro r
      simp only [spaceNavigator, if_true, track_append]
      cases r <;> simp [track, track_uses]
    refine ⟨⟨fun _ => rfl, fun _ r => by rw [hb r]; simp⟩, ⟨fun _ => rfl, fun _ => hb⟩⟩

/-- C312, violated: whatever else happens, a space navigator which is not plugged in makes the destructor call `fclose(NULL)`. -/
theorem spaceNavigator_violated (n : ℕ) : ¬ Legal (spaceNavigator false n) := by
  rw [(spaceNavigator_iff false n).1]; simp

example : Balanced (spaceNavigator true 3) := (spaceNavigator_iff true 3).2.mpr rfl

/-! ### BaumerOM70 -/

/-- The life of the object and whether its destructor returns.  `m`: calls of `switchOnLaser` and `switchOffLaser` by the owner (two accesses each),
`n`: passes of the thread.  BaumerOM70.cpp:13-16: after a failed connection the context is freed, the object stays and `starting` stays true. -/
def baumer (connected : Bool) (m n : ℕ) : List Ev × Bool :=
  if connected then
    ([.acq .modbus, .use .modbus, .use .modbus] ++ List.replicate (2 * m) (.use .modbus) ++ List.replicate n (.use .modbus) ++
      [.use .modbus, .rel .modbus], true)
  else
    ([.acq .modbus, .use .modbus, .use .modbus, .rel .modbus] ++ List.replicate (2 * m) (.use .modbus), false)

/-- C312. The distance sensor is right exactly if it was connected or its owner never switches the laser; its destructor returns exactly
if it was connected. -/
theorem baumer_iff (connected : Bool) (m n : ℕ) :
    (Legal (baumer connected m n).1 ↔ connected = true ∨ m = 0) ∧ ((baumer connected m n).2 = true ↔ connected = true) ∧
    (connected = true → Balanced (baumer connected m n).1) := by
  cases connected with
  | true =>
    have hb : Balanced (baumer true m n).1 := by
      intro r
      simp only [baumer, if_true, track_append]
      cases r <;> simp [track, track_uses]
    exact ⟨⟨fun _ => .inl rfl, fun _ r => by rw [hb r]; simp⟩, ⟨fun _ => rfl, fun _ => rfl⟩, fun _ => hb⟩
  | false =>
    have h : ∀ r, track r false (baumer false m n).1 = if r = .modbus ∧ m ≠ 0 then none else some false := by
      intro r
      simp only [baumer, Bool.false_eq_true, if_false, track_append]
      have h2 : 2 * m = 0 ↔ m = 0 := by omega
      cases r <;> simp [track, track_uses, h2]
    refine ⟨⟨fun hl => ?_, fun hm r => ?_⟩, by simp [baumer], by simp⟩
    · right
      by_cases hm : m = 0
      · exact hm
      · exact absurd (by rw [h]; simp [hm]) (hl .modbus)
    · rw [h]
      simp only [Bool.false_eq_true, false_or] at hm
      simp [hm]

/-- C312, violated: each call of `switchOnLaser` or `switchOffLaser` of a sensor which could not be connected uses the freed context. -/
theorem baumer_violated (m n : ℕ) (hm : 0 < m) : ¬ Legal (baumer false m n).1 ∧ (baumer false m n).2 = false := by
  constructor
  · rw [(baumer_iff false m n).1]; simp; omega
  · rfl

example : ¬ Legal (baumer false 1 0).1 := (baumer_violated 1 0 (by omega)).1
example : Balanced (baumer true 2 5).1 := (baumer_iff true 2 5).2.2 rfl

/-! ### SBGEllipseA -/

/-- The calls of the constructor behind `sbgEComInit` which use the handle: information, seven logs switched off, one or three logs switched on,
save, callback (SBGEllipseA.hpp:48-60, 102-140). -/
def sbgSetup : ℕ := 1 + 7 + 3 + 2

/-- Life of the object, `n` passes of the thread, and whether the destructor returns.  If the serial line cannot be created the constructor returns
with `starting` set; if the library cannot be initialised the interface is destroyed, and the constructor goes on (SBGEllipseA.hpp:43-47). The
handle lives on the interface and is released by `sbgEComClose`. -/
def sbg (created initialised : Bool) (n : ℕ) : List Ev × Bool :=
  if created then
    ([.acq .interface, .use .interface] ++ (if initialised then [.acq .handle] else [.rel .interface]) ++
      List.replicate (sbgSetup + n) (.use .handle) ++ [.rel .handle, .rel .interface], true)
  else ([], false)

/-- C312. The inertial sensor is right exactly if the serial line could not be created or the library could be initialised. -/
theorem sbg_iff (created initialised : Bool) (n : ℕ) :
    (Legal (sbg created initialised n).1 ↔ created = false ∨ initialised = true) ∧
    (Balanced (sbg created initialised n).1 ↔ created = false ∨ initialised = true) ∧
    ((sbg created initialised n).2 = true ↔ created = true) := by
  cases created with
  | false => refine ⟨⟨fun _ => .inl rfl, fun _ r => ?_⟩, ⟨fun _ => .inl rfl, fun _ r => rfl⟩, by simp [sbg]⟩; simp [sbg, track]
  | true =>
    cases initialised with
    | true =>
      have hb : Balanced (sbg true true n).1 := by
        intro r
        simp only [sbg, if_true, track_append]
        cases r <;> simp [track, track_uses]
      exact ⟨⟨fun _ => .inr rfl, fun _ r => by rw [hb r]; simp⟩, ⟨fun _ => .inr rfl, fun _ => hb⟩, by simp [sbg]⟩
    | false =>
      have h : track .interface false (sbg true false n).1 = none := by
        simp only [sbg, if_true, Bool.false_eq_true, if_false, track_append]
        simp [track, track_uses]
      refine ⟨⟨fun hl => absurd h (hl .interface), by simp⟩, ⟨fun hb => ?_, by simp⟩, by simp [sbg]⟩
      exact absurd (hb .interface) (by simp [h])

/-- C312, violated: if the library cannot be initialised, the uninitialised handle is used in the constructor and in each pass of the thread, and
the interface is destroyed twice, whatever else happens. -/
theorem sbg_violated (n : ℕ) :
    track .handle false (sbg true false n).1 = none ∧ track .interface false (sbg true false n).1 = none := by
  constructor <;>
  · simp only [sbg, if_true, Bool.false_eq_true, if_false, track_append]
    simp [track, track_uses, sbgSetup]

example : Balanced (sbg true true 4).1 := (sbg_iff true true 4).2.1.mpr (.inr rfl)

/-! ### RPLidar -/

/-- `CreateDriver`, `connect`, three further calls if it is connected; `n` passes with two calls each; the destructor with four calls
(RPLidar.cpp:5-59). Without connection `starting` stays true. -/
def rplidar (connected : Bool) (n : ℕ) : List Ev × Bool :=
  if connected then
    ([.acq .driver] ++ List.replicate 4 (.use .driver) ++ List.replicate (2 * n) (.use .driver) ++ List.replicate 3 (.use .driver) ++
      [.rel .driver], true)
  else ([.acq .driver, .use .driver], false)

/-- C312. The laser scanner uses its driver only while it exists; it is given back exactly if it was connected. -/
theorem rplidar_iff (connected : Bool) (n : ℕ) :
    Legal (rplidar connected n).1 ∧ (Balanced (rplidar connected n).1 ↔ connected = true) ∧
    ((rplidar connected n).2 = true ↔ connected = true) := by
  cases connected with
  | true =>
    have hb : Balanced (rplidar true n).1 := by
      intro r
      simp only [rplidar, if_true, track_append]
      cases r <;> simp [track, track_uses]
    exact ⟨fun r => by rw [hb r]; simp, ⟨fun _ => rfl, fun _ => hb⟩, by simp [rplidar]⟩
  | false =>
    refine ⟨fun r => ?_, ⟨fun hb => ?_, by simp⟩, by simp [rplidar]⟩
    · cases r <;> simp [rplidar, track]
    · exact absurd (hb .driver) (by simp [rplidar, track])

example : Legal (rplidar false 0).1 := (rplidar_iff false 0).1

/-! ### The function `name` -/

/-- What `name` gives: a text, or a text read from memory which was never written. -/
inductive Text
  | text (s : List ℕ)
  | garbage
  deriving DecidableEq, Repr

/-- The answer of the operating system to the request for the name: an error (the result -1, the buffer is not written), or the number of bytes
copied, terminating zero included, which is never 0. -/
inductive Answer
  | error
  | copied (s : List ℕ)
  deriving DecidableEq, Repr

/-- `Mouse::name`, `XBox::name` (Mouse.cpp:50-57, XBox.cpp:55-63): the file must not be 0; the buffer is used if the result is not 0. -/
def name (fd : ℤ) (ask : ℤ → Answer) : Text :=
  if fd = 0 then .text []
  else match ask fd with
    | .error => .garbage
    | .copied s => .text (s.take 127)

/-- `SpaceNavigator::name` (SpaceNavigator.cpp:43-51), the file is open or the null pointer. -/
def nameNav (file : Option ℤ) (ask : ℤ → Answer) : Text := match file with
  | none => .text []
  | some fd => match ask fd with
    | .error => .garbage
    | .copied s => .text (s.take 127)

/-- What was meant: the name if there is one, no name otherwise. -/
def nameSpec (fd : ℤ) (ask : ℤ → Answer) : Text :=
  if fd < 0 then .text []
  else match ask fd with
    | .error => .text []
    | .copied s => .text (s.take 127)

/-- C313. The name is right exactly if the file is a positive number and the operating system knows a name, or the file has number 0 and there
is no name. -/
theorem name_iff (fd : ℤ) (ask : ℤ → Answer) (hbad : ∀ fd, fd < 0 → ask fd = .error) :
    name fd ask = nameSpec fd ask ↔
      (0 < fd ∧ ask fd ≠ .error) ∨ (fd = 0 ∧ (ask 0 = .error ∨ ∃ s, ask 0 = .copied s ∧ s = [])) := by
  unfold name nameSpec
  rcases Int.lt_trichotomy fd 0 with h | h | h
  · simp only [if_neg (Int.ne_of_lt h), if_pos h, hbad fd h]
    simp
    omega
  · subst h
    simp only [if_true]
    cases ha : ask 0 with
    | error => simp
    | copied s => cases s <;> simp
  · simp only [if_neg (Int.ne_of_gt h), if_neg (Int.not_lt.mpr (Int.le_of_lt h))]
    cases ha : ask fd with
    | error => simp [h]; omega
    | copied s => simp [h]

/-- C313, part which holds: an open file (other than standard input) with a name. -/
theorem name_partial (fd : ℤ) (ask : ℤ → Answer) (h : 0 < fd) (s : List ℕ) (ha : ask fd = .copied s) :
    name fd ask = .text (s.take 127) ∧ nameNav (some fd) ask = .text (s.take 127) ∧ nameNav none ask = .text [] := by
  unfold name nameNav
  simp [ha, Int.ne_of_gt h]

/-- C313, violated: the result -1 of a failed request is taken for success, the text is read from memory never written. In particular for every
device which could not be opened. -/
theorem name_violated (fd : ℤ) (ask : ℤ → Answer) (h : fd ≠ 0) (ha : ask fd = .error) :
    name fd ask = .garbage ∧ nameNav (some fd) ask = .garbage := by
  simp [name, nameNav, h, ha]

example : name (-1) (fun _ => .error) = .garbage := by decide +kernel
example : name 5 (fun _ => .copied [80, 97, 100]) = .text [80, 97, 100] := by decide +kernel

end Verif.Hal.Resources
