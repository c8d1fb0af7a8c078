import Mathlib.Data.Nat.Notation
import Mathlib.Data.Int.Notation
import Mathlib.Tactic.ByContra
/-!
Model of the static helpers of ROS 2: `RosTools::initRos`, `registerCustomSigIntHandler`, `aggregateHandler` and `cleanup`
(includes/eeros/control/ros2/RosTools.hpp:33-58, 64-82, 132-153, src/control/ros2/RosTools.cpp:6-7).

Modelled: the two static pointers, the disposition of SIGINT of the process, `rclcpp::ok`, the number of functions registered with
`atexit`, and the text of the variable `ROS_DOMAIN_ID`.  Of the library `rclcpp` it is assumed that `init` installs its own handler
and that `shutdown` puts back the disposition which `init` has found (`install_signal_handlers`, `uninstall_signal_handlers`).
Not modelled: the order in which the library's own thread reacts to its handler, log output, the spinning thread of `initNode`.
-/
namespace Verif.Control.RosSigint

/-- A function which can handle SIGINT: that of `rclcpp`, one of the program, or `aggregateHandler`. -/
inductive H
  | ros
  | own (n : ℕ)
  | aggregate
  deriving DecidableEq, Repr

/-- The pointer `sa_handler`: `SIG_DFL` is the null pointer, `SIG_IGN` is the address one, both are no functions. -/
inductive Disp
  | dfl
  | ign
  | fn (h : H)
  deriving DecidableEq, Repr

/-- The process. `custom` and `ros2` are the static members, RosTools.cpp:6-7; a null `ros2Handler` is `Disp.dfl`. -/
structure S where
  ok : Bool
  disp : Disp
  saved : Disp
  custom : Option ℕ
  ros2 : Disp
  exits : ℕ
  deriving DecidableEq, Repr

/-- A process whose SIGINT has the disposition `d` from its parent. -/
def start (d : Disp) : S := ⟨false, d, d, none, .dfl, 0⟩

/-- RosTools.hpp:33-58: `atexit` and `rclcpp::init` if `rclcpp` does not run, otherwise a warning only. -/
def initRos (s : S) : S :=
  if s.ok then s else { s with ok := true, exits := s.exits + 1, saved := s.disp, disp := .fn .ros }

/-- RosTools.hpp:64-82. -/
def register (h : ℕ) (s : S) : S :=
  if s.ok then
    match s.custom with
    | some _ => s
    | none => { s with custom := some h, ros2 := s.disp, disp := .fn .aggregate }
  else s

/-- `rclcpp::shutdown` and `cleanup`, RosTools.hpp:148-153. -/
def shutdown (s : S) : S := if s.ok then { s with ok := false, disp := s.saved } else s

/-- What the program does, in any order; `sig` is its own call of `signal(SIGINT, …)`, which cannot name `aggregateHandler`
(it is protected). -/
inductive Op
  | init
  | reg (h : ℕ)
  | down
  | sigDfl
  | sigIgn
  | sigOwn (n : ℕ)
  deriving DecidableEq, Repr

def step (s : S) : Op → S
  | .init => initRos s
  | .reg h => register h s
  | .down => shutdown s
  | .sigDfl => { s with disp := .dfl }
  | .sigIgn => { s with disp := .ign }
  | .sigOwn n => { s with disp := .fn (.own n) }

def run (s : S) (ops : List Op) : S := ops.foldl step s

/-- What one SIGINT does to the process. -/
inductive Result
  | terminates
  | nothing
  /-- these functions are called, in this order -/
  | calls (l : List H)
  /-- a jump to the address one -/
  | crash
  /-- the handler calls itself without end -/
  | recursion
  deriving DecidableEq, Repr

/-- The call of `customHandler` at the end of `aggregateHandler`, RosTools.hpp:141-144. -/
def customCall (s : S) : List H := match s.custom with | none => [] | some n => [.own n]

/-- Delivery of SIGINT, with `aggregateHandler` RosTools.hpp:136-145. -/
def deliver (s : S) : Result :=
  match s.disp with
  | .dfl => .terminates
  | .ign => .nothing
  | .fn .ros => .calls [.ros]
  | .fn (.own n) => .calls [.own n]
  | .fn .aggregate =>
    match s.ros2 with
    | .dfl => .calls (customCall s)
    | .ign => .crash
    | .fn .ros => .calls (.ros :: customCall s)
    | .fn (.own n) => .calls (.own n :: customCall s)
    | .fn .aggregate => .recursion

/-! ### Registration -/

/-- What the chain has to be: the functions called before the registration, then the own one. -/
def before : Result → List H
  | .calls l => l
  | _ => []

theorem inv (d : Disp) (hd : d ≠ .fn .aggregate) (ops : List Op) :
    let s := run (start d) ops
    s.ros2 ≠ .fn .aggregate ∧ (s.custom = none → s.disp ≠ .fn .aggregate ∧ s.saved ≠ .fn .aggregate) := by
  suffices h : ∀ (ops : List Op) (s : S),
      (s.ros2 ≠ .fn .aggregate ∧ (s.custom = none → s.disp ≠ .fn .aggregate ∧ s.saved ≠ .fn .aggregate)) →
      let t := run s ops
      t.ros2 ≠ .fn .aggregate ∧ (t.custom = none → t.disp ≠ .fn .aggregate ∧ t.saved ≠ .fn .aggregate) by
    exact h ops _ ⟨by simp [start], fun _ => ⟨hd, hd⟩⟩
  intro ops
  induction ops with
  | nil => intro s h; exact h
  | cons o os ih =>
    intro s h
    refine ih (step s o) ?_
    obtain ⟨h1, h2⟩ := h
    cases o with
    | init =>
      simp only [step, initRos]
      split
      · exact ⟨h1, h2⟩
      · exact ⟨h1, fun hc => ⟨by simp, (h2 hc).1⟩⟩
    | reg n =>
      simp only [step, register]
      split
      · cases hc : s.custom with
        | some m => simp only; exact ⟨h1, by simp [hc]⟩
        | none => exact ⟨(h2 hc).1, by simp⟩
      · exact ⟨h1, h2⟩
    | down =>
      simp only [step, shutdown]
      split
      · exact ⟨h1, fun hc => ⟨(h2 hc).2, (h2 hc).2⟩⟩
      · exact ⟨h1, h2⟩
    | sigDfl => exact ⟨h1, fun hc => ⟨by simp [step], (h2 hc).2⟩⟩
    | sigIgn => exact ⟨h1, fun hc => ⟨by simp [step], (h2 hc).2⟩⟩
    | sigOwn n => exact ⟨h1, fun hc => ⟨by simp [step], (h2 hc).2⟩⟩

/-- C309. However often and in which order the functions are called, the handler never calls itself. -/
theorem never_recursive (d : Disp) (hd : d ≠ .fn .aggregate) (ops : List Op) :
    deliver (run (start d) ops) ≠ .recursion := by
  have h := (inv d hd ops).1
  unfold deliver
  cases hs : (run (start d) ops).disp with
  | dfl => simp
  | ign => simp
  | fn f =>
    cases f with
    | ros => simp
    | own n => simp
    | aggregate =>
      cases hr : (run (start d) ops).ros2 with
      | dfl => simp
      | ign => simp
      | fn g =>
        cases g with
        | ros => simp
        | own n => simp
        | aggregate => exact absurd hr h

example : deliver (run (start .dfl) [.init, .reg 5, .reg 6, .down, .init, .reg 7]) = .calls [.ros] := by decide +kernel

/-- C309. The first registration while ROS runs adds the own handler behind those which were called before,
exactly if SIGINT was not ignored. -/
theorem first_registration_iff (d : Disp) (hd : d ≠ .fn .aggregate) (ops : List Op) (h : ℕ)
    (hok : (run (start d) ops).ok = true) (hc : (run (start d) ops).custom = none) :
    deliver (run (start d) (ops ++ [.reg h])) = .calls (before (deliver (run (start d) ops)) ++ [.own h]) ↔
      deliver (run (start d) ops) ≠ .nothing := by
  have hi := ((inv d hd ops).2 hc).1
  have e : run (start d) (ops ++ [.reg h]) = register h (run (start d) ops) := by simp [run, step]
  rw [e]
  generalize run (start d) ops = s at *
  unfold register
  simp only [hok, if_true, hc]
  cases hs : s.disp with
  | dfl => simp [deliver, hs, before, customCall]
  | ign => simp [deliver, hs]
  | fn f =>
    cases f with
    | ros => simp [deliver, hs, before, customCall]
    | own n => simp [deliver, hs, before, customCall]
    | aggregate => exact absurd hs hi

example : deliver (run (start .dfl) ([.init] ++ [.reg 5])) = .calls [.ros, .own 5] := by decide +kernel
example : deliver (run (start .dfl) ([.init, .sigOwn 2] ++ [.reg 5])) = .calls [.own 2, .own 5] := by decide +kernel

/-- C309, part which holds: right after `initRos` as the comment of the function asks for, both handlers run, in every process
which has neither been initialised nor has registered a handler before. -/
theorem after_init_partial (d : Disp) (h : ℕ) :
    deliver (run (start d) [.init, .reg h]) = .calls [.ros, .own h] := by
  cases d <;> rfl

example : deliver (run (start .ign) [.init, .reg 5]) = .calls [.ros, .own 5] := by decide +kernel

/-- C309, violated: if SIGINT is ignored when the handler is registered, the next SIGINT crashes the process. -/
theorem ignored_violated (s : S) (h : ℕ) (hok : s.ok = true) (hc : s.custom = none) (hd : s.disp = .ign) :
    deliver s = .nothing ∧ deliver (register h s) = .crash := by
  simp [register, deliver, hok, hc, hd]

example : deliver (run (start .dfl) [.init, .sigIgn, .reg 5]) = .crash := by decide +kernel

theorem custom_stays (ops : List Op) : ∀ (s : S) (m : ℕ), s.custom = some m → (run s ops).custom = some m := by
  induction ops with
  | nil => intro s m h; exact h
  | cons o os ih =>
    intro s m h
    refine ih (step s o) m ?_
    cases o <;> simp only [step, initRos, register, shutdown, h]
    · split <;> simp [h]
    · split <;> simp [h]
    · split <;> simp [h]

theorem no_aggregate (ops : List Op) (s : S) (m : ℕ) (hc : s.custom = some m)
    (h1 : s.disp ≠ .fn .aggregate) (h2 : s.saved ≠ .fn .aggregate) : (run s ops).disp ≠ .fn .aggregate := by
  induction ops generalizing s with
  | nil => exact h1
  | cons o os ih =>
    have hc' : (step s o).custom = some m := custom_stays [o] s m hc
    refine ih (step s o) hc' ?_ ?_
    · cases o <;> simp only [step, initRos, register, shutdown, hc] <;> (try split) <;> simp [h1, h2]
    · cases o <;> simp only [step, initRos, register, shutdown, hc] <;> (try split) <;> simp [h1, h2]

/-- C309, violated: when ROS is shut down, the handler is lost for good.  Whatever the program does afterwards, also if it starts
ROS again and registers handlers again, `aggregateHandler` is never installed again. -/
theorem restart_violated (d : Disp) (hd : d ≠ .fn .aggregate) (h : ℕ) (ops : List Op) :
    (run (start d) ([.init, .reg h, .down] ++ ops)).disp ≠ .fn .aggregate := by
  have e : run (start d) ([.init, .reg h, .down] ++ ops) = run (run (start d) [.init, .reg h, .down]) ops := by
    simp [run]
  rw [e]
  exact no_aggregate ops _ h rfl hd hd

/-- The same for what one sees: after the restart and a further registration SIGINT calls the handler of `rclcpp` only. -/
theorem restart_calls_violated (d : Disp) (h h' : ℕ) :
    deliver (run (start d) [.init, .reg h, .down, .init, .reg h']) = .calls [.ros] := rfl

example : deliver (run (start .dfl) [.init, .reg 5, .down, .init, .reg 5]) = .calls [.ros] := by decide +kernel

/-- C309. The function which shuts ROS down at the end of the program is registered exactly once per start of ROS,
a second `initRos` while ROS runs changes nothing. -/
theorem init_idempotent (s : S) :
    initRos (initRos s) = initRos s ∧ (initRos s).exits = s.exits + (if s.ok then 0 else 1) ∧ (initRos s).ok = true := by
  unfold initRos
  cases h : s.ok <;> simp [h]

example : (run (start .dfl) [.init, .init, .down, .init]).exits = 2 := by decide +kernel

/-! ### The domain -/

/-- Value of a decimal digit. -/
def digit (c : Char) : Option ℕ := if '0' ≤ c ∧ c ≤ '9' then some (c.toNat - 48) else none

/-- The digits `strtol` reads; the value, whether there was a digit. -/
def readDigits : List Char → ℕ → Bool → ℕ × Bool
  | [], v, any => (v, any)
  | c :: cs, v, any => match digit c with
    | some d => readDigits cs (10 * v + d) true
    | none => (v, any)

/-- White space skipped by `strtol`. -/
def blank (c : Char) : Bool := c = ' ' ∨ c = '\t' ∨ c = '\n' ∨ c = '\r'

/-- `std::stoi` with base ten: white space, a sign, digits, the rest is not looked at; `none` is one of its exceptions
(`invalid_argument`, `out_of_range`). -/
def stoi (s : List Char) : Option ℤ :=
  let t := s.dropWhile blank
  let (neg, u) := match t with
    | '-' :: r => (true, r)
    | '+' :: r => (false, r)
    | r => (false, r)
  let (v, any) := readDigits u 0 false
  if any then
    let x : ℤ := if neg then -(v : ℤ) else v
    if -2 ^ 31 ≤ x ∧ x < 2 ^ 31 then some x else none
  else none

/-- RosTools.hpp:36-52: the domain handed to `set_domain_id` (a `size_t`), and whether an error is logged. -/
def domain (env : Option (List Char)) : ℕ × Bool :=
  match env with
  | none => (0, false)
  | some s => match stoi s with
    | some x => ((x % 2 ^ 64).toNat, false)
    | none => (0, true)

/-- The character of a digit. -/
def chr (d : Fin 10) : Char := Char.ofNat (48 + d)

/-- The number a list of decimal digits denotes. -/
def number (ds : List (Fin 10)) : ℕ := ds.foldl (fun v d => 10 * v + d.val) 0

theorem digit_chr (d : Fin 10) : digit (chr d) = some d.val := by
  revert d; decide

theorem readDigits_append (ds : List (Fin 10)) (r : List Char) (hr : ∀ c ∈ r.head?, digit c = none) (v : ℕ) (any : Bool) :
    readDigits (ds.map chr ++ r) v any = (ds.foldl (fun v d => 10 * v + d.val) v, any || !ds.isEmpty) := by
  induction ds generalizing v any with
  | nil =>
    cases r with
    | nil => simp [readDigits]
    | cons c cs => simp [readDigits, hr c (by simp)]
  | cons d ds ih => simp [readDigits, digit_chr, ih]

theorem chr_ne (d : Fin 10) : blank (chr d) = false ∧ chr d ≠ '-' ∧ chr d ≠ '+' := by
  revert d; decide

theorem stoi_digits (ds : List (Fin 10)) (r : List Char) (hne : ds ≠ []) (hr : ∀ c ∈ r.head?, digit c = none) :
    stoi (ds.map chr ++ r) = if number ds < 2 ^ 31 then some (number ds : ℤ) else none := by
  cases ds with
  | nil => exact absurd rfl hne
  | cons d ds =>
    have h := readDigits_append (d :: ds) r hr 0 false
    obtain ⟨h1, h2, h3⟩ := chr_ne d
    have hd : ((d :: ds).map chr ++ r).dropWhile blank = (d :: ds).map chr ++ r := by
      simp [h1]
    unfold stoi
    rw [hd]
    simp only [List.map_cons, List.cons_append] at *
    have hm : (match chr d :: (ds.map chr ++ r) with
        | '-' :: r => (true, r)
        | '+' :: r => (false, r)
        | r => (false, r)) = (false, chr d :: (ds.map chr ++ r)) := by
      split
      · rename_i heq; simp only [List.cons.injEq] at heq; exact absurd heq.1 h2
      · rename_i heq; simp only [List.cons.injEq] at heq; exact absurd heq.1 h3
      · rfl
    have hN : (d :: ds).foldl (fun v d => 10 * v + d.val) 0 = number (d :: ds) := rfl
    simp only [hm, h, hN]
    simp only [List.isEmpty_cons, Bool.not_false, Bool.or_true, if_true, Bool.false_eq_true, if_false]
    clear hN
    revert hne
    generalize number (d :: ds) = n
    intro hne
    by_cases hn : n < 2 ^ 31
    · rw [if_pos hn, if_pos]; constructor <;> omega
    · rw [if_neg hn, if_neg]; omega

/-- C310. A variable which holds a decimal number below two to the 31 gives this domain without an error; a larger one gives the
domain 0 and an error. -/
theorem number_exact (ds : List (Fin 10)) (hne : ds ≠ []) :
    domain (some (ds.map chr)) = if number ds < 2 ^ 31 then (number ds, false) else (0, true) := by
  have h := stoi_digits ds [] hne (by simp)
  rw [List.append_nil] at h
  unfold domain
  simp only [h]
  by_cases hn : number ds < 2 ^ 31
  · simp only [if_pos hn]
    have : ((number ds : ℤ) % 2 ^ 64) = number ds := by omega
    rw [this, Int.toNat_natCast]
  · simp only [if_neg hn]

example : domain (some "42".toList) = (42, false) := by decide +kernel
example : domain (some "2147483648".toList) = (0, true) := by decide +kernel

/-- C310. Without the variable the domain is 0, without an error. -/
theorem unset : domain none = (0, false) := rfl

/-- C310. A text which begins with no blank, sign or digit gives the domain 0 and an error. -/
theorem no_number (s : List Char)
    (h : ∀ c ∈ s.head?, blank c = false ∧ c ≠ '-' ∧ c ≠ '+' ∧ digit c = none) : domain (some s) = (0, true) := by
  cases s with
  | nil => decide
  | cons c cs =>
    obtain ⟨h1, h2, h3, h4⟩ := h c (by simp)
    have hd : (c :: cs).dropWhile blank = c :: cs := by simp [h1]
    have hm : (match c :: cs with
        | '-' :: r => (true, r)
        | '+' :: r => (false, r)
        | r => (false, r)) = (false, c :: cs) := by
      split
      · rename_i heq; simp only [List.cons.injEq] at heq; exact absurd heq.1 h2
      · rename_i heq; simp only [List.cons.injEq] at heq; exact absurd heq.1 h3
      · rfl
    have hs : stoi (c :: cs) = none := by
      unfold stoi
      rw [hd]
      simp only [hm, readDigits, h4]
      rfl
    simp [domain, hs]

example : domain (some "robot".toList) = (0, true) := by decide +kernel

/-- C310, violated: a text which only begins with a number is taken for this number, no error is logged. -/
theorem trailing_violated (ds : List (Fin 10)) (hne : ds ≠ []) (hn : number ds < 2 ^ 31) (c : Char) (r : List Char)
    (hc : digit c = none) : domain (some (ds.map chr ++ c :: r)) = (number ds, false) := by
  have h := stoi_digits ds (c :: r) hne (by simpa using hc)
  unfold domain
  simp only [h, if_pos hn]
  have : ((number ds : ℤ) % 2 ^ 64) = number ds := by omega
  rw [this, Int.toNat_natCast]

example : domain (some "4robot".toList) = (4, false) := by decide +kernel
example : domain (some "0x10".toList) = (0, false) := by decide +kernel

/-- C310, violated: a negative number gives a domain next to two to the 64, no error is logged. -/
theorem negative_violated (ds : List (Fin 10)) (hne : ds ≠ []) (h0 : 0 < number ds) (hn : number ds ≤ 2 ^ 31) :
    domain (some ('-' :: ds.map chr)) = (2 ^ 64 - number ds, false) := by
  have h := readDigits_append ds [] (by simp) 0 false
  rw [List.append_nil] at h
  have hemp : ds.isEmpty = false := by cases ds with
    | nil => exact absurd rfl hne
    | cons _ _ => rfl
  have hs : stoi ('-' :: ds.map chr) = some (-(number ds : ℤ)) := by
    unfold stoi
    have hd : ('-' :: ds.map chr).dropWhile blank = '-' :: ds.map chr := by
      simp [show blank '-' = false from by decide]
    rw [hd]
    simp only [h, hemp, number]
    generalize hN : ds.foldl (fun v d => 10 * v + d.val) 0 = n
    have hN' : number ds = n := hN
    simp only [Bool.not_false, Bool.or_true, if_true]
    rw [if_pos]
    constructor <;> omega
  simp only [domain, hs]
  have : (-(number ds : ℤ)) % 2 ^ 64 = ((2 ^ 64 - number ds : ℕ) : ℤ) := by omega
  rw [this]
  simp

example : domain (some "-1".toList) = (18446744073709551615, false) := by decide +kernel

end Verif.Control.RosSigint
