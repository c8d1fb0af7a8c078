import Mathlib.Data.List.Induction
import Mathlib.Tactic.ByContra
/-!
Model of `RPlidarDriver` (external/rplidar/RPlidarDriver.cpp), the adapter between the old and the new interface of the lidar library, and of the way
`RPLidar` (src/hal/RPLidar.cpp) uses it.  The library itself is the environment: what it returns is input of the model, what it is told is output.
The members `_channel` and `_lidarDrv` are declared in a header of the library which is not part of the repository; no constructor of
RPlidarDriver.cpp sets them (47-52), so they hold no value until `connect` assigns them.
-/
namespace Verif.External.LidarAdapter

/-! ### The adapter -/

/-- A member which is a pointer: without a value, null or an object of the library. -/
inductive Ptr where
  | unset
  | null
  | object
deriving DecidableEq

/-- An object: the type of the channel (`none`: constructed by `RPlidarDriver()`, 47) and the two members. -/
structure Drv where
  type : Option Nat
  channel : Ptr := .unset
  lidar : Ptr := .unset
deriving DecidableEq

/-- `CHANNEL_TYPE_SERIALPORT`, `CHANNEL_TYPE_TCP` and `CHANNEL_TYPE_UDP` are 0, 1 and 2. -/
def known (t : Nat) : Bool := t ≤ 2

/-- What the library is told. -/
inductive Cmd where
  | connect
  | disconnect
  | isConnected
  | reset
  | getHealth (timeout : Nat)
  | startScan (force typical : Bool) (options : Nat)
  | setMotorSpeed (speed : Nat)
  | checkMotor (timeout : Nat)
  | stop (timeout : Nat)
  | grab (timeout : Nat)
  | ascend (count : Nat)
deriving DecidableEq

/-- Calls of the old interface. -/
inductive Call where
  /-- `connect`; the channel and the driver which the library creates are objects or null -/
  | connect (channel driver : Bool)
  | disconnect
  | isConnected
  | reset (timeout : Nat)
  | getHealth (timeout : Nat)
  | startScan (force typical : Bool) (options : Nat)
  | setMotorPWM (pwm : Nat)
  | checkMotor (timeout : Nat)
  | stop (timeout : Nat)
  | grab (timeout : Nat)
  | ascend (count : Nat)
  | startMotor
  | stopMotor
  /-- `getScanDataWithInterval`, 175-178 -/
  | interval
deriving DecidableEq

/-- Outcome of a call. -/
inductive Res where
  /-- a member without value is read, or a null pointer is used -/
  | undefined
  /-- the call returns; the command for the library, if there is one; `false`: the adapter itself reports a failure -/
  | ok (d : Drv) (cmd : Option Cmd) (forwarded : Bool)
deriving DecidableEq

def ptr (b : Bool) : Ptr := if b then .object else .null

/-- `connect`, 67-89: the `switch` leaves `_channel` alone for other types; an indeterminate type is read. -/
def connect (d : Drv) (channel driver : Bool) : Res :=
  match d.type with
  | none => .undefined
  | some t =>
    let d1 : Drv := if known t then { d with channel := ptr channel } else d
    match d1.channel with
    | .unset => .undefined
    | .null => .ok d1 none false
    | .object =>
      let d2 : Drv := { d1 with lidar := ptr driver }
      if driver then .ok d2 (some .connect) true else .ok d2 none false

/-- A method which calls a method of `_lidarDrv`. -/
def forward (d : Drv) (c : Cmd) : Res :=
  match d.lidar with
  | .object => .ok d (some c) true
  | _ => .undefined

/-- The methods, 91-192: `reset` drops the time limit (101-104), `setMotorPWM` passes the value on as a speed (136-139), `startMotor` and `stopMotor`
are the speeds 600 and 0 (185-192). -/
def call (d : Drv) : Call → Res
  | .connect c l => connect d c l
  | .disconnect => forward d .disconnect
  | .isConnected => forward d .isConnected
  | .reset _ => forward d .reset
  | .getHealth t => forward d (.getHealth t)
  | .startScan f t o => forward d (.startScan f t o)
  | .setMotorPWM p => forward d (.setMotorSpeed p)
  | .checkMotor t => forward d (.checkMotor t)
  | .stop t => forward d (.stop t)
  | .grab t => forward d (.grab t)
  | .ascend n => forward d (.ascend n)
  | .startMotor => forward d (.setMotorSpeed 600)
  | .stopMotor => forward d (.setMotorSpeed 0)
  | .interval => .ok d none false

/-- A sequence of calls: the commands which the library gets, `none` if the behaviour is undefined. -/
def exec : Drv → List Call → Option (Drv × List Cmd)
  | d, [] => some (d, [])
  | d, c :: cs =>
    match call d c with
    | .undefined => none
    | .ok d1 cmd _ => (exec d1 cs).map fun r => (r.1, cmd.toList ++ r.2)

/-- `checkMotorCtrlSupport`, 141-148: the variable of the caller afterwards; `kind`: what the library wrote (0 is `MotorCtrlSupportNone`), `none`: it did not
write.  `none` as result: an indeterminate value is compared. -/
def checkSupport (support : Bool) (kind : Option Nat) : Option Bool :=
  kind.map fun k => if k = 0 then false else support

/-! ### Theorems -/

/-- Specification: the call needs the driver object of the library. -/
def Needs (c : Call) : Prop := (∀ a b, c ≠ .connect a b) ∧ c ≠ .interval

theorem call_needs (d : Drv) (c : Call) (hn : Needs c) : (∃ cmd, call d c = .ok d (some cmd) true) ∨ (d.lidar ≠ .object ∧ call d c = .undefined) := by
  obtain ⟨h1, h2⟩ := hn
  rcases hl : d.lidar with _ | _ | _ <;> cases c <;> first | exact absurd rfl (h1 _ _) | exact absurd rfl h2 | simp [call, forward, hl]

/-- Specification of the state of the driver pointer: what the last `connect` which got a channel was given. -/
def lidarAfter : List Call → Ptr
  | [] => .unset
  | cs@(_ :: _) => match cs.reverse.find? (fun c => match c with | .connect true _ => true | _ => false) with
    | some (.connect _ l) => ptr l
    | _ => .unset

theorem lidarAfter_snoc (cs : List Call) (c : Call) : lidarAfter (cs ++ [c]) = match c with
    | .connect true l => ptr l
    | _ => lidarAfter cs := by
  cases cs with
  | nil => cases c <;> simp [lidarAfter] <;> (rename_i a b; cases a <;> simp)
  | cons x xs =>
    cases c <;> simp [lidarAfter]
    rename_i a b
    cases a <;> simp

theorem exec_snoc (cs : List Call) (c : Call) : ∀ (d : Drv), exec d (cs ++ [c]) = match exec d cs with
    | none => none
    | some (d1, l) => match call d1 c with
      | .undefined => none
      | .ok d2 cmd _ => some (d2, l ++ cmd.toList) := by
  induction cs with
  | nil => intro d; simp [exec]
  | cons x xs ih =>
    intro d
    simp only [List.cons_append, exec]
    cases call d x with
    | undefined => rfl
    | ok d1 cmd f =>
      simp only [ih]
      cases exec d1 xs with
      | none => rfl
      | some r =>
        obtain ⟨d2, l⟩ := r
        simp only [Option.map_some]
        cases call d2 c <;> simp

/-- C320: for an object with a known type of channel a sequence of calls is defined exactly if every call which needs the driver of the library comes after a
`connect` which got a channel, and the last such `connect` before it got a driver; the members follow the last such `connect`. -/
theorem defined_iff (t : Nat) (ht : known t = true) (cs : List Call) :
    (∃ r, exec { type := some t } cs = some r) ↔ ∀ pre c post, cs = pre ++ c :: post → Needs c → lidarAfter pre = .object := by
  have key : ∀ (cs : List Call), (∀ pre c post, cs = pre ++ c :: post → Needs c → lidarAfter pre = .object) →
      ∃ d l, exec { type := some t } cs = some (d, l) ∧ d.type = some t ∧ d.lidar = lidarAfter cs := by
    intro cs
    induction cs using List.reverseRecOn with
    | nil => intro _; exact ⟨_, _, rfl, rfl, rfl⟩
    | append_singleton cs c ih =>
      intro h
      obtain ⟨d, l, h1, h2, h3⟩ := ih (fun pre c' post e hc => h pre c' (post ++ [c]) (by rw [e]; simp) hc)
      rw [exec_snoc, h1]
      simp only
      by_cases hn : Needs c
      · have hp := h cs c [] (by simp) hn
        rcases call_needs d c hn with ⟨cmd, hc⟩ | ⟨hb, _⟩
        · rw [hc]
          refine ⟨d, _, rfl, h2, ?_⟩
          rw [lidarAfter_snoc, h3]
          cases c <;> first | rfl | skip
          exact absurd rfl (hn.1 _ _)
        · exact absurd (h3.trans hp) hb
      · cases c <;> first | (exfalso; apply hn; refine ⟨fun a b => ?_, ?_⟩ <;> simp; done) | skip
        · rename_i a b
          simp only [call, connect, h2, ht, if_true]
          cases a
          · refine ⟨_, _, rfl, rfl, ?_⟩
            rw [lidarAfter_snoc]; exact h3
          · simp only [ptr, if_true]
            cases b
            · refine ⟨_, _, rfl, rfl, ?_⟩
              rw [lidarAfter_snoc]; rfl
            · refine ⟨_, _, rfl, rfl, ?_⟩
              rw [lidarAfter_snoc]; rfl
        · refine ⟨d, _, rfl, h2, ?_⟩
          rw [lidarAfter_snoc]; exact h3
  constructor
  · rintro ⟨r, hr⟩ pre c post e hn
    -- the shortest prefix which violates the rule is undefined
    induction hk : pre.length using Nat.strongRecOn generalizing pre c post with
    | _ k ih =>
      obtain ⟨d, l, h1, h2, h3⟩ := key pre (fun pre' c' post' e' hn' => ih pre'.length (by rw [← hk, e']; simp) pre' c' (post' ++ c :: post)
        (by rw [e, e']; simp) hn' rfl)
      rcases call_needs d c hn with ⟨cmd, hc⟩ | ⟨hb, hc⟩
      · rw [← h3]
        by_contra hb
        rcases hl : d.lidar with _ | _ | _ <;> first | exact absurd hl hb | skip
        all_goals (cases c <;> first | exact absurd rfl (hn.1 _ _) | exact absurd rfl hn.2 | simp [call, forward, hl] at hc)
      · exfalso
        have hu : exec { type := some t } (pre ++ [c]) = none := by rw [exec_snoc, h1]; simp only [hc]
        have happ : ∀ (a b : List Call) (d : Drv), exec d a = none → exec d (a ++ b) = none := by
          intro a b
          induction a with
          | nil => intro d h; simp [exec] at h
          | cons x xs ihx =>
            intro d h
            simp only [List.cons_append, exec] at h ⊢
            cases hx : call d x with
            | undefined => rfl
            | ok d1 cmd f =>
              rw [hx] at h
              simp only [Option.map_eq_none_iff] at h ⊢
              exact ihx _ h
        have hnone := happ (pre ++ [c]) post _ hu
        have ecs : cs = (pre ++ [c]) ++ post := by rw [e]; simp
        rw [← ecs, hr] at hnone
        simp at hnone
  · intro h
    obtain ⟨d, l, h1, _, _⟩ := key cs h
    exact ⟨_, h1⟩

example : known 0 = true := rfl
example : exec { type := some 0 } [.connect true true, .startMotor, .interval] = some (⟨some 0, .object, .object⟩, [.connect, .setMotorSpeed 600]) := rfl

/-- Specification: the command of the new interface for a call of the old one. -/
def told : Call → Option Cmd
  | .connect _ _ => some .connect
  | .disconnect => some .disconnect
  | .isConnected => some .isConnected
  | .reset _ => some .reset
  | .getHealth t => some (.getHealth t)
  | .startScan f t o => some (.startScan f t o)
  | .setMotorPWM p => some (.setMotorSpeed p)
  | .checkMotor t => some (.checkMotor t)
  | .stop t => some (.stop t)
  | .grab t => some (.grab t)
  | .ascend n => some (.ascend n)
  | .startMotor => some (.setMotorSpeed 600)
  | .stopMotor => some (.setMotorSpeed 0)
  | .interval => none

/-- C320, the part which holds: after a first `connect` which gets channel and driver (and if all later ones do), all calls are passed on to the library, each by
its command, in order and nothing else. -/
theorem forwards_partial (t : Nat) (ht : known t = true) (cs : List Call) (hc : ∀ a b, .connect a b ∈ cs → a = true ∧ b = true) :
    exec { type := some t } (.connect true true :: cs) = some (⟨some t, .object, .object⟩, .connect :: cs.filterMap told) := by
  have h : ∀ cs : List Call, (∀ a b, .connect a b ∈ cs → a = true ∧ b = true) →
      exec ⟨some t, .object, .object⟩ cs = some (⟨some t, .object, .object⟩, cs.filterMap told) := by
    intro cs
    induction cs with
    | nil => intro _; rfl
    | cons x xs ih =>
      intro hx
      have ih' := ih (fun a b h => hx a b (by simp [h]))
      cases x <;> simp [exec, call, forward, told, ih', List.filterMap_cons]
      rename_i a b
      obtain ⟨rfl, rfl⟩ := hx a b (by simp)
      simp [connect, ht, ptr, ih']
  simp only [exec, call, connect, ht, if_true, ptr]
  rw [h cs hc]
  rfl

example : ∀ a b, Call.connect a b ∈ [Call.startMotor, .connect true true, .grab 10, .stopMotor] → a = true ∧ b = true := by
  intro a b h; simp at h; exact h

/-- C320: a call which returns reports a failure of its own exactly if it told the library nothing: no failure after a command, no silent success. -/
theorem own_failure_iff (d d' : Drv) (c : Call) (cmd : Option Cmd) (f : Bool) (h : call d c = .ok d' cmd f) : f = false ↔ cmd = none := by
  cases c
  case connect a b =>
    simp only [call, connect] at h
    cases ht : d.type with
    | none => rw [ht] at h; cases h
    | some t =>
      rw [ht] at h
      simp only at h
      split at h
      · cases h
      · cases h; simp
      · cases b <;> simp at h <;> obtain ⟨_, rfl, rfl⟩ := h <;> simp
  all_goals
    simp only [call, forward] at h
    first
    | (cases h; simp)
    | (split at h
       · cases h; simp
       · cases h)

example : call ⟨some 1, .object, .object⟩ .interval = .ok ⟨some 1, .object, .object⟩ none false := rfl

/-- C320 violated: every call before `connect`, also the test `isConnected` and `disconnect`, uses a member without value. -/
theorem before_connect_violated (t : Option Nat) (c : Call) (hn : Needs c) (cs : List Call) : exec { type := t } (c :: cs) = none := by
  rcases call_needs { type := t } c hn with ⟨cmd, hc⟩ | ⟨_, hc⟩
  · exfalso
    cases c <;> first | exact absurd rfl (hn.1 _ _) | exact absurd rfl hn.2 | simp [call, forward] at hc
  · simp [exec, hc]

/-- C320 violated: `connect` on a new object with an unknown type of channel, or without type, reads a member without value. -/
theorem unknown_type_violated (t : Option Nat) (ht : ∀ k, t = some k → known k = false) (a b : Bool) : call { type := t } (.connect a b) = .undefined := by
  cases t with
  | none => rfl
  | some k => simp [call, connect, ht k rfl]

example : ∀ k, (some 7 : Option Nat) = some k → known k = false := by intro k h; cases h; rfl
example : Needs .disconnect := ⟨by simp, by simp⟩

/-- C320: the answer of `checkMotorCtrlSupport` is right exactly if the library writes its kind and the caller had `true` in the variable or there is no support. -/
theorem support_iff (support : Bool) (kind : Option Nat) :
    (∃ k, kind = some k ∧ checkSupport support kind = some (decide (k ≠ 0))) ↔ ∃ k, kind = some k ∧ (support = true ∨ k = 0) := by
  cases kind with
  | none => simp
  | some k => cases support <;> by_cases hk : k = 0 <;> simp [checkSupport, hk]

/-- C320 violated: support is never reported to a caller which starts from `false`, whatever the lidar can do. -/
theorem support_violated (k : Nat) (hk : k ≠ 0) : checkSupport false (some k) = some false ∧ checkSupport false (some k) ≠ some (decide (k ≠ 0)) := by
  simp [checkSupport, hk]

example : checkSupport true (some 2) = some true ∧ checkSupport false (some 2) = some false ∧ checkSupport true (some 0) = some false := by decide

/-! ### The lidar class -/

/-- The calls of the constructor of `RPLidar`, RPLidar.cpp 5-48, and whether it reaches its end (`starting = false`); `up`: the result of `connect`
(115200 baud on a serial line) is good.  2000 is the time limit which `getHealth` has by default in the library. -/
def construct (channel driver up : Bool) : List Call × Bool :=
  if channel && driver && up then ([.connect channel driver, .getHealth 2000, .startMotor, .startScan false true 0], true)
  else ([.connect channel driver], false)

/-- A pass of the loop of the thread, 81-86: the scan and, if it is good, its sorting. -/
def scan (s : Option Nat) : List Call := .grab 2000 :: (s.map Call.ascend).toList

/-- The destructor after the thread has ended, 53-57 (2000 is the time limit of `stop` by default). -/
def destruct : List Call := [.stop 2000, .stopMotor, .disconnect]

/-- Specification: the speed of the motor after a sequence of commands, 0 at the beginning. -/
def motor (l : List Cmd) : Nat := l.foldl (fun v c => match c with | .setMotorSpeed s => s | _ => v) 0

theorem exec_append (a b : List Call) : ∀ (d : Drv), exec d (a ++ b) = (exec d a).bind fun r => (exec r.1 b).map fun q => (q.1, r.2 ++ q.2) := by
  induction a with
  | nil => intro d; cases h : exec d b <;> simp [exec, h]
  | cons x xs ih =>
    intro d
    simp only [List.cons_append, exec]
    cases call d x with
    | undefined => rfl
    | ok d1 cmd f =>
      simp only [ih]
      cases exec d1 xs with
      | none => rfl
      | some r =>
        simp only [Option.bind_some, Option.map_some]
        cases exec r.1 b <;> simp

def scanCmds (s : Option Nat) : List Cmd := .grab 2000 :: (s.map Cmd.ascend).toList

theorem exec_scans (scans : List (Option Nat)) : ∀ (d : Drv), d.lidar = .object → exec d (scans.flatMap scan) = some (d, scans.flatMap scanCmds) := by
  induction scans with
  | nil => intro d _; rfl
  | cons s ss ih =>
    intro d h
    rw [List.flatMap_cons, exec_append]
    cases s <;> simp [scan, exec, call, forward, h, ih d h, scanCmds]

theorem motor_append (a b : List Cmd) (h : ∀ s, .setMotorSpeed s ∉ b) : motor (a ++ b) = motor a := by
  unfold motor
  rw [List.foldl_append]
  generalize List.foldl _ 0 a = v
  induction b generalizing v with
  | nil => rfl
  | cons x xs ih =>
    rw [List.foldl_cons, ih (fun s hs => h s (by simp [hs]))]
    cases x <;> first | rfl | skip
    exact absurd List.mem_cons_self (h _)

/-- C321: over a whole life of an `RPLidar` whose connection is good, with any number of good and failed scans, nothing is undefined; the motor turns during all
scans and stands still at the end, the connection is opened first and closed last. -/
theorem life (scans : List (Option Nat)) :
    ∃ d l, exec { type := some 0 } ((construct true true true).1 ++ scans.flatMap scan ++ destruct) = some (d, l) ∧
      motor l = 0 ∧ l.head? = some .connect ∧ l.getLast? = some .disconnect ∧
      (∀ k ≤ scans.length, ∃ d1 l1, exec { type := some 0 } ((construct true true true).1 ++ (scans.take k).flatMap scan) = some (d1, l1) ∧ motor l1 = 600) := by
  have hpart : ∀ (ss : List (Option Nat)), exec { type := some 0 } ((construct true true true).1 ++ ss.flatMap scan) =
      some (⟨some 0, .object, .object⟩, [.connect, .getHealth 2000, .setMotorSpeed 600, .startScan false true 0] ++ ss.flatMap scanCmds) := by
    intro ss
    have h1 : exec { type := some 0 } (construct true true true).1 =
        some (⟨some 0, .object, .object⟩, [.connect, .getHealth 2000, .setMotorSpeed 600, .startScan false true 0]) := by decide
    rw [exec_append, h1]
    simp [exec_scans ss ⟨some 0, .object, .object⟩ rfl]
  have hno : ∀ (ss : List (Option Nat)) (s : Nat), Cmd.setMotorSpeed s ∉ ss.flatMap scanCmds := by
    intro ss s hs
    rw [List.mem_flatMap] at hs
    obtain ⟨a, _, ha⟩ := hs
    cases a <;> simp [scanCmds] at ha
  have hd : exec ⟨some 0, .object, .object⟩ destruct = some (⟨some 0, .object, .object⟩, [.stop 2000, .setMotorSpeed 0, .disconnect]) := by decide
  refine ⟨⟨some 0, .object, .object⟩, _, by rw [exec_append, hpart]; simp only [Option.bind_some, hd, Option.map_some]; rfl, ?_, ?_, ?_, ?_⟩
  · simp [motor, List.foldl_append]
  · simp
  · rw [List.getLast?_append]; rfl
  · intro k _
    refine ⟨_, _, hpart _, ?_⟩
    rw [motor_append _ _ (hno _)]
    rfl

example : exec { type := some 0 } ((construct true true true).1 ++ [some 5, none].flatMap scan ++ destruct) = some (⟨some 0, .object, .object⟩,
    [.connect, .getHealth 2000, .setMotorSpeed 600, .startScan false true 0, .grab 2000, .ascend 5, .grab 2000, .stop 2000, .setMotorSpeed 0, .disconnect]) := by decide

/-- C321: without connection the constructor leaves the thread waiting; the destructor is harmless for the adapter exactly if channel and driver were created. -/
theorem destruct_iff (channel driver up : Bool) (hf : (construct channel driver up).2 = false) :
    (∃ r, exec { type := some 0 } ((construct channel driver up).1 ++ destruct) = some r) ↔ channel = true ∧ driver = true := by
  cases channel <;> cases driver <;> cases up <;> simp_all [construct, exec, call, connect, forward, ptr, destruct, known]

example : (construct true false true).2 = false := rfl

end Verif.External.LidarAdapter
