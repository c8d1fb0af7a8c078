/-!
Model of the creation of the inputs and outputs from the configuration file: `JsonParser::createHalObjects`, src/hal/JsonParser.cpp:34-172,
with `parseChannelProperties` (174-190), `createLogicObject` (354-383), `createRealObject` (385-415), `createComediFqd` (417-442) and the
tables of includes/eeros/hal/HALFeatures.hpp:20-38.

The file is given as a tree of keys in the order in which the library `libucl` delivers them.  Values which are missing have been
replaced by the default of `libucl` (the empty string, `false`) except where the code looks at the presence of the key.  Simplified: the
result of `calcScale` (193-352, modelled in `Scale.lean`) is part of the input; `dlopen`, `dlsym`, the regular expression for the comedi
library and the refusal of an object by the HAL are functions of the environment; the type of the exception is a constructor of `Fault`.
-/
namespace Verif.Hal.JsonParser

variable {S V : Type}

/-- The keys of an object `channelN`. -/
structure Chan (S V : Type) where
  number : Nat
  sigId : String
  /-- the key `type`, empty if missing -/
  type : String
  inverted : Bool
  args : String
  unit : Option String
  safe : Option V
  encA : Option Int
  encB : Option Int
  encZ : Option Int
  /-- scale, offset and range; `none`: `calcScale` throws -/
  scaling : Option S

/-- A key of an object `subdeviceN`. -/
inductive SubKey (S V : Type) where
  | type (t : String)
  | chan (c : Chan S V)
  | other (name : String)

/-- A key of the object of a device. -/
inductive DevKey (S V : Type) where
  | library (name : String)
  | devHandle (name : String)
  | sub (number : Nat) (keys : List (SubKey S V))
  | other (name : String)

abbrev Doc (S V : Type) := List (List (DevKey S V))

inductive Kind where | logic | real
deriving DecidableEq, Repr

inductive Dir where | input | output
deriving DecidableEq, Repr

/-- HALFeatures.hpp:30-38 -/
def typeOf (t : String) : Option Kind :=
  if t = "DigIn" then some .logic else if t = "DigOut" then some .logic else if t = "AnalogOut" then some .real
  else if t = "AnalogIn" then some .real else if t = "Pwm" then some .real else if t = "Watchdog" then some .logic
  else if t = "Fqd" then some .real else none

/-- HALFeatures.hpp:20-28 -/
def dirOf (t : String) : Option Dir :=
  if t = "DigIn" then some .input else if t = "DigOut" then some .output else if t = "AnalogOut" then some .output
  else if t = "AnalogIn" then some .input else if t = "Pwm" then some .output else if t = "Watchdog" then some .input
  else if t = "Fqd" then some .input else none

/-- What is handed over to the library and added to the HAL. `safe` is `none` where the value is not a number. -/
inductive Obj (S V : Type) where
  | logic (dir : Dir) (type id lib dev : String) (sub chan : Nat) (inverted : Bool) (args : String)
  | input (type id lib dev : String) (sub chan : Nat) (scaling : S) (unit args : String)
  | output (type id lib dev : String) (sub chan : Nat) (scaling : S) (unit args : String) (safe : Option V)
  | encoder (id lib dev : String) (sub : Nat) (a b z : Int) (scaling : S) (unit : String)

inductive Fault where
  | dlopen | outOfRange | noLibrary | notLoaded | noHandle | scaling | noEncoderChannels | undefinedType | badKey
  | invalidArgument | noCreateFunction | direction | refused
deriving DecidableEq, Repr

structure Env (S V : Type) where
  /-- `dlopen` succeeds -/
  dlopen : String → Bool
  /-- the library has a function `create<type>` -/
  dlsym : String → String → Bool
  /-- the regular expression of line 103 -/
  comedi : String → Bool
  /-- the HAL with the objects added so far accepts the object -/
  accepts : List (Obj S V) → Obj S V → Bool

/-- The local variables of `createHalObjects`, the map of the libraries and the objects added to the HAL (newest last). -/
structure St (S V : Type) where
  library : String
  devHandle : String
  type : String
  chanType : String
  sigId : String
  unit : String
  args : String
  inverted : Bool
  scaling : Option S
  safe : Option V
  channelCreated : Bool
  libs : List String
  created : List (Obj S V)

/-- Lines 35-48. -/
def init (libs : List String) : St S V :=
  ⟨"", "", "", "", "", "", "", false, none, none, false, libs, []⟩

abbrev Res (S V : Type) := St S V × Option Fault

/-- Sequential composition: nothing happens after an exception. -/
def andThen (r : Res S V) (f : St S V → Res S V) : Res S V :=
  match r.2 with
  | some x => (r.1, some x)
  | none => f r.1

/-- `INT_MAX`, limit of `std::stoi` (74, 83). -/
def intMax : Nat := 2147483647

/-- `hal.addInput` / `hal.addOutput`. -/
def add (e : Env S V) (s : St S V) (o : Obj S V) : Res S V :=
  if e.accepts s.created o then ({ s with created := s.created ++ [o] }, none) else (s, some .refused)

/-- 354-383 -/
def createLogic (e : Env S V) (sub chan : Nat) (s : St S V) : Res S V :=
  if s.chanType = "" ∨ s.sigId = "" ∨ s.devHandle = "" then (s, some .invalidArgument)
  else if e.dlsym s.library s.chanType = false then (s, some .noCreateFunction)
  else match dirOf s.chanType with
    | some d => add e s (.logic d s.chanType s.sigId s.library s.devHandle sub chan s.inverted s.args)
    | none => (s, some .direction)

/-- 385-415 -/
def createReal (e : Env S V) (sub chan : Nat) (k : S) (s : St S V) : Res S V :=
  if s.chanType = "" ∨ s.sigId = "" ∨ s.devHandle = "" then (s, some .invalidArgument)
  else if e.dlsym s.library s.chanType = false then (s, some .noCreateFunction)
  else match dirOf s.chanType with
    | some .input => add e s (.input s.chanType s.sigId s.library s.devHandle sub chan k s.unit s.args)
    | some .output => add e s (.output s.chanType s.sigId s.library s.devHandle sub chan k s.unit s.args s.safe)
    | none => (s, some .direction)

/-- 417-442 -/
def createComediFqd (e : Env S V) (sub : Nat) (a b z : Int) (k : S) (s : St S V) : Res S V :=
  if s.chanType = "" ∨ s.sigId = "" ∨ s.devHandle = "" then (s, some .invalidArgument)
  else if e.dlsym s.library s.chanType = false then (s, some .noCreateFunction)
  else match dirOf s.chanType with
    | some .input => add e s (.encoder s.sigId s.library s.devHandle sub a b z k s.unit)
    | some .output => (s, some .direction)
    | none => (s, some .direction)

/-- `parseChannelProperties`, 174-187 (without `calcScale`). -/
def parseProps (c : Chan S V) (s : St S V) : St S V :=
  { s with
    sigId := c.sigId
    chanType := c.type
    inverted := c.inverted
    args := c.args
    unit := match c.unit with | some u => u | none => s.unit
    safe := match c.safe with | some v => some v | none => s.safe }

/-- Effect of `calcScale`, line 189. -/
def setScaling (k : S) (s : St S V) : St S V := { s with scaling := some k }

/-- 97-99 -/
def defaultType (s : St S V) : St S V := if s.chanType = "" then { s with chanType := s.type } else s

/-- 102-117; `int_value` of a missing key is 0. -/
def comediFqd (e : Env S V) (sub : Nat) (c : Chan S V) (k : S) (s : St S V) : Res S V :=
  if s.chanType = "Fqd" ∧ e.comedi s.library = true then
    let a := c.encA.getD 0
    let b := c.encB.getD 0
    let z := c.encZ.getD 0
    if a = -1 ∨ b = -1 then (s, some .noEncoderChannels)
    else andThen (createComediFqd e sub a b z k s) fun s => ({ s with channelCreated := true }, none)
  else (s, none)

/-- 119-132 -/
def createOther (e : Env S V) (sub chan : Nat) (k : S) (s : St S V) : Res S V :=
  match typeOf s.chanType with
  | some t =>
    if s.channelCreated = false then
      match t with
      | .real => createReal e sub chan k s
      | .logic => createLogic e sub chan s
    else (s, none)
  | none => if s.channelCreated = false then (s, some .undefinedType) else (s, none)

/-- 133-142 -/
def clear (s : St S V) : St S V :=
  { s with sigId := "", chanType := "", unit := "", inverted := false, scaling := none, safe := none, channelCreated := false }

/-- 81-155 -/
def channel (e : Env S V) (sub : Nat) (c : Chan S V) (s : St S V) : Res S V :=
  if intMax < c.number then (s, some .outOfRange)
  else if s.library = "" then (s, some .noLibrary)
  else if s.library ∉ s.libs then (s, some .notLoaded)
  else if s.devHandle = "" then (s, some .noHandle)
  else match c.scaling with
    | none => (parseProps c s, some .scaling)
    | some k =>
      andThen (comediFqd e sub c k (defaultType (setScaling k (parseProps c s)))) fun s =>
      andThen (createOther e sub c.number k s) fun s => (clear s, none)

/-- 77-158 -/
def subKey (e : Env S V) (sub : Nat) (s : St S V) : SubKey S V → Res S V
  | .type t => ({ s with type := t }, none)
  | .chan c => channel e sub c s
  | .other _ => (s, some .badKey)

/-- 75-159 -/
def subKeys (e : Env S V) (sub : Nat) : List (SubKey S V) → St S V → Res S V
  | [], s => (s, none)
  | k :: l, s => andThen (subKey e sub s k) (subKeys e sub l)

/-- 56-68 -/
def library (e : Env S V) (name : String) (s : St S V) : Res S V :=
  let s := { s with library := name }
  if name ∈ s.libs then (s, none)
  else if e.dlopen name then ({ s with libs := s.libs ++ [name] }, none)
  else (s, some .dlopen)

/-- 55-161 -/
def devKey (e : Env S V) (s : St S V) : DevKey S V → Res S V
  | .library n => library e n s
  | .devHandle n => ({ s with devHandle := n }, none)
  | .sub n keys =>
    if intMax < n then (s, some .outOfRange)
    else andThen (subKeys e n keys s) fun s => ({ s with type := "" }, none)
  | .other _ => (s, none)

/-- 54-162 -/
def devKeys (e : Env S V) : List (DevKey S V) → St S V → Res S V
  | [], s => (s, none)
  | k :: l, s => andThen (devKey e s k) (devKeys e l)

/-- 52-166 -/
def devices (e : Env S V) : Doc S V → St S V → Res S V
  | [], s => (s, none)
  | d :: l, s => andThen (andThen (devKeys e d s) fun s => ({ s with library := "", devHandle := "" }, none)) (devices e l)

/-- `createHalObjects` with the libraries which are already open: the objects added to the HAL and the exception thrown. -/
def createHalObjects (e : Env S V) (libs : List String) (d : Doc S V) : List (Obj S V) × Option Fault :=
  let r := devices e d (init libs)
  (r.1.created, r.2)

end Verif.Hal.JsonParser
