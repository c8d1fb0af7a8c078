import Verif.Hal.JsonParser
import Mathlib.Tactic.SplitIfs
import Mathlib.Tactic.Tauto
set_option linter.unusedSectionVars false
namespace Verif.Hal.JsonParser

variable {S V : Type}

/-! ### Specification: what the file says about every channel, without any state -/

/-- The library of a device as given by the last of the keys `pre`. -/
def lastLib (pre : List (DevKey S V)) : String :=
  (pre.reverse.findSome? fun | .library n => some n | _ => none).getD ""

def lastHandle (pre : List (DevKey S V)) : String :=
  (pre.reverse.findSome? fun | .devHandle n => some n | _ => none).getD ""

def lastType (pre : List (SubKey S V)) : String :=
  (pre.reverse.findSome? fun | .type n => some n | _ => none).getD ""

/-- What has to be done for a file, with everything that concerns a channel in one place. -/
inductive Item (S V : Type) where
  | openLib (name : String)
  | badNumber
  | badKey
  | chan (lib dev : String) (sub : Nat) (type : String) (c : Chan S V)

/-- The keys of a subdevice, after the keys `pre` of the same subdevice: a channel has its own type or the last one given before. -/
def subItems (lib dev : String) (sub : Nat) (pre : List (SubKey S V)) : List (SubKey S V) → List (Item S V)
  | [] => []
  | .type t :: l => subItems lib dev sub (pre ++ [.type t]) l
  | .chan c :: l => .chan lib dev sub (if c.type = "" then lastType pre else c.type) c :: subItems lib dev sub (pre ++ [.chan c]) l
  | .other n :: l => .badKey :: subItems lib dev sub (pre ++ [.other n]) l

/-- The keys of a device, after the keys `pre` of the same device. -/
def devItems (pre : List (DevKey S V)) : List (DevKey S V) → List (Item S V)
  | [] => []
  | .library n :: l => .openLib n :: devItems (pre ++ [.library n]) l
  | .devHandle n :: l => devItems (pre ++ [.devHandle n]) l
  | .sub n keys :: l =>
    (if intMax < n then [.badNumber] else subItems (lastLib pre) (lastHandle pre) n [] keys) ++ devItems (pre ++ [.sub n keys]) l
  | .other n :: l => devItems (pre ++ [.other n]) l

/-- Every device on its own. -/
def items (d : Doc S V) : List (Item S V) := d.flatMap (devItems [])

/-- The object which a channel describes; `none` for a type which does not exist. -/
def target (comedi : Bool) (lib dev : String) (sub : Nat) (type : String) (c : Chan S V) (k : S) : Option (Obj S V) :=
  if type = "DigIn" ∨ type = "Watchdog" then some (.logic .input type c.sigId lib dev sub c.number c.inverted c.args)
  else if type = "DigOut" then some (.logic .output type c.sigId lib dev sub c.number c.inverted c.args)
  else if type = "AnalogOut" ∨ type = "Pwm" then
    some (.output type c.sigId lib dev sub c.number k (c.unit.getD "") c.args c.safe)
  else if type = "AnalogIn" then some (.input type c.sigId lib dev sub c.number k (c.unit.getD "") c.args)
  else if type = "Fqd" then
    if comedi then some (.encoder c.sigId lib dev sub (c.encA.getD 0) (c.encB.getD 0) (c.encZ.getD 0) k (c.unit.getD ""))
    else some (.input type c.sigId lib dev sub c.number k (c.unit.getD "") c.args)
  else none

/-- The object of a channel, or why there is none. -/
def chanSpec (e : Env S V) (created : List (Obj S V)) (lib dev : String) (sub : Nat) (type : String) (c : Chan S V) :
    Except Fault (Obj S V) :=
  if intMax < c.number then .error .outOfRange
  else if lib = "" then .error .noLibrary
  else if dev = "" then .error .noHandle
  else match c.scaling with
    | none => .error .scaling
    | some k =>
      match target (e.comedi lib) lib dev sub type c k with
      | none => .error .undefinedType
      | some o =>
        if type = "Fqd" ∧ e.comedi lib = true ∧ (c.encA = some (-1) ∨ c.encB = some (-1)) then .error .noEncoderChannels
        else if c.sigId = "" then .error .invalidArgument
        else if e.dlsym lib type = false then .error .noCreateFunction
        else if e.accepts created o then .ok o
        else .error .refused

/-- One item, for the libraries opened and the objects created so far. -/
def doItem (e : Env S V) (libs : List String) (created : List (Obj S V)) : Item S V → Except Fault (List String × List (Obj S V))
  | .openLib n => if n ∈ libs then .ok (libs, created) else if e.dlopen n then .ok (libs ++ [n], created) else .error .dlopen
  | .badNumber => .error .outOfRange
  | .badKey => .error .badKey
  | .chan lib dev sub type c => (chanSpec e created lib dev sub type c).map fun o => (libs, created ++ [o])

/-- The items one after the other up to the first fault. -/
def doItems (e : Env S V) : List (Item S V) → List String → List (Obj S V) → List String × List (Obj S V) × Option Fault
  | [], libs, created => (libs, created, none)
  | i :: l, libs, created => match doItem e libs created i with
    | .error f => (libs, created, some f)
    | .ok (libs', created') => doItems e l libs' created'

/-! ### C101: creating the inputs and outputs from the configuration file -/

/-- The state between two keys. -/
structure Ctx (s : St S V) (lib dev type : String) (libs : List String) (created : List (Obj S V)) : Prop where
  hLib : s.library = lib
  hDev : s.devHandle = dev
  hType : s.type = type
  hLibs : s.libs = libs
  hCreated : s.created = created
  hUnit : s.unit = ""
  hSafe : s.safe = none
  hFresh : s.channelCreated = false
  hKnown : lib = "" ∨ lib ∈ libs

/-- The result of the code is the result of the specification, and the next key finds the given context. -/
def Agree (r : Res S V) (x : List String × List (Obj S V) × Option Fault) (lib dev type : String) : Prop :=
  r.2 = x.2.2 ∧ r.1.created = x.2.1 ∧ (r.2 = none → Ctx r.1 lib dev type x.1 x.2.1)

theorem doItems_append (e : Env S V) (a b : List (Item S V)) (libs : List String) (created : List (Obj S V)) :
    doItems e (a ++ b) libs created =
      if (doItems e a libs created).2.2 = none then doItems e b (doItems e a libs created).1 (doItems e a libs created).2.1
      else doItems e a libs created := by
  induction a generalizing libs created with
  | nil => simp [doItems]
  | cons i a ih =>
    simp only [List.cons_append, doItems]
    obtain ⟨x, hx⟩ : ∃ x, doItem e libs created i = x := ⟨_, rfl⟩
    simp only [hx]
    cases x with
    | error f => simp
    | ok p => exact ih p.1 p.2

theorem typeOf_none_iff (t : String) : typeOf t = none ↔ dirOf t = none := by
  unfold typeOf dirOf; split_ifs <;> simp

theorem empty_undefined : typeOf "" = none := by decide

theorem channel_agree (e : Env S V) (sub : Nat) (c : Chan S V) (s : St S V) {lib dev type libs created}
    (h : Ctx s lib dev type libs created) :
    Agree (channel e sub c s)
      (doItems e [.chan lib dev sub (if c.type = "" then type else c.type) c] libs created) lib dev type := by
  obtain ⟨rfl, rfl, rfl, rfl, rfl, h6, h7, h8, h9⟩ := h
  obtain ⟨library, devHandle, type, chanType, sigId, unit, args, inverted, scaling, safe, cc, libs, created⟩ := s
  simp only at h6 h7 h8 h9
  subst h6 h7 h8
  unfold Agree
  simp only [doItems, doItem, chanSpec, channel]
  by_cases h1 : intMax < c.number
  · simp [h1, Except.map]
  by_cases h2 : library = ""
  · simp [h1, h2, Except.map]
  have h9' : library ∈ libs := by tauto
  by_cases h3 : devHandle = ""
  · simp [h1, h2, h3, h9', Except.map]
  simp only [h1, h2, h3, h9', if_false, not_true]
  cases hk : c.scaling with
  | none => simp [parseProps, Except.map]
  | some k =>
    have hd : defaultType (setScaling k (parseProps c (⟨library, devHandle, type, chanType, sigId, "", args, inverted, scaling, none,
        false, libs, created⟩ : St S V))) =
        ⟨library, devHandle, type, if c.type = "" then type else c.type, c.sigId, c.unit.getD "", c.args, c.inverted, some k, c.safe,
          false, libs, created⟩ := by
      unfold defaultType setScaling parseProps
      cases c.unit <;> cases c.safe <;> by_cases ht : c.type = "" <;> simp [ht]
    simp only [hd]
    generalize (if c.type = "" then type else c.type) = t
    have ha (x : Option Int) : (x.getD 0 = -1) ↔ x = some (-1) := by cases x <;> simp
    simp only [comediFqd, ha]
    by_cases hf : t = "Fqd"
    · subst hf
      by_cases hc : e.comedi library = true
      · by_cases hx : c.encA = some (-1) ∨ c.encB = some (-1)
        · simp [hc, hx, target, andThen, Except.map]
        · by_cases hi : c.sigId = ""
          · simp [hc, hx, target, andThen, Except.map, createComediFqd, hi]
          · by_cases hs : e.dlsym library "Fqd" = false
            · simp [hc, hx, target, andThen, Except.map, createComediFqd, hi, h3, hs]
            · simp only [hc, hx, target, createComediFqd, hi, h3, hs]
              simp [dirOf, add]
              split_ifs with hacc
              · simp [andThen, createOther, typeOf, clear, Except.map]
                exact ⟨rfl, rfl, rfl, rfl, rfl, rfl, rfl, rfl, Or.inr h9'⟩
              · simp [andThen, Except.map]
      · have hc' : e.comedi library = false := by simpa using hc
        by_cases hi : c.sigId = ""
        · simp [hc', target, andThen, Except.map, createOther, typeOf, createReal, hi]
        · by_cases hs : e.dlsym library "Fqd" = false
          · simp [hc', target, andThen, Except.map, createOther, typeOf, createReal, hi, h3, hs]
          · simp [hc', target, andThen, createOther, typeOf, createReal, hi, h3, hs, dirOf, add]
            split_ifs with hacc
            · simp [clear, Except.map]
              exact ⟨rfl, rfl, rfl, rfl, rfl, rfl, rfl, rfl, Or.inr h9'⟩
            · simp [Except.map]
    · simp only [hf, false_and, if_false]
      by_cases hu : typeOf t = none
      · have : target (e.comedi library) library devHandle sub t c k = none := by
          unfold typeOf at hu
          unfold target
          split_ifs at hu with g1 g2 g3 g4 g5 g6
          simp [g1, g2, g3, g4, g5, g6, hf]
        simp [this, andThen, createOther, hu, Except.map]
      · have ht : t ≠ "" := by rintro rfl; exact hu empty_undefined
        by_cases hi : c.sigId = ""
        · have : ∃ o, target (e.comedi library) library devHandle sub t c k = some o := by
            unfold typeOf at hu
            unfold target
            split_ifs at hu <;> simp_all
          obtain ⟨o, ho⟩ := this
          cases hk : typeOf t with
          | none => exact absurd hk hu
          | some kk => cases kk <;> simp [ho, andThen, createOther, hk, createReal, createLogic, hi, Except.map]
        · by_cases hs : e.dlsym library t = false
          · have : ∃ o, target (e.comedi library) library devHandle sub t c k = some o := by
              unfold typeOf at hu
              unfold target
              split_ifs at hu <;> simp_all
            obtain ⟨o, ho⟩ := this
            cases hk : typeOf t with
            | none => exact absurd hk hu
            | some kk => cases kk <;> simp [ho, andThen, createOther, hk, createReal, createLogic, hi, h3, ht, hs, Except.map]
          · have hcases : t = "DigIn" ∨ t = "DigOut" ∨ t = "AnalogOut" ∨ t = "AnalogIn" ∨ t = "Pwm" ∨ t = "Watchdog" := by
              unfold typeOf at hu
              split_ifs at hu <;> simp_all
            rcases hcases with rfl | rfl | rfl | rfl | rfl | rfl <;>
              (simp [target, andThen, createOther, typeOf, createReal, createLogic, hi, h3, hs, dirOf, add]
               split_ifs with hacc
               · simp [clear, Except.map]
                 exact ⟨rfl, rfl, rfl, rfl, rfl, rfl, rfl, rfl, Or.inr h9'⟩
               · simp [Except.map])

theorem agree_andThen {e : Env S V} {r : Res S V} {a b : List (Item S V)} {libs : List String} {created : List (Obj S V)}
    {lib dev type lib' dev' type' : String} {f : St S V → Res S V}
    (h : Agree r (doItems e a libs created) lib dev type)
    (hf : ∀ s libs created, Ctx s lib dev type libs created → Agree (f s) (doItems e b libs created) lib' dev' type') :
    Agree (andThen r f) (doItems e (a ++ b) libs created) lib' dev' type' := by
  rw [doItems_append]
  obtain ⟨h1, h2, h3⟩ := h
  unfold andThen
  cases hr : r.2 with
  | none =>
    have : (doItems e a libs created).2.2 = none := by rw [← h1, hr]
    simp only [this, if_true]
    exact hf _ _ _ (h3 hr)
  | some x =>
    have : (doItems e a libs created).2.2 = some x := by rw [← h1, hr]
    simp only [this]
    refine ⟨by simp [this], by simpa using h2, by simp⟩

theorem lastType_snoc (pre : List (SubKey S V)) (k : SubKey S V) :
    lastType (pre ++ [k]) = match k with | .type t => t | _ => lastType pre := by
  unfold lastType
  cases k <;> simp

theorem lastLib_snoc (pre : List (DevKey S V)) (k : DevKey S V) :
    lastLib (pre ++ [k]) = match k with | .library t => t | _ => lastLib pre := by
  unfold lastLib
  cases k <;> simp

theorem lastHandle_snoc (pre : List (DevKey S V)) (k : DevKey S V) :
    lastHandle (pre ++ [k]) = match k with | .devHandle t => t | _ => lastHandle pre := by
  unfold lastHandle
  cases k <;> simp

theorem subKeys_agree (e : Env S V) (sub : Nat) (lib dev : String) (l pre : List (SubKey S V)) (s : St S V) {libs created}
    (h : Ctx s lib dev (lastType pre) libs created) :
    Agree (subKeys e sub l s) (doItems e (subItems lib dev sub pre l) libs created) lib dev (lastType (pre ++ l)) := by
  induction l generalizing pre s libs created with
  | nil => exact ⟨rfl, h.hCreated, fun _ => by simpa [subKeys, subItems, doItems] using h⟩
  | cons k l ih =>
    have happ : pre ++ k :: l = (pre ++ [k]) ++ l := by simp
    cases k with
    | type t =>
      have h' : Ctx { s with type := t } lib dev (lastType (pre ++ [.type t])) libs created := by
        rw [lastType_snoc]
        obtain ⟨h1, h2, h3, h4, h5, h6, h7, h8, h9⟩ := h
        exact ⟨h1, h2, rfl, h4, h5, h6, h7, h8, h9⟩
      have := ih (pre ++ [.type t]) _ h'
      rw [happ]
      simpa [subKeys, subKey, andThen, subItems] using this
    | chan c =>
      rw [happ]
      exact agree_andThen (channel_agree e sub c s h) fun s' libs' created' h' => ih (pre ++ [.chan c]) s' (by rwa [lastType_snoc])
    | other n =>
      simp [subKeys, subKey, andThen, subItems, Agree, doItems, doItem, h.hCreated]

theorem devKeys_agree (e : Env S V) (l pre : List (DevKey S V)) (s : St S V) {libs created}
    (h : Ctx s (lastLib pre) (lastHandle pre) "" libs created) :
    Agree (devKeys e l s) (doItems e (devItems pre l) libs created) (lastLib (pre ++ l)) (lastHandle (pre ++ l)) "" := by
  induction l generalizing pre s libs created with
  | nil => exact ⟨rfl, h.hCreated, fun _ => by simpa [devKeys, devItems, doItems] using h⟩
  | cons k l ih =>
    have happ : pre ++ k :: l = (pre ++ [k]) ++ l := by simp
    rw [happ]
    cases k with
    | library n =>
      refine agree_andThen (a := [.openLib n]) (lib := lastLib (pre ++ [.library n]))
        (dev := lastHandle (pre ++ [.library n])) (type := "") ?_ fun s' libs' created' h' => ih _ s' h'
      rw [lastLib_snoc, lastHandle_snoc]
      obtain ⟨h1, h2, h3, h4, h5, h6, h7, h8, h9⟩ := h
      simp only [devKey, library, doItems, doItem, h4, Agree]
      split_ifs with g1 g2
      · exact ⟨rfl, h5, fun _ => ⟨rfl, h2, h3, rfl, h5, h6, h7, h8, Or.inr g1⟩⟩
      · exact ⟨rfl, h5, fun _ => ⟨rfl, h2, h3, by simp, h5, h6, h7, h8, Or.inr (by simp)⟩⟩
      · simp [h5]
    | devHandle n =>
      have h' : Ctx { s with devHandle := n } (lastLib (pre ++ [.devHandle n])) (lastHandle (pre ++ [.devHandle n])) "" libs created := by
        rw [lastLib_snoc, lastHandle_snoc]
        obtain ⟨h1, h2, h3, h4, h5, h6, h7, h8, h9⟩ := h
        exact ⟨h1, rfl, h3, h4, h5, h6, h7, h8, h9⟩
      have := ih _ _ h'
      simpa [devKeys, devKey, andThen, devItems] using this
    | sub n keys =>
      refine agree_andThen (lib := lastLib (pre ++ [.sub n keys]))
        (dev := lastHandle (pre ++ [.sub n keys])) (type := "") ?_ fun s' libs' created' h' => ih _ s' h'
      rw [lastLib_snoc, lastHandle_snoc]
      simp only [devKey]
      split_ifs with g
      · simp [Agree, doItems, doItem, h.hCreated]
      · have hs := subKeys_agree e n (lastLib pre) (lastHandle pre) keys [] s (libs := libs) (created := created)
          (by simpa [lastType] using h)
        rw [← List.append_nil (subItems _ _ _ _ _)]
        refine agree_andThen hs fun s' libs' created' h' => ?_
        obtain ⟨h1, h2, h3, h4, h5, h6, h7, h8, h9⟩ := h'
        exact ⟨rfl, h5, fun _ => ⟨h1, h2, rfl, h4, h5, h6, h7, h8, h9⟩⟩
    | other n =>
      have h' : Ctx s (lastLib (pre ++ [.other n])) (lastHandle (pre ++ [.other n])) "" libs created := by
        rw [lastLib_snoc, lastHandle_snoc]; exact h
      have := ih _ _ h'
      simpa [devKeys, devKey, andThen, devItems] using this

theorem devices_agree (e : Env S V) (d : Doc S V) (s : St S V) {libs created} (h : Ctx s "" "" "" libs created) :
    Agree (devices e d s) (doItems e (items d) libs created) "" "" "" := by
  induction d generalizing s libs created with
  | nil => exact ⟨rfl, h.hCreated, fun _ => h⟩
  | cons k d ih =>
    unfold items
    rw [List.flatMap_cons]
    refine agree_andThen (lib := "") (dev := "") (type := "") ?_ fun s' libs' created' h' => ih s' h'
    rw [← List.append_nil (devItems _ _)]
    refine agree_andThen (devKeys_agree e k [] s (by simpa [lastLib, lastHandle] using h)) fun s' libs' created' h' => ?_
    obtain ⟨h1, h2, h3, h4, h5, h6, h7, h8, h9⟩ := h'
    exact ⟨rfl, h5, fun _ => ⟨rfl, rfl, h3, h4, h5, h6, h7, h8, Or.inl rfl⟩⟩

/-- **C101.** Refinement: whatever the file, the loops with their eleven variables do exactly what the file says channel by channel: the
library and the device handle are those given before in the same device, the type is the one of the channel or the one given before in
the same subdevice, every other property is the one of the channel itself.  In particular no setting is handed over from one device,
subdevice or channel to the next. -/
theorem creates_what_is_written (e : Env S V) (libs : List String) (d : Doc S V) :
    createHalObjects e libs d = ((doItems e (items d) libs []).2.1, (doItems e (items d) libs []).2.2) := by
  have := devices_agree e d (init libs) (libs := libs) (created := []) ⟨rfl, rfl, rfl, rfl, rfl, rfl, rfl, rfl, Or.inl rfl⟩
  unfold createHalObjects
  exact Prod.ext this.2.1 this.1

/-- **C101.** The exception "library not loaded" (line 149) is never thrown. -/
theorem never_notLoaded (e : Env S V) (libs : List String) (d : Doc S V) : (createHalObjects e libs d).2 ≠ some .notLoaded := by
  rw [creates_what_is_written]
  simp only
  generalize items d = l
  generalize ([] : List (Obj S V)) = created
  induction l generalizing libs created with
  | nil => simp [doItems]
  | cons i l ih =>
    simp only [doItems]
    cases hi : doItem e libs created i with
    | ok p => exact ih p.1 p.2
    | error f =>
      simp only
      intro hf
      have hf : f = .notLoaded := by simpa using hf
      subst hf
      cases i with
      | openLib n => simp only [doItem] at hi; split_ifs at hi; simp at hi
      | badNumber => simp [doItem] at hi
      | badKey => simp [doItem] at hi
      | chan lib dev sub type c =>
        simp only [doItem, chanSpec] at hi
        cases hk : c.scaling with
        | none =>
          simp only [hk] at hi
          split_ifs at hi <;> simp [Except.map] at hi
        | some k =>
          simp only [hk] at hi
          cases ht : target (e.comedi lib) lib dev sub type c k with
          | none =>
            simp only [ht] at hi
            split_ifs at hi <;> simp [Except.map] at hi
          | some o =>
            simp only [ht] at hi
            split_ifs at hi <;> simp [Except.map] at hi

/-- The channels which the items mention. -/
def chanCount (l : List (Item S V)) : Nat := l.countP fun | .chan .. => true | _ => false

/-- **C101.** Success means that there is one object for every channel of the file. -/
theorem success_all (e : Env S V) (libs : List String) (d : Doc S V) (h : (createHalObjects e libs d).2 = none) :
    (createHalObjects e libs d).1.length = chanCount (items d) := by
  rw [creates_what_is_written] at h ⊢
  simp only at h ⊢
  suffices ∀ (l : List (Item S V)) libs created, (doItems e l libs created).2.2 = none →
      (doItems e l libs created).2.1.length = created.length + chanCount l by
    simpa using this (items d) libs [] h
  intro l
  induction l with
  | nil => intro libs created _; simp [doItems, chanCount]
  | cons i l ih =>
    intro libs created h
    simp only [doItems] at h ⊢
    cases hi : doItem e libs created i with
    | error f => simp [hi] at h
    | ok p =>
      simp only [hi] at h ⊢
      have := ih p.1 p.2 h
      rw [this]
      cases i with
      | openLib n =>
        simp only [doItem] at hi
        split_ifs at hi <;> simp at hi <;> subst hi <;> simp [chanCount]
      | badNumber => simp [doItem] at hi
      | badKey => simp [doItem] at hi
      | chan lib dev sub type c =>
        simp only [doItem] at hi
        cases hc : chanSpec e created lib dev sub type c with
        | error f => simp [hc, Except.map] at hi
        | ok o =>
          simp [hc, Except.map] at hi
          subst hi
          simp [chanCount]
          omega

/-- **C101.** A device which is added at the end of the file does not change what the devices before it create. -/
theorem devices_independent (e : Env S V) (libs : List String) (d : Doc S V) (dev : List (DevKey S V)) :
    (createHalObjects e libs d).1 <+: (createHalObjects e libs (d ++ [dev])).1 := by
  rw [creates_what_is_written, creates_what_is_written]
  simp only
  have hmono : ∀ (l : List (Item S V)) libs created, created <+: (doItems e l libs created).2.1 := by
    intro l
    induction l with
    | nil => intro libs created; simp [doItems]
    | cons i l ih =>
      intro libs created
      simp only [doItems]
      cases hi : doItem e libs created i with
      | error f => exact List.prefix_rfl
      | ok p =>
        refine List.IsPrefix.trans ?_ (ih p.1 p.2)
        cases i with
        | openLib n => simp only [doItem] at hi; split_ifs at hi <;> simp at hi <;> subst hi <;> exact List.prefix_rfl
        | badNumber => simp [doItem] at hi
        | badKey => simp [doItem] at hi
        | chan lib dev sub type c =>
          simp only [doItem] at hi
          cases hc : chanSpec e created lib dev sub type c with
          | error f => simp [hc, Except.map] at hi
          | ok o =>
            simp [hc, Except.map] at hi
            subst hi
            exact List.prefix_append _ _
  have : items (d ++ [dev]) = items d ++ devItems [] dev := by simp [items]
  rw [this, doItems_append]
  split_ifs
  · exact hmono _ _ _
  · exact List.prefix_rfl

/-! #### Violations -/

/-- **C101, violation.** Keys which are not known are not reported in a device: without a number, or with a misspelt name, a whole
subdevice is ignored and the creation succeeds all the same. -/
theorem unknown_device_key_ignored (e : Env S V) (libs : List String) (d1 d2 : Doc S V) (a b : List (DevKey S V)) (n : String) :
    createHalObjects e libs (d1 ++ [a ++ [.other n] ++ b] ++ d2) = createHalObjects e libs (d1 ++ [a ++ b] ++ d2) := by
  have key : ∀ (a pre pre' : List (DevKey S V)), lastLib pre = lastLib pre' → lastHandle pre = lastHandle pre' →
      devItems pre a = devItems pre' a := by
    intro a
    induction a with
    | nil => intros; rfl
    | cons k a ih =>
      intro pre pre' h1 h2
      have hk := ih (pre ++ [k]) (pre' ++ [k]) (by simp only [lastLib_snoc, h1]) (by simp only [lastHandle_snoc, h2])
      cases k <;> simp only [devItems, h1, h2, hk]
  have happ : ∀ (a b pre : List (DevKey S V)), devItems pre (a ++ b) = devItems pre a ++ devItems (pre ++ a) b := by
    intro a b
    induction a with
    | nil => intro pre; simp [devItems]
    | cons k a ih => intro pre; cases k <;> simp [devItems, ih, List.append_assoc]
  have : items (d1 ++ [a ++ [.other n] ++ b] ++ d2) = items (d1 ++ [a ++ b] ++ d2) := by
    simp only [items, List.flatMap_append, List.flatMap_cons, List.flatMap_nil, List.append_nil]
    rw [happ, happ, happ]
    congr 2
    simp only [devItems, List.append_nil]
    congr 1
    exact key b _ _ (by rw [← List.append_assoc, lastLib_snoc]) (by rw [← List.append_assoc, lastHandle_snoc])
  rw [creates_what_is_written, creates_what_is_written, this]

/-- A channel for the examples. -/
def exChan : Chan Unit Unit := ⟨0, "enc", "", false, "", none, none, none, none, none, some ()⟩

def exEnv : Env Unit Unit := ⟨fun _ => true, fun _ _ => true, fun s => s == "libcomedieeros.so", fun _ _ => true⟩

/-- A successful file with two devices. -/
example : (createHalObjects exEnv []
    [[.library "libflinkeeros.so", .devHandle "/dev/flink0", .sub 0 [.type "DigOut", .chan exChan, .chan { exChan with number := 1 }]],
     [.library "libcomedieeros.so", .devHandle "/dev/comedi0", .sub 2 [.type "AnalogIn", .chan exChan]]]).2 = none := by decide +kernel

/-- **C101, violation.** The result depends on the order of the keys: with the type after the channel the creation fails. -/
theorem order_matters :
    (createHalObjects exEnv [] [[.library "a", .devHandle "b", .sub 0 [.type "Fqd", .chan exChan]]]).2 = none ∧
    (createHalObjects exEnv [] [[.library "a", .devHandle "b", .sub 0 [.chan exChan, .type "Fqd"]]]).2 = some .undefinedType ∧
    (createHalObjects exEnv [] [[.sub 0 [.type "Fqd", .chan exChan], .library "a", .devHandle "b"]]).2 = some .noLibrary := by
  decide +kernel

/-- **C101, violation.** The check of line 111 for missing encoder channels never works: for every comedi encoder without the keys
`encChannelA` and `encChannelB` no such exception is thrown, and if an object is created it counts channel 0 for both tracks. -/
theorem missing_encoder_channels_accepted (e : Env S V) (created : List (Obj S V)) (lib dev : String) (sub : Nat) (c : Chan S V)
    (hl : e.comedi lib = true) (ha : c.encA = none) (hb : c.encB = none) :
    chanSpec e created lib dev sub "Fqd" c ≠ .error .noEncoderChannels ∧
    ∀ o, chanSpec e created lib dev sub "Fqd" c = .ok o → ∃ z k, o = .encoder c.sigId lib dev sub 0 0 z k (c.unit.getD "") := by
  have ht (k : S) : target (e.comedi lib) lib dev sub "Fqd" c k =
      some (.encoder c.sigId lib dev sub 0 0 (c.encZ.getD 0) k (c.unit.getD "")) := by
    simp [target, hl, ha, hb]
  unfold chanSpec
  cases c.scaling with
  | none => constructor
            · split_ifs <;> simp
            · intro o h; split_ifs at h
  | some k =>
    simp only [ht, ha, hb]
    constructor
    · split_ifs <;> simp_all
    · intro o h
      split_ifs at h <;> simp at h
      exact ⟨_, k, h.symm⟩

example : (createHalObjects exEnv [] [[.library "libcomedieeros.so", .devHandle "b", .sub 0 [.type "Fqd", .chan exChan]]]).2 = none := by
  decide +kernel

/-- **C101, violation.** The creation is not all or nothing: whatever was created before the first fault stays in the HAL. -/
theorem partial_creation :
    ∃ d : Doc Unit Unit, (createHalObjects exEnv [] d).2 ≠ none ∧ (createHalObjects exEnv [] d).1 ≠ [] := by
  refine ⟨[[.library "a", .devHandle "b", .sub 0 [.type "Fqd", .chan exChan, .other "chanel1"]]], ?_, ?_⟩
  · decide +kernel
  · intro h
    have : (createHalObjects exEnv [] [[.library "a", .devHandle "b", .sub 0 [.type "Fqd", .chan exChan, .other "chanel1"]]]).1.length = 1 := by
      decide +kernel
    rw [h] at this
    simp at this

end Verif.Hal.JsonParser
