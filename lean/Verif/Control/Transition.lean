import Mathlib.Algebra.Order.Floor.Defs
import Mathlib.Algebra.Order.Field.Basic
/-!
Model of `Transition` with its `TransitionInBlock` and `TransitionOutBlock` (includes/eeros/control/Transition.hpp) with exact arithmetic.
Every run of either side is one step; the accesses to the shared members are inside the lock except for the read of `refresh` (122).
-/
namespace Verif.Control.Transition
variable {K : Type} [Field K] [LinearOrder K] [FloorRing K]

/-- A signal; `val = none` is the NaN of a cleared signal. -/
structure Sig (K : Type) where
  val : Option K
  ts : Nat
deriving DecidableEq

def cleared : Sig K := ⟨none, 0⟩

/-- State of the container (66-73) and of the out block (152-158).  `dVal = none` is NaN. -/
structure St (K : Type) where
  steady : Bool
  ratio : K
  buf : List (Sig K)
  cin : Sig K
  cprev : Sig K
  refresh : Bool
  oin : Sig K
  oprev : Sig K
  dVal : Option K
  dTime : K
  count : Nat

/-- Memory which no constructor initialises: `in` of the container with a ratio below one (49-53, the constructor of `Signal` leaves its members
alone, Signal.hpp:37-39), `dVal` and `dTime` of the out block (156-157). -/
structure Raw (K : Type) where
  cin : Sig K
  dVal : Option K
  dTime : K

/-- Constructors, 42-54 and 112.  `raw` is what happens to be in the memory; the default is for the modes which do not look at it before
it is written.  (`prevIn` of the container with a ratio below one is never read.) -/
def new (ratio : K) (steady : Bool) (raw : Raw K := ⟨cleared, none, 0⟩) : St K :=
  { steady := steady, ratio := ratio, buf := [], cin := if 1 ≤ ratio then cleared else raw.cin, cprev := cleared, refresh := false,
    oin := cleared, oprev := cleared, dVal := raw.dVal, dTime := raw.dTime, count := 0 }

/-- `up` of both blocks: slow to fast (43). -/
def St.up (s : St K) : Bool := decide (1 ≤ s.ratio)

/-- `TransitionInBlock::run`, 82-101. -/
def runIn (s : St K) (sig : Sig K) : St K :=
  if s.steady then { s with cin := sig }
  else if s.up then { s with cprev := s.cin, cin := sig, refresh := true }
  else { s with buf := s.buf ++ [sig] }

/-- The search of lines 140-142: number of leading samples older than `time`, minus one if positive. -/
def pick (time : Nat) (buf : List (Sig K)) : Nat := (buf.takeWhile (fun b => decide (b.ts < time))).length - 1

/-- Lines 122-131: take over a refreshed pair of samples.  `(in.ts - prev.ts)` is unsigned; time stamps are assumed not to decrease. -/
def takeRefresh (s : St K) : St K :=
  if s.refresh then
    { s with
      oprev := s.cprev, oin := s.cin, refresh := false, count := 0
      dVal := (match s.cin.val, s.cprev.val with | some a, some b => some ((a - b) / s.ratio) | _, _ => none)
      dTime := ((s.cin.ts - s.cprev.ts : Nat) : K) / s.ratio }
  else s

/-- Lines 132-136: the interpolated sample. -/
def publish (s : St K) : St K × Sig K :=
  ({ s with count := s.count + 1 },
    ⟨(match s.oprev.val, s.dVal with | some p, some d => some (p + d * (s.count : K)) | _, _ => none),
     (⌊(s.oprev.ts : K) + (s.count : K) * s.dTime⌋).toNat⟩)

/-- `TransitionOutBlock::run`, 114-150; `time` is the time stamp of the out block's own input (138).  `none`: read of element 0 of an empty
vector (143), undefined behaviour. -/
def runOut (s : St K) (time : Nat) : Option (St K × Sig K) :=
  if s.steady then some (s, s.cin)
  else if s.up then
    some (publish (takeRefresh s))
  else
    match s.buf[pick time s.buf]? with
    | none => none
    | some sig => some ({ s with buf := [] }, sig)

inductive Op (K : Type) where
  | inp (sig : Sig K)
  | out (time : Nat)

/-- Any interleaving of both sides; collects the published signals, `none` when undefined behaviour occurred. -/
def exec : St K → List (Op K) → Option (St K × List (Sig K))
  | s, [] => some (s, [])
  | s, .inp sig :: ops => exec (runIn s sig) ops
  | s, .out t :: ops => match runOut s t with
    | none => none
    | some (s', o) => (exec s' ops).map (fun r => (r.1, o :: r.2))

end Verif.Control.Transition
