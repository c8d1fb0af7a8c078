import Mathlib.Algebra.BigOperators.Fin
import Mathlib.Data.List.FinRange
/-!
Model of the blocks `Sum`, `Mul`, `Mux`, `DeMux` (includes/eeros/control/{Sum,Mul,Mux,DeMux}.hpp) and of the index checks of
`Blockio::getIn/getOut`.  Signals are a value and a time stamp; an unconnected input is `none`.
-/
namespace Verif.Control.Algebra

structure Sig (V : Type) where
  val : V
  ts : Nat
deriving DecidableEq, Repr

inductive Err where
  | notConnected
  | index
deriving DecidableEq, Repr

variable {V : Type}

/-- `in[i].getSignal()`. -/
def read : Option (Sig V) → Except Err (Sig V)
  | none => .error .notConnected
  | some s => .ok s

/-- Sum.hpp:27-32, 90-95. -/
structure Sum (N : Nat) (V : Type) where
  first : Bool
  negated : Fin N → Bool
  init : Fin N → Option V

def Sum.new (N : Nat) : Sum N V := ⟨true, fun _ => false, fun _ => none⟩

/-- `negateInput`, 68-71. -/
def Sum.negate {N} (s : Sum N V) (i : Nat) : Except Err (Sum N V) :=
  if h : i < N then .ok { s with negated := Function.update s.negated ⟨i, h⟩ true } else .error .index

/-- `setInitCondition`, 83-87. -/
def Sum.setInit {N} (s : Sum N V) (i : Nat) (v : V) : Except Err (Sum N V) :=
  if h : i < N then .ok { s with init := Function.update s.init ⟨i, h⟩ (some v) } else .error .index

variable [AddCommGroup V]

/-- One turn of the loops 45-51 and 54-57. -/
def Sum.addOne {N} (s : Sum N V) (ins : Fin N → Option (Sig V)) (acc : V) (i : Fin N) : Except Err V := do
  let val ← (match (if s.first then s.init i else none) with
    | some v => .ok v
    | none => do let sg ← read (ins i); .ok sg.val)
  .ok (if s.negated i then acc - val else acc + val)

/-- `run`, 42-61, for at least one input.  The new state and the output signal. -/
def Sum.run {N} (s : Sum (N+1) V) (ins : Fin (N+1) → Option (Sig V)) : Except Err (Sum (N+1) V × Sig V) := do
  let sum ← (List.finRange (N+1)).foldlM (s.addOne ins) 0
  let s0 ← read (ins 0)
  .ok ({ s with first := false }, ⟨sum, s0.ts⟩)

omit [AddCommGroup V]

/-- `Mul::run`, Mul.hpp:15-20; the factors and the product may have different types (e.g. matrix times vector). -/
def mulRun {A B C : Type} [HMul A B C] (a : Option (Sig A)) (b : Option (Sig B)) : Except Err (Sig C) := do
  let x ← read a
  let y ← read b
  .ok ⟨x.val * y.val, x.ts⟩

/-- `Mux::run`, Mux.hpp:39-46. -/
def muxRun {N} (ins : Fin (N+1) → Option (Sig V)) : Except Err (Sig (Fin (N+1) → V)) :=
  if h : ∀ i, (ins i).isSome then .ok ⟨fun i => ((ins i).get (h i)).val, ((ins 0).get (h 0)).ts⟩
  else .error .notConnected

/-- `DeMux::run`, DeMux.hpp:39-44: the signals of the outputs afterwards. -/
def demuxRun {N} (inp : Option (Sig (Fin N → V))) : Except Err (Fin N → Sig V) := do
  let s ← read inp
  .ok (fun i => ⟨s.val i, s.ts⟩)

/-- `getIn`/`getOut`, Blockio.hpp:83-97: which input or output is returned. -/
def getPort (n : Nat) (i : Nat) : Except Err (Fin n) := if h : i < n then .ok ⟨i, h⟩ else .error .index

end Verif.Control.Algebra
