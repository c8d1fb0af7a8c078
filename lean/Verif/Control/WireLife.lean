import Mathlib.Data.List.Basic
import Mathlib.Tactic.Common

/-!
# Connections and the life time of outputs

An input keeps a raw pointer to the output it was connected to (`/repo/includes/eeros/control/Input.hpp:99`), and
neither `Output` (`Output.hpp:20-55`) nor any block has a destructor which disconnects the inputs. `getSignal`
(lines 82-87) follows the pointer. Here outputs are created and destroyed, at addresses which may be used again.
Simplified: all outputs have the same type of signal; a use of a pointer to an object which has ended is undefined
behaviour, unless a new output was created at the same place, which the pointer then refers to.
-/

namespace Verif.Control.WireLife

abbrev Addr := Nat
/-- Outputs are told apart by a number which is never used again. -/
abbrev Obj := Nat

/-- The output object at each address and the pointer `connectedOutput` of each input (Input.hpp:99). -/
structure St where
  mem : Addr → Option Obj
  conn : Nat → Option Addr
  made : Nat

/-- Nothing exists, no input is connected (Input.hpp:25, 32). -/
def init : St := ⟨fun _ => none, fun _ => none, 0⟩

inductive Op where
  /-- a block with an output is constructed at a free address -/
  | create (a : Addr)
  /-- its destructor -/
  | destroy (a : Addr)
  /-- `input.connect(output)`, `input.connect(&output)` -/
  | connect (i : Nat) (a : Addr)
  /-- `input.disconnect()` -/
  | disconnect (i : Nat)
deriving DecidableEq, Repr

/-- Construction, destruction, `connect` (Input.hpp:41-57) and `disconnect` (lines 62-64). A user can only connect an
output which exists. -/
def step (s : St) : Op → St
  | .create a => match s.mem a with
    | none => { s with mem := fun x => if x = a then some s.made else s.mem x, made := s.made + 1 }
    | some _ => s
  | .destroy a => { s with mem := fun x => if x = a then none else s.mem x }
  | .connect i a => match s.conn i, s.mem a with
    | none, some _ => { s with conn := fun j => if j = i then some a else s.conn j }
    | _, _ => s
  | .disconnect i => { s with conn := fun j => if j = i then none else s.conn j }

def exec (s : St) (ops : List Op) : St := ops.foldl step s

inductive Res where
  /-- the signal of this output -/
  | signal (o : Obj)
  /-- `NotConnectedFault` -/
  | fault
  /-- a destroyed object is used -/
  | ub
deriving DecidableEq, Repr

/-- `Input::getSignal` (Input.hpp:82-87). -/
def read (s : St) (i : Nat) : Res := match s.conn i with
  | none => .fault
  | some a => match s.mem a with
    | some o => .signal o
    | none => .ub

/-- `Input::isConnected` (Input.hpp:71-73). -/
def isConnected (s : St) (i : Nat) : Bool := (s.conn i).isSome

/-! ## Theorems -/

/-- The operations do not disconnect the input. -/
def Keeps (i : Nat) (ops : List Op) : Prop := Op.disconnect i ∉ ops

theorem keeps_conn {s : St} {i : Nat} {a : Addr} (h : s.conn i = some a) {ops : List Op} (hk : Keeps i ops) :
    (exec s ops).conn i = some a := by
  induction ops generalizing s with
  | nil => exact h
  | cons op l ih =>
    simp only [Keeps, List.mem_cons, not_or] at hk
    refine ih (s := step s op) ?_ hk.2
    cases op with
    | create b => simp only [step]; split <;> exact h
    | destroy b => exact h
    | connect j b =>
      simp only [step]
      split
      · rename_i hj _
        have : i ≠ j := by rintro rfl; rw [h] at hj; cases hj
        simp [this, h]
      · exact h
    | disconnect j =>
      have : i ≠ j := by rintro rfl; exact hk.1 rfl
      simp [step, this, h]

theorem alive_mem {s : St} {a : Addr} {o : Obj} (h : s.mem a = some o) {ops : List Op} (hk : Op.destroy a ∉ ops) :
    (exec s ops).mem a = some o := by
  induction ops generalizing s with
  | nil => exact h
  | cons op l ih =>
    simp only [List.mem_cons, not_or] at hk
    refine ih (s := step s op) ?_ hk.2
    cases op with
    | create b =>
      simp only [step]
      split
      · rename_i hb
        have : a ≠ b := by rintro rfl; rw [h] at hb; cases hb
        simp [this, h]
      · exact h
    | destroy b =>
      have : a ≠ b := by rintro rfl; exact hk.1 rfl
      simp [step, this, h]
    | connect j b => simp only [step]; split <;> exact h
    | disconnect j => exact h

theorem connected {s : St} {i : Nat} {a : Addr} {o : Obj} (hc : s.conn i = none) (hm : s.mem a = some o) :
    (step s (.connect i a)).conn i = some a ∧ (step s (.connect i a)).mem = s.mem := by
  simp [step, hc, hm]

/-- An input which was connected to an existing output delivers the signal of that very output, whatever is
constructed, destroyed and connected elsewhere, until it is disconnected, **as long as the output is not destroyed**.
(The full claim has no such condition; it is violated, see below.) -/
theorem connected_reads_partial {s : St} {i : Nat} {a : Addr} {o : Obj} (hc : s.conn i = none)
    (hm : s.mem a = some o) {ops : List Op} (hk : Op.disconnect i ∉ ops) (hd : Op.destroy a ∉ ops) :
    read (exec s (.connect i a :: ops)) i = .signal o := by
  obtain ⟨h1, h2⟩ := connected (i := i) hc hm
  have e1 := keeps_conn h1 (ops := ops) hk
  have e2 : (exec (step s (.connect i a)) ops).mem a = some o := alive_mem (by rw [h2]; exact hm) hd
  change read (exec (step s (.connect i a)) ops) i = _
  simp only [read, e1, e2]

/-- If the output is destroyed while the input is connected, the input still says that it is connected, and unless a
new output is created at the same place, reading it uses the destroyed object instead of raising a fault. -/
theorem destroyed_output_violated {s : St} {i : Nat} {a : Addr} {o : Obj} (hc : s.conn i = none)
    (hm : s.mem a = some o) {ops ops' : List Op} (hk : Op.disconnect i ∉ ops) (hk' : Op.disconnect i ∉ ops')
    (hn : Op.create a ∉ ops') :
    isConnected (exec s (.connect i a :: ops ++ .destroy a :: ops')) i = true ∧
    read (exec s (.connect i a :: ops ++ .destroy a :: ops')) i = .ub := by
  obtain ⟨h1, -⟩ := connected (i := i) hc hm
  have hk2 : Keeps i (ops ++ .destroy a :: ops') := by simp [Keeps, hk, hk']
  have e1 := keeps_conn h1 hk2
  have dead : ∀ (l : List Op) (t : St), t.mem a = none → Op.create a ∉ l → (exec t l).mem a = none := by
    intro l
    induction l with
    | nil => intro t h _; exact h
    | cons op l ih =>
      intro t h hl
      simp only [List.mem_cons, not_or] at hl
      refine ih (step t op) ?_ hl.2
      cases op with
      | create b =>
        have : a ≠ b := by rintro rfl; exact hl.1 rfl
        simp only [step]
        split
        · simp [this, h]
        · exact h
      | destroy b => simp [step, h]
      | connect j b => simp only [step]; split <;> exact h
      | disconnect j => exact h
  have e2 : (exec (step s (.connect i a)) (ops ++ .destroy a :: ops')).mem a = none := by
    have : exec (step s (.connect i a)) (ops ++ .destroy a :: ops') =
        exec (step (exec (step s (.connect i a)) ops) (.destroy a)) ops' := by simp [exec]
    rw [this]
    exact dead ops' _ (by simp [step]) hn
  change isConnected (exec (step s (.connect i a)) (ops ++ .destroy a :: ops')) i = true ∧
    read (exec (step s (.connect i a)) (ops ++ .destroy a :: ops')) i = .ub
  simp [isConnected, read, e1, e2]

/-- If a new output is created at the place of the destroyed one, the input silently delivers the signal of an output
it was never connected to. -/
theorem reused_place_violated {s : St} {i : Nat} {a : Addr} {o : Obj} (hc : s.conn i = none)
    (hm : s.mem a = some o) (hi : o < s.made) {ops : List Op} (hk : Op.disconnect i ∉ ops) (hd : Op.destroy a ∉ ops) :
    ∃ o', o' ≠ o ∧ read (exec s (.connect i a :: .destroy a :: .create a :: ops)) i = .signal o' := by
  refine ⟨s.made, Nat.ne_of_gt hi, ?_⟩
  obtain ⟨h1, -⟩ := connected (i := i) hc hm
  have hk2 : Keeps i (.destroy a :: .create a :: ops) := by simp [Keeps, hk]
  have e1 := keeps_conn h1 hk2
  have hmk : (step s (.connect i a)).made = s.made := by simp [step, hc, hm]
  have e2 : (exec (step s (.connect i a)) (.destroy a :: .create a :: ops)).mem a = some s.made := by
    have : exec (step s (.connect i a)) (.destroy a :: .create a :: ops) =
        exec (step (step (step s (.connect i a)) (.destroy a)) (.create a)) ops := rfl
    rw [this]
    refine alive_mem ?_ hd
    obtain ⟨t, ht⟩ : ∃ t, t = step s (.connect i a) := ⟨_, rfl⟩
    rw [← ht] at hmk ⊢
    simp [step, hmk]
  change read (exec (step s (.connect i a)) (.destroy a :: .create a :: ops)) i = _
  simp only [read, e1, e2]

/-- Objects have numbers below the number of those made, so that the last hypothesis above holds always. -/
theorem obj_lt (ops : List Op) {a : Addr} {o : Obj} (h : (exec init ops).mem a = some o) :
    o < (exec init ops).made := by
  have main : ∀ (l : List Op) (t : St), (∀ a o, t.mem a = some o → o < t.made) →
      ∀ a o, (exec t l).mem a = some o → o < (exec t l).made := by
    intro l
    induction l with
    | nil => intro t h; exact h
    | cons op l ih =>
      intro t h
      refine ih (step t op) ?_
      intro b p
      cases op with
      | create c =>
        simp only [step]
        split
        · simp only
          split
          · intro e; cases e; exact Nat.lt_succ_self _
          · intro e; exact Nat.lt_succ_of_lt (h b p e)
        · exact h b p
      | destroy c =>
        simp only [step]
        split
        · intro e; cases e
        · exact h b p
      | connect j c => simp only [step]; split <;> exact h b p
      | disconnect j => exact h b p
  exact main ops init (by simp [init]) a o h

/-- Two outputs at places 10 and 20, input 1 connected to the second, which is destroyed and replaced. -/
example : read (exec init [.create 10, .create 20, .connect 1 20, .connect 1 10, .create 30]) 1 = .signal 1 ∧
    read (exec init [.create 10, .create 20, .connect 1 20, .destroy 20, .create 30]) 1 = .ub ∧
    read (exec init [.create 10, .create 20, .connect 1 20, .destroy 20, .create 20]) 1 = .signal 2 ∧
    read (exec init [.create 10, .create 20, .connect 1 20, .destroy 20, .disconnect 1]) 1 = .fault := by decide

example : (exec init [.create 10, .create 20]).conn 1 = none ∧ (exec init [.create 10, .create 20]).mem 20 = some 1 ∧
    1 < (exec init [.create 10, .create 20]).made := by decide

end Verif.Control.WireLife
