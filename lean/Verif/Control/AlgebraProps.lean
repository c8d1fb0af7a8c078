import Verif.Control.Algebra
import Mathlib.Data.Rat.Defs
import Mathlib.Algebra.Field.Rat
import Mathlib.Data.Fin.VecNotation
import Mathlib.Tactic.NormNum
namespace Verif.Control.Algebra
open scoped BigOperators

variable {V : Type} [AddCommGroup V]

/-- The value input `i` contributes: its initial condition in the first run if one is set, else the connected signal. -/
def contribution {N} (s : Sum N V) (ins : Fin N → Sig V) (i : Fin N) : V :=
  (if s.first then (s.init i).getD (ins i).val else (ins i).val)

theorem foldlM_addOne {N} (s : Sum N V) (ins : Fin N → Sig V) (l : List (Fin N)) (acc : V) :
    l.foldlM (s.addOne (fun i => some (ins i))) acc =
      .ok (acc + (l.map (fun i => if s.negated i then -contribution s ins i else contribution s ins i)).sum) := by
  induction l generalizing acc with
  | nil => simp [pure, Except.pure]
  | cons i l ih =>
    have h1 : s.addOne (fun i => some (ins i)) acc i =
        .ok (acc + (if s.negated i then -contribution s ins i else contribution s ins i)) := by
      unfold Sum.addOne contribution read
      cases hf : s.first <;> cases hi : s.init i <;> cases hn : s.negated i <;>
        simp [bind, Except.bind, sub_eq_add_neg]
    rw [List.foldlM_cons, h1]
    simp only [bind, Except.bind]
    rw [ih]
    simp [add_assoc]

/-- **C24, Sum.** With all inputs connected the output is the signed sum of the contributions, time-stamped as input 0. -/
theorem sum_correct {N} (s : Sum (N+1) V) (ins : Fin (N+1) → Sig V) :
    s.run (fun i => some (ins i)) = .ok ({ s with first := false },
      ⟨∑ i, (if s.negated i then -contribution s ins i else contribution s ins i), (ins 0).ts⟩) := by
  unfold Sum.run
  rw [foldlM_addOne]
  simp only [read, bind, Except.bind, zero_add, Fin.sum_univ_def]

/-- From the second run on initial conditions play no role. -/
theorem sum_later_runs {N} (s : Sum (N+1) V) (hs : s.first = false) (ins : Fin (N+1) → Sig V) :
    s.run (fun i => some (ins i)) = .ok (s,
      ⟨∑ i, (if s.negated i then -(ins i).val else (ins i).val), (ins 0).ts⟩) := by
  rw [sum_correct]
  have : ({ s with first := false } : Sum (N+1) V) = s := by cases s; simp_all
  simp [contribution, hs, this]


/-- A later run: the initial condition of input 2 has no effect any more. -/
example : (⟨false, ![false, true, false], ![none, none, some 10]⟩ : Sum 3 ℚ).run (fun i => some ⟨(![5, 2, 100] : Fin 3 → ℚ) i, 7⟩) =
    .ok (⟨false, ![false, true, false], ![none, none, some 10]⟩, ⟨103, 7⟩) := by
  rw [sum_later_runs _ rfl]
  simp [Fin.sum_univ_three]
  norm_num

/-- **C24, unconnected input.** Without initial condition an unconnected input always raises NotConnectedFault. -/
theorem sum_unconnected {N} (s : Sum (N+1) V) (ins : Fin (N+1) → Option (Sig V)) (i : Fin (N+1))
    (hi : ins i = none) (hinit : s.first = false ∨ s.init i = none) : s.run ins = .error .notConnected := by
  have key : ∀ (l : List (Fin (N+1))) (acc : V), i ∈ l → l.foldlM (s.addOne ins) acc = .error .notConnected := by
    intro l
    induction l with
    | nil => intro acc h; simp at h
    | cons j l ih =>
      intro acc h
      rw [List.foldlM_cons]
      cases hj : s.addOne ins acc j with
      | error e =>
        have : e = .notConnected := by
          unfold Sum.addOne read at hj
          cases h1 : (if s.first = true then s.init j else none) with
          | some v => simp [h1, bind, Except.bind] at hj
          | none =>
            cases h2 : ins j with
            | none => simp [h1, h2, bind, Except.bind] at hj; exact hj.symm
            | some v => simp [h1, h2, bind, Except.bind] at hj
        subst this; rfl
      | ok v =>
        simp only [bind, Except.bind]
        rcases List.mem_cons.1 h with rfl | h
        · exfalso
          unfold Sum.addOne read at hj
          have h1 : (if s.first = true then s.init i else none) = none := by
            rcases hinit with h | h
            · simp [h]
            · simp [h]
          simp [h1, hi, bind, Except.bind] at hj
        · exact ih v h
  unfold Sum.run
  rw [key _ _ (List.mem_finRange i)]
  rfl


/-- The second of two inputs is not connected. -/
example : (⟨true, fun _ => false, ![some 3, none]⟩ : Sum 2 ℚ).run ![some ⟨1, 7⟩, none] = .error .notConnected :=
  sum_unconnected _ _ 1 rfl (.inr rfl)

omit [AddCommGroup V] in
/-- **C24, indices.** `negateInput`, `setInitCondition` and the port getters accept exactly the indices below the number of ports;
an accepted call changes only the addressed input. -/
theorem index_checked {N} (s : Sum N V) (i : Nat) (v : V) :
    (N ≤ i → s.negate i = .error .index ∧ s.setInit i v = .error .index ∧ getPort N i = .error .index) ∧
    (∀ h : i < N, getPort N i = .ok ⟨i, h⟩ ∧
      (∃ s', s.negate i = .ok s' ∧ s'.first = s.first ∧ s'.init = s.init ∧
        ∀ j, s'.negated j = if j = ⟨i, h⟩ then true else s.negated j) ∧
      (∃ s', s.setInit i v = .ok s' ∧ s'.first = s.first ∧ s'.negated = s.negated ∧
        ∀ j, s'.init j = if j = ⟨i, h⟩ then some v else s.init j)) := by
  constructor
  · intro h
    have : ¬ i < N := Nat.not_lt.2 h
    simp [Sum.negate, Sum.setInit, getPort, this]
  · intro h
    refine ⟨by simp [getPort, h], 
      ⟨{ s with negated := Function.update s.negated ⟨i, h⟩ true }, by simp only [Sum.negate, h, dite_true], rfl, rfl, ?_⟩,
      ⟨{ s with init := Function.update s.init ⟨i, h⟩ (some v) }, by simp only [Sum.setInit, h, dite_true], rfl, rfl, ?_⟩⟩
    · intro j; simp [Function.update_apply]
    · intro j; simp [Function.update_apply]

omit [AddCommGroup V] in
/-- **C24, Mul.** The output is the product of the two inputs in this order, time-stamped as the first. -/
theorem mul_correct {A B C : Type} [HMul A B C] (a : Sig A) (b : Sig B) :
    (mulRun (some a) (some b) : Except Err (Sig C)) = .ok ⟨a.val * b.val, a.ts⟩ ∧
    (mulRun (none : Option (Sig A)) (some b) : Except Err (Sig C)) = .error .notConnected ∧
    (mulRun (some a) (none : Option (Sig B)) : Except Err (Sig C)) = .error .notConnected := ⟨rfl, rfl, rfl⟩

omit [AddCommGroup V] in
/-- **C24, Mux.** Component `i` of the output is the value of input `i`. -/
theorem mux_correct {N} (ins : Fin (N+1) → Sig V) :
    muxRun (fun i => some (ins i)) = .ok ⟨fun i => (ins i).val, (ins 0).ts⟩ := by simp [muxRun]

omit [AddCommGroup V] in
theorem mux_unconnected {N} (ins : Fin (N+1) → Option (Sig V)) (i : Fin (N+1)) (h : ins i = none) :
    muxRun ins = .error .notConnected := by
  unfold muxRun
  rw [dif_neg]
  intro hall
  simpa [h] using hall i


example : muxRun (![some ⟨(1 : ℚ), 7⟩, none, some ⟨3, 9⟩] : Fin 3 → Option (Sig ℚ)) = .error .notConnected := mux_unconnected _ 1 rfl

omit [AddCommGroup V] in
/-- **C24, DeMux after Mux** returns every input value; the time stamps are those of input 0. -/
theorem demux_mux {N} (ins : Fin (N+1) → Sig V) :
    (muxRun (fun i => some (ins i))).bind (fun s => demuxRun (some s)) = .ok (fun i => ⟨(ins i).val, (ins 0).ts⟩) := by
  rw [mux_correct]; rfl

omit [AddCommGroup V] in
/-- **C24, Mux after DeMux** is the identity on signals. -/
theorem mux_demux {N} (s : Sig (Fin (N+1) → V)) :
    (demuxRun (some s)).bind (fun outs => muxRun (fun i => some (outs i))) = .ok s := by
  simp [demuxRun, read, bind, Except.bind, mux_correct]

/-- Non-vacuity: 3 inputs, the middle one negated, input 2 with initial condition 10. -/
example : (((Sum.new 3 : Sum 3 ℚ).negate 1).bind (fun s => (s.setInit 2 10).bind (fun s =>
    (s.run (fun i => some ⟨(![5, 2, 100] : Fin 3 → ℚ) i, 7⟩)).map (·.2)))) = .ok ⟨13, 7⟩ := by
  simp only [Sum.negate, Sum.setInit, Except.bind, Nat.lt_add_one, dite_true, show (1 : ℕ) < 3 by decide]
  rw [sum_correct]
  simp [Fin.sum_univ_three, contribution, Sum.new, Function.update_apply, Except.map]
  norm_num

end Verif.Control.Algebra
