import Verif.Common.Monitor
import Verif.Common.LinSim
import Verif.Control.VectorCmp
/-!
`Gain` (includes/eeros/control/Gain.hpp) with a matrix as gain and multiplication by elements, whose gain and limits are set by other threads while it runs,
element by element.  `run` (107-142), `setGain` (219-229), `setMaxGain` (237-240), `setMinGain` (248-251) and `setGainDiff` (258-261) hold the mutex from the first to the
last access.  The comparison operators (Matrix.hpp:493-551) stop at the first element which decides; here they look at the remaining ones too, which changes nothing
but their reading.  The flags `enabled` (true) and `smoothChange` are not changed: setting them does not lock the mutex (155-190), which C211 is about.
The program examples/devel/multithreading.cpp tests exactly this.
-/
namespace Verif.Control.GainConc
open Verif.Common.Monitor Verif.Common.LinSim Verif.Control.VectorCmp

section
set_option linter.unusedSectionVars false
variable {K : Type} [Field K] [LinearOrder K] {n : Nat}

/-- 281-287. -/
structure Mem (K : Type) (n : Nat) where
  gain : Fin n → K
  max : Fin n → K
  min : Fin n → K
  target : Fin n → K
  diff : Fin n → K
  smooth : Bool

inductive Op (K : Type) (n : Nat) where
  | run (x : Fin n → K)
  | setGain (c : Fin n → K)
  | setMax (c : Fin n → K)
  | setMin (c : Fin n → K)
  | setDiff (c : Fin n → K)

/-- The results of the outer and of the inner comparison, and the elements of the product. -/
structure Loc (K : Type) (n : Nat) where
  outer : Bool
  inner : Bool
  out : Fin n → K

/-- A step on members and local variables. -/
abbrev Act (K : Type) (n : Nat) := Mem K n × Loc K n → Mem K n × Loc K n

/-- Writes one element. -/
def put (a : Fin n → K) (i : Fin n) (v : K) : Fin n → K := fun j => if j = i then v else a j

/-- One step for each element. -/
def each (f : Fin n → Act K n) : List (Act K n) := (List.finRange n).map f

/-- The next element of a comparison whose result is the outer condition. -/
def outer (p : Mem K n → Fin n → Bool) : List (Act K n) := each fun i x => (x.1, { x.2 with outer := x.2.outer && p x.1 i })
/-- The same for the inner condition. -/
def inner (p : Mem K n → Fin n → Bool) : List (Act K n) := each fun i x => (x.1, { x.2 with inner := x.2.inner && p x.1 i })
/-- The next element of an assignment to the gain under the outer condition. -/
def assign (v : Mem K n → Fin n → K) : List (Act K n) := each fun i x => if x.2.outer then ({ x.1 with gain := put x.1.gain i (v x.1 i) }, x.2) else x
/-- The same under the inner condition. -/
def assignIn (v : Mem K n → Fin n → K) : List (Act K n) := each fun i x => if x.2.inner then ({ x.1 with gain := put x.1.gain i (v x.1 i) }, x.2) else x

/-- The smooth change upwards (110-116). -/
def up : List (Act K n) :=
  [fun x => (x.1, { x.2 with outer := x.1.smooth })] ++ outer (fun m i => decide (m.gain i < m.target i)) ++ assign (fun m i => m.gain i + m.diff i) ++
  [fun x => (x.1, { x.2 with inner := x.2.outer })] ++ inner (fun m i => decide (m.target i < m.gain i)) ++ assignIn (fun m i => m.target i)
/-- Downwards (118-124). -/
def down : List (Act K n) :=
  [fun x => (x.1, { x.2 with outer := x.1.smooth })] ++ outer (fun m i => decide (m.target i < m.gain i)) ++ assign (fun m i => m.gain i - m.diff i) ++
  [fun x => (x.1, { x.2 with inner := x.2.outer })] ++ inner (fun m i => decide (m.gain i < m.target i)) ++ assignIn (fun m i => m.target i)

/-- The limits (126-132). -/
def limiting : List (Act K n) :=
  [fun x => (x.1, { x.2 with outer := true })] ++ outer (fun m i => decide (m.max i < m.gain i)) ++ assign (fun m i => m.max i) ++
  [fun x => (x.1, { x.2 with outer := true })] ++ outer (fun m i => decide (m.gain i < m.min i)) ++ assign (fun m i => m.min i)

/-- The methods, element by element. -/
def block (K : Type) [Field K] [LinearOrder K] (n : Nat) : Obj (Mem K n) (Op K n) (Loc K n) (Option (Fin n → K)) where
  enter _ := ⟨true, true, fun _ => 0⟩
  body
    | .run x => up ++ down ++ limiting ++ each fun i y => (y.1, { y.2 with out := put y.2.out i (x i * y.1.gain i) })
    | .setGain c => outer (fun m i => decide (c i ≤ m.max i)) ++ outer (fun m i => decide (m.min i ≤ c i)) ++
        each fun i y => if y.2.outer then (if y.1.smooth then ({ y.1 with target := put y.1.target i (c i) }, y.2) else ({ y.1 with gain := put y.1.gain i (c i) }, y.2)) else y
    | .setMax c => each fun i y => ({ y.1 with max := put y.1.max i (c i) }, y.2)
    | .setMin c => each fun i y => ({ y.1 with min := put y.1.min i (c i) }, y.2)
    | .setDiff c => each fun i y => ({ y.1 with diff := put y.1.diff i (c i) }, y.2)
  result op l := match op with
    | .run _ => some l.out
    | _ => none

/-- Specification: the calls at one instant, with the functions of C207. -/
def step (s : Mem K n) : Op K n → Mem K n × Option (Fin n → K)
  | .run x =>
    let g := limit (if s.smooth then glide s.gain s.target s.diff else s.gain) s.min s.max
    ({ s with gain := g }, some fun i => x i * g i)
  | .setGain c => (if accepts s.min s.max (num c) then (if s.smooth then { s with target := c } else { s with gain := c }) else s, none)
  | .setMax c => ({ s with max := c }, none)
  | .setMin c => ({ s with min := c }, none)
  | .setDiff c => ({ s with diff := c }, none)

/-! ### The loops over the elements -/

theorem steps_append (a b : List (Act K n)) (x : Mem K n × Loc K n) : steps (a ++ b) x = steps b (steps a x) := by simp [steps]
theorem steps_one (f : Act K n) (x : Mem K n × Loc K n) : steps [f] x = f x := rfl

theorem steps_outer (p : Mem K n → Fin n → Bool) (x : Mem K n × Loc K n) :
    steps (outer p) x = (x.1, { x.2 with outer := x.2.outer && (List.finRange n).all (p x.1) }) := by
  unfold outer each
  generalize List.finRange n = l
  induction l generalizing x with
  | nil => simp [steps]
  | cons i l ih =>
    have : steps ((i :: l).map fun i x => (x.1, { x.2 with outer := x.2.outer && p x.1 i })) x =
      steps (l.map fun i x => (x.1, { x.2 with outer := x.2.outer && p x.1 i })) (x.1, { x.2 with outer := x.2.outer && p x.1 i }) := rfl
    rw [this, ih]
    simp [Bool.and_assoc]

theorem steps_inner (p : Mem K n → Fin n → Bool) (x : Mem K n × Loc K n) :
    steps (inner p) x = (x.1, { x.2 with inner := x.2.inner && (List.finRange n).all (p x.1) }) := by
  unfold inner each
  generalize List.finRange n = l
  induction l generalizing x with
  | nil => simp [steps]
  | cons i l ih =>
    have : steps ((i :: l).map fun i x => (x.1, { x.2 with inner := x.2.inner && p x.1 i })) x =
      steps (l.map fun i x => (x.1, { x.2 with inner := x.2.inner && p x.1 i })) (x.1, { x.2 with inner := x.2.inner && p x.1 i }) := rfl
    rw [this, ih]
    simp [Bool.and_assoc]

/-- Writing all elements one after the other with values which depend on the element itself only. -/
theorem put_all (w : Fin n → K → K) (a : Fin n → K) : (List.finRange n).foldl (fun a i => put a i (w i (a i))) a = fun i => w i (a i) := by
  have key : ∀ (l : List (Fin n)) (_ : l.Nodup) (a : Fin n → K) (j : Fin n),
      l.foldl (fun a i => put a i (w i (a i))) a j = if j ∈ l then w j (a j) else a j := by
    intro l
    induction l with
    | nil => intro _ a j; simp
    | cons i l ih =>
      intro h a j
      rw [List.foldl_cons, ih (List.nodup_cons.1 h).2]
      by_cases e : j = i
      · subst e
        simp [put, (List.nodup_cons.1 h).1]
      · simp [put, e]
  funext j
  rw [key _ (List.nodup_finRange n)]
  simp

theorem steps_each {S : Type} (f : Fin n → Act K n) (get : S → Mem K n × Loc K n) (h : Fin n → S → S) (hf : ∀ i s, f i (get s) = get (h i s)) (s : S) :
    steps (each f) (get s) = get ((List.finRange n).foldl (fun s i => h i s) s) := by
  unfold each
  generalize List.finRange n = l
  induction l generalizing s with
  | nil => rfl
  | cons i l ih =>
    have : steps ((i :: l).map f) (get s) = steps (l.map f) (f i (get s)) := rfl
    rw [this, hf, ih]
    rfl

theorem steps_assign (v : Mem K n → Fin n → K) (w : Fin n → K → K) (x : Mem K n × Loc K n)
    (hv : ∀ a i, v { x.1 with gain := a } i = w i (a i)) :
    steps (assign v) x = if x.2.outer then ({ x.1 with gain := fun i => w i (x.1.gain i) }, x.2) else x := by
  obtain ⟨m, l⟩ := x
  cases hb : l.outer with
  | false =>
    have := steps_each (S := Unit) (fun i x => if x.2.outer then ({ x.1 with gain := put x.1.gain i (v x.1 i) }, x.2) else x) (fun _ => (m, l)) (fun _ s => s)
      (fun i s => by simp [hb]) ()
    simpa [assign, hb] using this
  | true =>
    have := steps_each (S := Fin n → K) (fun i x => if x.2.outer then ({ x.1 with gain := put x.1.gain i (v x.1 i) }, x.2) else x) (fun a => ({ m with gain := a }, l))
      (fun i a => put a i (w i (a i))) (fun i a => by simp only [hb, if_true]; rw [hv]) m.gain
    rw [put_all] at this
    simpa [assign, hb] using this

theorem steps_assignIn (v : Mem K n → Fin n → K) (w : Fin n → K → K) (x : Mem K n × Loc K n)
    (hv : ∀ a i, v { x.1 with gain := a } i = w i (a i)) :
    steps (assignIn v) x = if x.2.inner then ({ x.1 with gain := fun i => w i (x.1.gain i) }, x.2) else x := by
  obtain ⟨m, l⟩ := x
  cases hb : l.inner with
  | false =>
    have := steps_each (S := Unit) (fun i x => if x.2.inner then ({ x.1 with gain := put x.1.gain i (v x.1 i) }, x.2) else x) (fun _ => (m, l)) (fun _ s => s)
      (fun i s => by simp [hb]) ()
    simpa [assignIn, hb] using this
  | true =>
    have := steps_each (S := Fin n → K) (fun i x => if x.2.inner then ({ x.1 with gain := put x.1.gain i (v x.1 i) }, x.2) else x) (fun a => ({ m with gain := a }, l))
      (fun i a => put a i (w i (a i))) (fun i a => by simp only [hb, if_true]; rw [hv]) m.gain
    rw [put_all] at this
    simpa [assignIn, hb] using this

theorem vlt_num (a b : Fin n → K) : vlt (num a) (num b) = (List.finRange n).all fun i => decide (a i < b i) := by
  unfold vlt num
  congr 1; funext i
  rw [lt_iff_not_le (by simp) (by simp)]; rfl
theorem vle_num (a b : Fin n → K) : vle (num a) (num b) = (List.finRange n).all fun i => decide (a i ≤ b i) := by
  unfold vle num
  congr 1; funext i
  rw [le_iff_not_lt (by simp) (by simp)]
  simp [XVal.le, XVal.lt, XVal.eq, le_iff_lt_or_eq]
theorem vge_num (a b : Fin n → K) : vge (num a) (num b) = (List.finRange n).all fun i => decide (b i ≤ a i) := by
  rw [← vle_num]; rfl

theorem assign_plus (x : Mem K n × Loc K n) : steps (assign fun m i => m.gain i + m.diff i) x =
    if x.2.outer then ({ x.1 with gain := fun i => x.1.gain i + x.1.diff i }, x.2) else x := steps_assign _ (fun i y => y + x.1.diff i) x fun _ _ => rfl
theorem assign_minus (x : Mem K n × Loc K n) : steps (assign fun m i => m.gain i - m.diff i) x =
    if x.2.outer then ({ x.1 with gain := fun i => x.1.gain i - x.1.diff i }, x.2) else x := steps_assign _ (fun i y => y - x.1.diff i) x fun _ _ => rfl
theorem assign_max (x : Mem K n × Loc K n) : steps (assign fun m i => m.max i) x =
    if x.2.outer then ({ x.1 with gain := x.1.max }, x.2) else x := steps_assign _ (fun i _ => x.1.max i) x fun _ _ => rfl
theorem assign_min (x : Mem K n × Loc K n) : steps (assign fun m i => m.min i) x =
    if x.2.outer then ({ x.1 with gain := x.1.min }, x.2) else x := steps_assign _ (fun i _ => x.1.min i) x fun _ _ => rfl
theorem assign_target (x : Mem K n × Loc K n) : steps (assignIn fun m i => m.target i) x =
    if x.2.inner then ({ x.1 with gain := x.1.target }, x.2) else x := steps_assignIn _ (fun i _ => x.1.target i) x fun _ _ => rfl

/-- The first half of `glide`. -/
def gup (g t d : Fin n → K) : Fin n → K :=
  if vlt (num g) (num t) then (if vlt (num t) (num fun i => g i + d i) then t else fun i => g i + d i) else g
/-- The second half. -/
def gdown (g t d : Fin n → K) : Fin n → K :=
  if vlt (num t) (num g) then (if vlt (num fun i => g i - d i) (num t) then t else fun i => g i - d i) else g

theorem up_eq (m : Mem K n) (l : Loc K n) :
    ∃ a b, steps up (m, l) = ({ m with gain := if m.smooth then gup m.gain m.target m.diff else m.gain }, ⟨a, b, l.out⟩) := by
  unfold up gup
  simp only [steps_append, steps_one, steps_outer, steps_inner, assign_plus, assign_target, ← vlt_num]
  obtain ⟨g, mx, mn, t, d, sm⟩ := m
  cases sm
  · exact ⟨false, false, by simp⟩
  · rcases h : vlt (num g) (num t) with _ | _
    · exact ⟨false, false, by simp⟩
    · rcases h' : vlt (num t) (num fun i => g i + d i) with _ | _
      · exact ⟨true, false, by simp [h']⟩
      · exact ⟨true, true, by simp [h']⟩

theorem down_eq (m : Mem K n) (l : Loc K n) :
    ∃ a b, steps down (m, l) = ({ m with gain := if m.smooth then gdown m.gain m.target m.diff else m.gain }, ⟨a, b, l.out⟩) := by
  unfold down gdown
  simp only [steps_append, steps_one, steps_outer, steps_inner, assign_minus, assign_target, ← vlt_num]
  obtain ⟨g, mx, mn, t, d, sm⟩ := m
  cases sm
  · exact ⟨false, false, by simp⟩
  · rcases h : vlt (num t) (num g) with _ | _
    · exact ⟨false, false, by simp⟩
    · rcases h' : vlt (num fun i => g i - d i) (num t) with _ | _
      · exact ⟨true, false, by simp [h']⟩
      · exact ⟨true, true, by simp [h']⟩

theorem limiting_eq (m : Mem K n) (l : Loc K n) :
    ∃ a, steps limiting (m, l) = ({ m with gain := limit m.gain m.min m.max }, ⟨a, l.inner, l.out⟩) := by
  have e : limit m.gain m.min m.max = if vlt (num (if vlt (num m.max) (num m.gain) then m.max else m.gain)) (num m.min) then m.min else
      if vlt (num m.max) (num m.gain) then m.max else m.gain := rfl
  rw [e]
  unfold limiting
  simp only [steps_append, steps_one, steps_outer, assign_max, assign_min, Bool.true_and, ← vlt_num]
  rcases h : vlt (num m.max) (num m.gain) with _ | _
  · rcases h' : vlt (num m.gain) (num m.min) with _ | _
    · exact ⟨false, by simp [h']⟩
    · exact ⟨true, by simp [h']⟩
  · rcases h' : vlt (num m.max) (num m.min) with _ | _
    · exact ⟨false, by simp [h']⟩
    · exact ⟨true, by simp [h']⟩

theorem product_eq (m : Mem K n) (l : Loc K n) (x : Fin n → K) :
    steps (each fun i y => (y.1, { y.2 with out := put y.2.out i (x i * y.1.gain i) })) (m, l) = (m, { l with out := fun i => x i * m.gain i }) := by
  have := steps_each (S := Fin n → K) (fun i y => (y.1, { y.2 with out := put y.2.out i (x i * y.1.gain i) })) (fun o => (m, { l with out := o }))
    (fun i o => put o i (x i * m.gain i)) (fun i o => rfl) l.out
  rw [put_all (fun i _ => x i * m.gain i)] at this
  exact this

/-- A call without interruption is the step of the specification. -/
theorem call_eq (s : Mem K n) (op : Op K n) : (block K n).call s op = step s op := by
  cases op with
  | run x =>
    obtain ⟨a, b, h1⟩ := up_eq s ⟨true, true, fun _ => 0⟩
    obtain ⟨a', b', h2⟩ := down_eq { s with gain := if s.smooth then gup s.gain s.target s.diff else s.gain } ⟨a, b, fun _ => 0⟩
    have hg : (if s.smooth then gdown (if s.smooth then gup s.gain s.target s.diff else s.gain) s.target s.diff else (if s.smooth then gup s.gain s.target s.diff else s.gain)) =
        if s.smooth then glide s.gain s.target s.diff else s.gain := by cases s.smooth <;> rfl
    simp only [hg] at h2
    obtain ⟨a'', h3⟩ := limiting_eq { s with gain := if s.smooth then glide s.gain s.target s.diff else s.gain } ⟨a', b', fun _ => 0⟩
    simp only [Obj.call, block, steps_append, step]
    rw [h1, h2, h3, product_eq]
  | setGain c =>
    have e : accepts s.min s.max (num c) = (vle (num c) (num s.max) && vle (num s.min) (num c)) := rfl
    simp only [Obj.call, block, steps_append, step, steps_outer, Bool.true_and, e, ← vle_num]
    obtain ⟨g, mx, mn, t, d, sm⟩ := s
    rcases h : (vle (num c) (num mx) && vle (num mn) (num c)) with _ | _
    · have := steps_each (S := Unit) (fun i (y : Mem K n × Loc K n) => if y.2.outer then
        (if y.1.smooth then ({ y.1 with target := put y.1.target i (c i) }, y.2) else ({ y.1 with gain := put y.1.gain i (c i) }, y.2)) else y)
        (fun _ => (⟨g, mx, mn, t, d, sm⟩, ⟨false, true, fun _ => 0⟩)) (fun _ s => s) (fun i s => by simp) ()
      rw [this]; simp
    · cases sm
      · have := steps_each (S := Fin n → K) (fun i (y : Mem K n × Loc K n) => if y.2.outer then
          (if y.1.smooth then ({ y.1 with target := put y.1.target i (c i) }, y.2) else ({ y.1 with gain := put y.1.gain i (c i) }, y.2)) else y)
          (fun a => (⟨a, mx, mn, t, d, false⟩, ⟨true, true, fun _ => 0⟩)) (fun i a => put a i (c i)) (fun i s => by simp) g
        rw [this, put_all (fun i _ => c i)]; simp
      · have := steps_each (S := Fin n → K) (fun i (y : Mem K n × Loc K n) => if y.2.outer then
          (if y.1.smooth then ({ y.1 with target := put y.1.target i (c i) }, y.2) else ({ y.1 with gain := put y.1.gain i (c i) }, y.2)) else y)
          (fun a => (⟨g, mx, mn, a, d, true⟩, ⟨true, true, fun _ => 0⟩)) (fun i a => put a i (c i)) (fun i s => by simp) t
        rw [this, put_all (fun i _ => c i)]; simp
  | setMax c =>
    have := steps_each (S := Fin n → K) (fun i (y : Mem K n × Loc K n) => ({ y.1 with max := put y.1.max i (c i) }, y.2))
      (fun a => ({ s with max := a }, ⟨true, true, fun _ => 0⟩)) (fun i a => put a i (c i)) (fun i s => rfl) s.max
    rw [put_all (fun i _ => c i)] at this
    simp only [Obj.call, block, step]
    exact Prod.ext (congrArg (·.1) this) rfl
  | setMin c =>
    have := steps_each (S := Fin n → K) (fun i (y : Mem K n × Loc K n) => ({ y.1 with min := put y.1.min i (c i) }, y.2))
      (fun a => ({ s with min := a }, ⟨true, true, fun _ => 0⟩)) (fun i a => put a i (c i)) (fun i s => rfl) s.min
    rw [put_all (fun i _ => c i)] at this
    simp only [Obj.call, block, step]
    exact Prod.ext (congrArg (·.1) this) rfl
  | setDiff c =>
    have := steps_each (S := Fin n → K) (fun i (y : Mem K n × Loc K n) => ({ y.1 with diff := put y.1.diff i (c i) }, y.2))
      (fun a => ({ s with diff := a }, ⟨true, true, fun _ => 0⟩)) (fun i a => put a i (c i)) (fun i s => rfl) s.diff
    rw [put_all (fun i _ => c i)] at this
    simp only [Obj.call, block, step]
    exact Prod.ext (congrArg (·.1) this) rfl

/-- **C337**.  In every execution, with any number of threads, the calls of the gain block take effect one after the other, each between its call and its return. -/
theorem gain_linearizable {Thr : Type} [DecidableEq Thr] (s₀ : Mem K n) (h : List (Ev (Op K n) (Option (Fin n → K)) Thr))
    (s : Common.Monitor.St (Mem K n) (Op K n) (Loc K n) (Option (Fin n → K)) Thr) (e : Exec (block K n) s₀ h s) : Linearizable step s₀ h :=
  linearizable_spec (block K n) step (fun a b => a = b) (fun s q op hq => by subst hq; rw [call_eq]; exact ⟨rfl, rfl⟩) s₀ s₀ rfl h s e

/-- Only the gain is set and the block run. -/
def Plain : Op K n → Prop
  | .run _ => True
  | .setGain _ => True
  | _ => False

theorem limit_within (g mn mx : Fin n → K) (h : ∀ i, mn i ≤ g i ∧ g i ≤ mx i) : limit g mn mx = g := by
  have e : limit g mn mx = if vlt (num (if vlt (num mx) (num g) then mx else g)) (num mn) then mn else if vlt (num mx) (num g) then mx else g := rfl
  rcases Nat.eq_zero_or_pos n with h0 | h0
  · subst h0; funext i; exact i.elim0
  · have k1 : vlt (num mx) (num g) = false := by
      rw [vlt_num, List.all_eq_false]
      exact ⟨⟨0, h0⟩, by simp, by simpa using (h _).2⟩
    have k2 : vlt (num g) (num mn) = false := by
      rw [vlt_num, List.all_eq_false]
      exact ⟨⟨0, h0⟩, by simp, by simpa using (h _).1⟩
    rw [e, k1]; simp [k2]

/-- What the effects leave: the gain is the first one or one which was set, and within the limits, which have not changed. -/
theorem after_plain (s₀ : Mem K n) (hs : s₀.smooth = false) (h0 : ∀ i, s₀.min i ≤ s₀.gain i ∧ s₀.gain i ≤ s₀.max i) (l : List (Op K n × Option (Fin n → K)))
    (hl : ∀ x ∈ l, Plain x.1) :
    (after step s₀ l).smooth = false ∧ (after step s₀ l).min = s₀.min ∧ (after step s₀ l).max = s₀.max ∧
    (∀ i, s₀.min i ≤ (after step s₀ l).gain i ∧ (after step s₀ l).gain i ≤ s₀.max i) ∧
    ((after step s₀ l).gain = s₀.gain ∨ ∃ x ∈ l, x.1 = .setGain (after step s₀ l).gain) := by
  induction l generalizing s₀ with
  | nil => exact ⟨hs, rfl, rfl, h0, .inl rfl⟩
  | cons x l ih =>
    obtain ⟨op, r⟩ := x
    have hl' : ∀ x ∈ l, Plain x.1 := fun x hx => hl x (List.mem_cons_of_mem _ hx)
    have hop := hl (op, r) List.mem_cons_self
    simp only [after]
    cases op with
    | run v =>
      have e : (step s₀ (.run v)).1 = s₀ := by simp only [step, hs, Bool.false_eq_true, if_false, limit_within _ _ _ h0]; rw [← hs]
      rw [e]
      obtain ⟨k1, k2, k3, k4, k5⟩ := ih s₀ hs h0 hl'
      exact ⟨k1, k2, k3, k4, k5.imp id fun ⟨x, hx, e⟩ => ⟨x, List.mem_cons_of_mem _ hx, e⟩⟩
    | setGain c =>
      rcases h : accepts s₀.min s₀.max (num c) with _ | _
      · have e : (step s₀ (.setGain c)).1 = s₀ := by simp [step, h]
        rw [e]
        obtain ⟨k1, k2, k3, k4, k5⟩ := ih s₀ hs h0 hl'
        exact ⟨k1, k2, k3, k4, k5.imp id fun ⟨x, hx, e⟩ => ⟨x, List.mem_cons_of_mem _ hx, e⟩⟩
      · have e : (step s₀ (.setGain c)).1 = { s₀ with gain := c } := by simp [step, h, hs]
        have hc : ∀ i, s₀.min i ≤ c i ∧ c i ≤ s₀.max i := by
          have h' : (vle (num c) (num s₀.max) && vle (num s₀.min) (num c)) = true := h
          rw [vle_num, vle_num] at h'
          simp only [Bool.and_eq_true, List.all_eq_true, List.mem_finRange, forall_const, decide_eq_true_eq] at h'
          exact fun i => ⟨h'.2 i, h'.1 i⟩
        rw [e]
        obtain ⟨k1, k2, k3, k4, k5⟩ := ih { s₀ with gain := c } hs hc hl'
        refine ⟨k1, k2, k3, k4, .inr ?_⟩
        rcases k5 with k5 | ⟨x, hx, e⟩
        · exact ⟨_, List.mem_cons_self, by rw [k5]⟩
        · exact ⟨x, List.mem_cons_of_mem _ hx, e⟩
    | setMax c => exact absurd hop id
    | setMin c => exact absurd hop id
    | setDiff c => exact absurd hop id

theorem mem_effects {Op R T : Type} [DecidableEq T] (p : List (Pt Op R T)) (x : Op × R) (h : x ∈ effects p) : ∃ u, x.1 ∈ effected u p := by
  induction p with
  | nil => exact absurd h (by simp [effects])
  | cons y p ih =>
    cases y with
    | call u op => exact ih h
    | ret u op r => exact ih h
    | effect u op r =>
      rcases List.mem_cons.1 h with e | h
      · exact ⟨u, by simp [effected, e]⟩
      · obtain ⟨v, hv⟩ := ih h
        refine ⟨v, ?_⟩
        simp only [effected]
        split
        · exact List.mem_cons_of_mem _ hv
        · exact hv

theorem mem_called {Op R T : Type} [DecidableEq T] (u : T) (op : Op) (h : List (Ev Op R T)) (k : op ∈ called u h) : Ev.call u op ∈ h := by
  induction h with
  | nil => exact absurd k (by simp [called])
  | cons y h ih =>
    cases y with
    | ret v o r => exact List.mem_cons_of_mem _ (ih k)
    | call v o =>
      simp only [called] at k
      split at k
      · rename_i e
        rcases List.mem_cons.1 k with rfl | k
        · rw [e]; exact List.mem_cons_self
        · exact List.mem_cons_of_mem _ (ih k)
      · exact List.mem_cons_of_mem _ (ih k)

/-- **C337**.  A run multiplies its input with **one whole gain**: whatever the threads do meanwhile, its result is the input times the gain of the start or times the gain
of a call of `setGain` which began before the run returned; never some elements with the one and some with the other. -/
theorem one_whole_gain {Thr : Type} [DecidableEq Thr] (s₀ : Mem K n) (hs : s₀.smooth = false) (h0 : ∀ i, s₀.min i ≤ s₀.gain i ∧ s₀.gain i ≤ s₀.max i)
    (h1 h2 h3 : List (Ev (Op K n) (Option (Fin n → K)) Thr)) (t : Thr) (x : Fin n → K) (r : Option (Fin n → K)) (hq : Quiet t h2)
    (hp : ∀ u op, Ev.call u op ∈ h1 ++ h2 → Plain op)
    (s : Common.Monitor.St (Mem K n) (Op K n) (Loc K n) (Option (Fin n → K)) Thr)
    (e : Exec (block K n) s₀ (h1 ++ .call t (.run x) :: (h2 ++ .ret t (.run x) r :: h3)) s) :
    ∃ g : Fin n → K, (g = s₀.gain ∨ ∃ u, Ev.call u (.setGain g) ∈ h1 ++ h2) ∧ r = some fun i => x i * g i := by
  obtain ⟨p, hr, _, hc⟩ := realtime step s₀ h1 h2 h3 t (.run x) r hq (gain_linearizable s₀ _ s e)
  have key : ∀ y ∈ effects p, ∃ u, Ev.call u y.1 ∈ h1 ++ .call t (.run x) :: h2 := by
    intro y hy
    obtain ⟨u, hu⟩ := mem_effects p y hy
    exact ⟨u, mem_called u _ _ ((hc u).1.subset hu)⟩
  have mid : ∀ u op, Ev.call u op ∈ h1 ++ .call t (.run x) :: h2 → Ev.call u op ∈ h1 ++ h2 ∨ op = .run x := by
    intro u op h
    rcases List.mem_append.1 h with h | h
    · exact .inl (List.mem_append_left _ h)
    · rcases List.mem_cons.1 h with h | h
      · injection h with _ h; exact .inr h
      · exact .inl (List.mem_append_right _ h)
  obtain ⟨k1, k2, k3, k4, k5⟩ := after_plain s₀ hs h0 (effects p) (fun y hy => by
    obtain ⟨u, hu⟩ := key y hy
    rcases mid u _ hu with h | h
    · exact hp u _ h
    · rw [h]; trivial)
  refine ⟨(after step s₀ (effects p)).gain, k5.imp id ?_, ?_⟩
  · rintro ⟨y, hy, ey⟩
    obtain ⟨u, hu⟩ := key y hy
    rw [ey] at hu
    rcases mid u _ hu with h | h
    · exact ⟨u, h⟩
    · exact absurd h (by simp)
  · rw [hr]
    simp only [step, k1, Bool.false_eq_true, if_false, k2, k3, limit_within _ _ _ k4]

end

/-! ### The program examples/devel/multithreading.cpp -/

/-- What the main thread makes of a run (67-86). -/
inductive Verdict where
  | good | failed | wrong
  deriving DecidableEq

/-- `int actual = res[j];`, of a double. -/
def toInt (q : ℚ) : ℤ := q.num.tdiv q.den

/-- The loop over the elements (67-86), beginning with `j`: `expected` is `(j + 1) * A`; at the first element which differs the run is counted as failed, with a message
unless it is `B`. -/
def check (A B : ℤ) : List ℚ → ℕ → Verdict
  | [], _ => .good
  | r :: l, j => if (j + 1 : ℤ) * A ≠ toInt r then (if toInt r = B then .failed else .wrong) else check A B l (j + 1)

/-- The input (33-36). -/
def input (n : ℕ) : Fin n → ℚ := fun i => (i.val : ℚ) + 1

theorem toInt_int (z : ℤ) : toInt (z : ℚ) = z := by simp [toInt]

theorem check_good (A B : ℤ) (k j : ℕ) : check A B ((List.range' j k).map fun i : ℕ => ((i : ℚ) + 1) * (A : ℚ)) j = .good := by
  induction k generalizing j with
  | zero => rfl
  | succ k ih =>
    have e : toInt (((j : ℚ) + 1) * (A : ℚ)) = (j + 1 : ℤ) * A := by
      have : ((j : ℚ) + 1) * (A : ℚ) = (((j + 1 : ℤ) * A : ℤ) : ℚ) := by push_cast; rfl
      rw [this, toInt_int]
    rw [List.range'_succ, List.map_cons, check, e, if_neg (not_not_intro rfl)]
    exact ih (j + 1)

/-- **C338**.  The program sees what it expects: while threads set the gain to `A` and to `B` in every element and run the block, every run gives a result which the
program finds good, when the gain was `A`, or counts as failed without its message, when it was `B`. -/
theorem never_wrong {Thr : Type} [DecidableEq Thr] {n : ℕ} (A B : ℤ) (hAB : A ≠ B) (hn : 0 < n) (s₀ : Mem ℚ n) (hs : s₀.smooth = false)
    (h0 : ∀ i, s₀.min i ≤ s₀.gain i ∧ s₀.gain i ≤ s₀.max i) (hg : s₀.gain = fun _ => (A : ℚ))
    (h1 h2 h3 : List (Ev (Op ℚ n) (Option (Fin n → ℚ)) Thr)) (t : Thr) (r : Option (Fin n → ℚ)) (hq : Quiet t h2)
    (hp : ∀ u op, Ev.call u op ∈ h1 ++ h2 → op = .run (input n) ∨ op = .setGain (fun _ => (A : ℚ)) ∨ op = .setGain (fun _ => (B : ℚ)))
    (s : Common.Monitor.St (Mem ℚ n) (Op ℚ n) (Loc ℚ n) (Option (Fin n → ℚ)) Thr)
    (e : Exec (block ℚ n) s₀ (h1 ++ .call t (.run (input n)) :: (h2 ++ .ret t (.run (input n)) r :: h3)) s) :
    ∃ v, r = some v ∧ ((v = (fun i => input n i * A) ∧ check A B (List.ofFn v) 0 = .good) ∨ (v = (fun i => input n i * B) ∧ check A B (List.ofFn v) 0 = .failed)) := by
  obtain ⟨g, hg', hr⟩ := one_whole_gain s₀ hs h0 h1 h2 h3 t (input n) r hq (fun u op h => by
    rcases hp u op h with rfl | rfl | rfl <;> trivial) s e
  have k : g = (fun _ => (A : ℚ)) ∨ g = (fun _ => (B : ℚ)) := by
    rcases hg' with h | ⟨u, h⟩
    · exact .inl (h.trans hg)
    · rcases hp u _ h with h | h | h
      · exact absurd h (by simp)
      · injection h with h; exact .inl h
      · injection h with h; exact .inr h
  refine ⟨_, hr, ?_⟩
  rcases k with rfl | rfl
  · refine .inl ⟨rfl, ?_⟩
    have := check_good A B n 0
    rw [← List.range_eq_range'] at this
    rw [← this]
    congr 1
    apply List.ext_getElem <;> simp [input]
  · refine .inr ⟨rfl, ?_⟩
    obtain ⟨m, rfl⟩ : ∃ m, n = m + 1 := ⟨n - 1, by omega⟩
    rw [List.ofFn_succ, check]
    have e : toInt (input (m + 1) 0 * (B : ℚ)) = B := by simp [input, toInt_int]
    rw [e]
    simp [hAB]

/-- **C338 is violated** in the other direction: the message is not a test of the lock.  Whatever a run without it gave, mixed as it may be, if only the first element
was multiplied with `B`, the run counts as failed in the permitted way; and a result mixed the other way round is found. -/
theorem mixed_unnoticed_violated (A B : ℤ) (hAB : A ≠ B) (l : List ℚ) :
    check A B ((B : ℚ) :: l) 0 = .failed ∧ (2 * B ≠ B → check A B ((A : ℚ) :: (2 * B : ℚ) :: l) 0 = .wrong) := by
  have e : toInt (2 * (B : ℚ)) = 2 * B := by
    have : 2 * (B : ℚ) = ((2 * B : ℤ) : ℚ) := by push_cast; rfl
    rw [this, toInt_int]
  refine ⟨by simp [check, toInt_int, hAB], fun h => ?_⟩
  simp [check, toInt_int, e, hAB, h]

/-- A thread which has the lock can finish its method. -/
theorem finish {S Op L R T : Type} [DecidableEq T] {o : Obj S Op L R} {s₀ : S} {h : List (Ev Op R T)} (t : T) (op : Op) (rest : List (S × L → S × L)) :
    ∀ (l : L) (s : Common.Monitor.St S Op L R T), Common.Monitor.Exec o s₀ h s → s.ph t = .inside op rest l →
      ∃ s', Common.Monitor.Exec o s₀ h s' ∧ s'.ph t = .inside op [] (steps rest (s.mem, l)).2 := by
  induction rest with
  | nil => exact fun l s e ht => ⟨s, e, ht⟩
  | cons f rest ih => exact fun l s e ht => ih _ _ (e.step t op f rest l ht) (by simp)

/-- The run of thread 0 with the gain 10 has begun when thread 1 calls `setGain` with 11, and gives a product with 10. -/
theorem run_ex (n : ℕ) : ∃ s, Common.Monitor.Exec (T := Nat) (block ℚ n) ⟨fun _ => 10, fun _ => 100, fun _ => 0, fun _ => 10, fun _ => 0, false⟩
    ([] ++ .call 0 (.run (input n)) :: ([.call 1 (.setGain fun _ => 11)] ++ .ret 0 (.run (input n)) (some fun i => input n i * 10) :: [])) s := by
  have e := Common.Monitor.Exec.init (T := Nat) (o := block ℚ n) (s₀ := ⟨fun _ => 10, fun _ => 100, fun _ => 0, fun _ => 10, fun _ => 0, false⟩)
  have e := e.call 0 (.run (input n)) rfl
  have e := e.lock 0 _ rfl rfl
  have e := e.call 1 (.setGain fun _ => 11) rfl
  obtain ⟨s', e, hs⟩ := finish 0 (.run (input n)) ((block ℚ n).body (.run (input n))) ((block ℚ n).enter (.run (input n))) _ e rfl
  have e := e.unlock 0 _ _ hs
  have c := congrArg (·.2) (call_eq (K := ℚ) (n := n) ⟨fun _ => 10, fun _ => 100, fun _ => 0, fun _ => 10, fun _ => 0, false⟩ (.run (input n)))
  simp only [Obj.call, step, Bool.false_eq_true, if_false] at c
  rw [limit_within _ _ _ (fun i => by norm_num)] at c
  have e := e.ret 0 (.run (input n)) (some fun i => input n i * 10) (by simp only [if_true]; rw [← c])
  exact ⟨_, e⟩

/-- The hypotheses of C337 hold for it: the result is a product with 10 (or would be one with 11). -/
example : ∃ g : Fin 50000 → ℚ, (g = (fun _ => 10) ∨ g = fun _ => 11) ∧ (fun i => input 50000 i * 10) = fun i => input 50000 i * g i := by
  obtain ⟨s, e⟩ := run_ex 50000
  obtain ⟨g, h, k⟩ := one_whole_gain _ rfl (fun i => by norm_num) [] [.call 1 (.setGain fun _ => 11)] [] 0 (input 50000) _ ⟨rfl, rfl⟩
    (fun u op h => by simp at h; rw [h.2]; trivial) s e
  refine ⟨g, h.imp id ?_, by injection k⟩
  rintro ⟨u, h⟩
  simp at h; exact h.2

/-- And those of C338. -/
example : ∃ v : Fin 50000 → ℚ, check 10 11 (List.ofFn v) 0 ≠ .wrong := by
  obtain ⟨s, e⟩ := run_ex 50000
  obtain ⟨v, _, h⟩ := never_wrong 10 11 (by decide) (by decide) _ rfl (fun i => by norm_num) (by norm_num) [] [.call 1 (.setGain fun _ => 11)] [] 0 _ ⟨rfl, rfl⟩
    (fun u op h => by simp at h; rw [h.2]; exact .inr (.inr (by norm_num))) s e
  refine ⟨v, ?_⟩
  rcases h with h | h <;> rw [h.2] <;> decide

example : check 10 11 [11, 20, 30] 0 = .failed ∧ check 10 11 [10, 22, 33] 0 = .wrong ∧ check 10 11 [10, 20, 30] 0 = .good := by decide +kernel

end Verif.Control.GainConc
