/-
Model of `control::ElmoInput` (`/repo/includes/eeros/control/ethercat/ElmoInput.hpp` 33-41), and C284.

The EtherCAT stack runs in a thread of its own: a cycle of the bus replaces the values of the drive at any time, also between two statements of `run`.  `getPosition`, `getVelocity` and
`getTorque` belong to another library (ecmasterlib): each reads its value of the current frame in one step.  The outputs hold `none` before the first run.
`getState`, `getMode` and `getStateDesc` (63-81) forward to the drive and are left out.
-/
import Mathlib.Data.List.Basic

namespace Verif.Control.ElmoInput

/-- The values of the drive in one frame of the bus. -/
structure Frame where
  pos : Int
  vel : Int
  tor : Int
deriving DecidableEq, Repr

/-- What happens besides the block: time passes, the bus brings new values. -/
inductive World where
  | tick
  | frame (f : Frame)
deriving DecidableEq, Repr

inductive Ev where
  | world (w : World)
  /-- the next statement of `run` -/
  | code
deriving DecidableEq, Repr

/-- A signal: value and timestamp. -/
structure Sig where
  value : Option Int := none
  time : Option Nat := none
deriving DecidableEq, Repr

structure St where
  now : Nat
  frame : Frame
  pc : Nat := 0
  ts : Nat := 0
  position : Sig := {}
  velocity : Sig := {}
  torque : Sig := {}
deriving DecidableEq, Repr

/-- One step; the statements of `run` are lines 34-40. -/
def step (s : St) : Ev → St
  | .world .tick => { s with now := s.now + 1 }
  | .world (.frame f) => { s with frame := f }
  | .code =>
    match s.pc with
    | 0 => { s with pc := 1, ts := s.now }
    | 1 => { s with pc := 2, position := { s.position with value := some s.frame.pos } }
    | 2 => { s with pc := 3, position := { s.position with time := some s.ts } }
    | 3 => { s with pc := 4, velocity := { s.velocity with value := some s.frame.vel } }
    | 4 => { s with pc := 5, velocity := { s.velocity with time := some s.ts } }
    | 5 => { s with pc := 6, torque := { s.torque with value := some s.frame.tor } }
    | 6 => { s with pc := 7, torque := { s.torque with time := some s.ts } }
    | _ => s

def exec (s : St) (l : List Ev) : St := l.foldl step s

/-- A whole run: `w i` is what happens before statement `i`, `w 7` what happens behind the last one. -/
def schedule (w : Nat → List World) : List Ev :=
  (List.range 7).flatMap (fun i => (w i).map .world ++ [.code]) ++ (w 7).map .world

/-! ### Specification -/

/-- The frame which is the current one after these events. -/
def lastFrame (f : Frame) (l : List World) : Frame :=
  l.foldl (fun f w => match w with | .tick => f | .frame g => g) f

/-- What happened before statement `i`. -/
def before (w : Nat → List World) (i : Nat) : List World := (List.range (i + 1)).flatMap w

theorem exec_world (s : St) (l : List World) :
    exec s (l.map .world) = { s with now := s.now + l.count .tick, frame := lastFrame s.frame l } := by
  induction l generalizing s with
  | nil => rfl
  | cons w l ih =>
    have h : exec s ((w :: l).map .world) = exec (step s (.world w)) (l.map .world) := rfl
    rw [h, ih]
    cases w with
    | tick => simp [step, lastFrame, Nat.add_comm, Nat.add_left_comm]
    | frame f => simp [step, lastFrame]

theorem exec_append (s : St) (a b : List Ev) : exec s (a ++ b) = exec (exec s a) b := List.foldl_append ..

theorem lastFrame_append (f : Frame) (a b : List World) : lastFrame f (a ++ b) = lastFrame (lastFrame f a) b := List.foldl_append ..

/-- **C284 (partial)** Whatever the bus does during a run: all three timestamps are the time at the first statement, the position is that of the frame which was current at the second statement,
velocity and torque those of the frames at the fourth and the sixth.
Missing: that they belong to the same frame, see `mixture_violated`, and to the time of the timestamp, see `later_violated`. -/
theorem run_exact_partial (t : Nat) (f : Frame) (p v q : Sig) (w : Nat → List World) :
    let s := exec ⟨t, f, 0, 0, p, v, q⟩ (schedule w)
    let ts := t + (before w 0).count .tick
    s.pc = 7 ∧ s.position = ⟨some (lastFrame f (before w 1)).pos, some ts⟩ ∧ s.velocity = ⟨some (lastFrame f (before w 3)).vel, some ts⟩ ∧
      s.torque = ⟨some (lastFrame f (before w 5)).tor, some ts⟩ := by
  have hr : List.range 7 = [0, 1, 2, 3, 4, 5, 6] := rfl
  have h1 : before w 0 = w 0 := by simp [before]
  have h2 : before w 1 = w 0 ++ w 1 := by simp [before, List.range_succ]
  have h3 : before w 3 = w 0 ++ (w 1 ++ (w 2 ++ w 3)) := by simp [before, List.range_succ]
  have h4 : before w 5 = w 0 ++ (w 1 ++ (w 2 ++ (w 3 ++ (w 4 ++ w 5)))) := by simp [before, List.range_succ]
  have hc : ∀ u : St, exec u [.code] = step u .code := fun _ => rfl
  simp only [schedule, hr, List.flatMap_cons, List.flatMap_nil, List.append_nil, exec_append, exec_world, hc, step, h1, h2, h3, h4, lastFrame_append]
  exact ⟨trivial, trivial, trivial, trivial⟩

/-- The bus brings a frame between the position and the velocity. -/
example : let w : Nat → List World := fun i => if i = 0 then [.tick] else if i = 3 then [.tick, .frame ⟨4, 5, 6⟩] else []
    (exec ⟨10, ⟨1, 2, 3⟩, 0, 0, {}, {}, {}⟩ (schedule w)) = ⟨12, ⟨4, 5, 6⟩, 7, 11, ⟨some 1, some 11⟩, ⟨some 5, some 11⟩, ⟨some 6, some 11⟩⟩ := by decide +kernel

theorem lastFrame_ticks (f : Frame) (l : List World) (h : ∀ g, .frame g ∉ l) : lastFrame f l = f := by
  induction l with
  | nil => rfl
  | cons w l ih =>
    cases w with
    | tick => exact ih fun g hg => h g (List.mem_cons_of_mem _ hg)
    | frame g => exact absurd (List.mem_cons_self ..) (h g)

/-- **C284** Exactly the schedules in which the bus brings no other frame between the three reads give values which belong together, for all bus traffic with frames which differ in all values
from each other: the three values are those of one frame exactly if the current frames at the three reads are the same. -/
theorem one_frame_iff (t : Nat) (f : Frame) (p v q : Sig) (w : Nat → List World)
    (hd : ∀ g h : Frame, (g = f ∨ .frame g ∈ before w 5) → (h = f ∨ .frame h ∈ before w 5) → g.pos = h.pos ∨ g.vel = h.vel ∨ g.tor = h.tor → g = h) :
    let s := exec ⟨t, f, 0, 0, p, v, q⟩ (schedule w)
    (∃ g : Frame, (g = f ∨ .frame g ∈ before w 5) ∧ s.position.value = some g.pos ∧ s.velocity.value = some g.vel ∧ s.torque.value = some g.tor) ↔
      lastFrame f (before w 1) = lastFrame f (before w 3) ∧ lastFrame f (before w 3) = lastFrame f (before w 5) := by
  intro s
  obtain ⟨-, h1, h2, h3⟩ := run_exact_partial t f p v q w
  have hin : ∀ (l : List World) (f' : Frame), lastFrame f' l = f' ∨ .frame (lastFrame f' l) ∈ l := by
    intro l
    induction l with
    | nil => exact fun _ => .inl rfl
    | cons x l ih =>
      intro f'
      cases x with
      | tick => exact (ih f').imp id (List.mem_cons_of_mem _)
      | frame g =>
        rcases ih g with h | h
        · exact .inr (by show World.frame (lastFrame g l) ∈ _; rw [h]; exact List.mem_cons_self ..)
        · exact .inr (List.mem_cons_of_mem _ h)
  have hsub : ∀ i ≤ 5, lastFrame f (before w i) = f ∨ .frame (lastFrame f (before w i)) ∈ before w 5 := by
    intro i hi
    refine (hin (before w i) f).imp id fun h => ?_
    obtain ⟨j, hj, hm⟩ := List.mem_flatMap.1 h
    exact List.mem_flatMap.2 ⟨j, by rw [List.mem_range] at hj ⊢; omega, hm⟩
  constructor
  · rintro ⟨g, hg, e1, e2, e3⟩
    rw [h1] at e1; rw [h2] at e2; rw [h3] at e3
    have a1 := hd _ g (hsub 1 (by omega)) hg (.inl (Option.some.inj e1))
    have a2 := hd _ g (hsub 3 (by omega)) hg (.inr (.inl (Option.some.inj e2)))
    have a3 := hd _ g (hsub 5 (by omega)) hg (.inr (.inr (Option.some.inj e3)))
    exact ⟨a1.trans a2.symm, a2.trans a3.symm⟩
  · rintro ⟨e1, e2⟩
    refine ⟨lastFrame f (before w 5), hsub 5 (by omega), ?_, ?_, ?_⟩
    · rw [h1, e1, e2]
    · rw [h2, e2]
    · rw [h3]

example : let w : Nat → List World := fun i => if i = 3 then [.frame ⟨4, 5, 6⟩] else []
    ∀ g h : Frame, (g = ⟨1, 2, 3⟩ ∨ .frame g ∈ before w 5) → (h = ⟨1, 2, 3⟩ ∨ .frame h ∈ before w 5) → g.pos = h.pos ∨ g.vel = h.vel ∨ g.tor = h.tor → g = h := by
  intro w
  have : before w 5 = [.frame ⟨4, 5, 6⟩] := by decide
  rw [this]
  rintro g h (rfl | hg) (rfl | hh) he
  · rfl
  · simp only [List.mem_singleton, World.frame.injEq] at hh; subst hh; simp at he
  · simp only [List.mem_singleton, World.frame.injEq] at hg; subst hg; simp at he
  · simp only [List.mem_singleton, World.frame.injEq] at hg hh; rw [hg, hh]

/-- **C284** In particular: a run during which the bus brings nothing new gives the values of one frame. -/
theorem undisturbed (t : Nat) (f : Frame) (p v q : Sig) (w : Nat → List World) (h : ∀ i g, 2 ≤ i → i ≤ 5 → .frame g ∉ w i) :
    let s := exec ⟨t, f, 0, 0, p, v, q⟩ (schedule w)
    ∃ g : Frame, g = lastFrame f (w 0 ++ w 1) ∧ s.position.value = some g.pos ∧ s.velocity.value = some g.vel ∧ s.torque.value = some g.tor := by
  intro s
  obtain ⟨-, h1, h2, h3⟩ := run_exact_partial t f p v q w
  have b1 : before w 1 = w 0 ++ w 1 := by simp [before, List.range_succ]
  have b3 : before w 3 = (w 0 ++ w 1) ++ w 2 ++ w 3 := by simp [before, List.range_succ]
  have b5 : before w 5 = (w 0 ++ w 1) ++ w 2 ++ w 3 ++ w 4 ++ w 5 := by simp [before, List.range_succ]
  have h2' := lastFrame_ticks (lastFrame f (w 0 ++ w 1)) (w 2) fun g => h 2 g (by omega) (by omega)
  have h3' := lastFrame_ticks (lastFrame f (w 0 ++ w 1)) (w 3) fun g => h 3 g (by omega) (by omega)
  have h4' := lastFrame_ticks (lastFrame f (w 0 ++ w 1)) (w 4) fun g => h 4 g (by omega) (by omega)
  have h5' := lastFrame_ticks (lastFrame f (w 0 ++ w 1)) (w 5) fun g => h 5 g (by omega) (by omega)
  refine ⟨_, rfl, ?_, ?_, ?_⟩
  · rw [h1, b1]
  · rw [h2, b3, lastFrame_append, lastFrame_append, h2', h3']
  · rw [h3, b5, lastFrame_append, lastFrame_append, lastFrame_append, lastFrame_append, h2', h3', h4', h5']

example : let w : Nat → List World := fun i => if i = 0 ∨ i = 6 then [.frame ⟨4, 5, 6⟩] else [.tick]
    ∀ i g, 2 ≤ i → i ≤ 5 → .frame g ∉ w i := by
  intro w i g h1 h2
  simp only [w]
  rw [if_neg (by omega)]
  simp

/-- **C284 violated**: for any three frames in sequence there is a schedule in which the position is that of the first, the velocity that of the second and the torque that of the third. -/
theorem mixture_violated (t : Nat) (f g h : Frame) (p v q : Sig) :
    let w : Nat → List World := fun i => if i = 2 then [.frame g] else if i = 4 then [.frame h] else []
    let s := exec ⟨t, f, 0, 0, p, v, q⟩ (schedule w)
    s.position.value = some f.pos ∧ s.velocity.value = some g.vel ∧ s.torque.value = some h.tor := by
  intro w
  obtain ⟨-, h1, h2, h3⟩ := run_exact_partial t f p v q w
  have b1 : before w 1 = [] := by simp [before, List.range_succ, w]
  have b3 : before w 3 = [.frame g] := by simp [before, List.range_succ, w]
  have b5 : before w 5 = [.frame g, .frame h] := by simp [before, List.range_succ, w]
  intro s
  refine ⟨?_, ?_, ?_⟩ <;> unfold s
  · simp only [h1, b1, lastFrame, List.foldl_nil, List.foldl_cons]
  · simp only [h2, b3, lastFrame, List.foldl_nil, List.foldl_cons]
  · simp only [h3, b5, lastFrame, List.foldl_nil, List.foldl_cons]

theorem exec_now (s : St) (l : List Ev) : (exec s l).now = s.now + l.count (.world .tick) := by
  induction l generalizing s with
  | nil => rfl
  | cons e l ih =>
    show (exec (step s e) l).now = _
    rw [ih, List.count_cons]
    cases e with
    | world w => cases w <;> (simp [step]; try omega)
    | code =>
      have : (step s .code).now = s.now := by unfold step; simp only; split <;> rfl
      simp [this]

/-- **C284 violated**: the timestamp is older than the values, by any time: the position belongs to a frame which arrived `d` after the time of the timestamp. -/
theorem later_violated (t d : Nat) (f g : Frame) (p v q : Sig) :
    let w : Nat → List World := fun i => if i = 1 then List.replicate d .tick ++ [.frame g] else []
    let s := exec ⟨t, f, 0, 0, p, v, q⟩ (schedule w)
    s.position = ⟨some g.pos, some t⟩ ∧ s.now = t + d := by
  intro w s
  obtain ⟨-, h1, -, -⟩ := run_exact_partial t f p v q w
  have b0 : before w 0 = [] := by simp [before, w]
  have b1 : before w 1 = List.replicate d .tick ++ [.frame g] := by simp [before, List.range_succ, w]
  refine ⟨?_, ?_⟩
  · show (exec _ _).position = _
    rw [h1, b0, b1, lastFrame_append]
    rfl
  · show (exec _ _).now = _
    have hs : schedule w = .code :: (List.replicate d (.world .tick) ++ [.world (.frame g)]) ++ List.replicate 6 .code := by
      simp [schedule, List.range_succ, w]
    rw [exec_now, hs]
    simp

end Verif.Control.ElmoInput
