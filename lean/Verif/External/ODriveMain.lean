import Mathlib.Data.Nat.Notation
/-!
Model of the test program of the ODrive library, external/odrive/src/main.cpp: the calibration (57-84) and the endless loop with the velocities
(122-143).  The drive is the environment.  A request which fails leaves the variable of the caller as it was (odriveEP.cpp 94-105), the program looks
at no result.
-/
namespace Verif.External.ODriveMain

/-! ### The loop with the velocities -/

/-- `count` and `velSet1`, 118 and 120. -/
structure St where
  count : Nat := 0
  vel : Int := 4000
deriving DecidableEq

/-- One pass of the loop 122-143: the velocities which are written to the drive, in order, and whether the position is printed. -/
def pass (s : St) : St × List Int × Bool :=
  let c := s.count + 2
  let print := c % 1000 == 0
  if 6000 ≤ c ∧ c < 12000 then (⟨c, -4000⟩, [s.vel, -4000], print)
  else if c = 12000 then (⟨0, s.vel⟩, [s.vel], print)
  else (⟨c, 4000⟩, [s.vel, 4000], print)

/-- The state after `n` passes. -/
def after : Nat → St
  | 0 => {}
  | n + 1 => (pass (after n)).1

/-- The velocities written in pass `n` (from 0). -/
def writes (n : Nat) : List Int := (pass (after n)).2.1

/-- Whether pass `n` prints the position. -/
def prints (n : Nat) : Bool := (pass (after n)).2.2

/-- C322, the state: the counter is twice the number of the pass modulo 6000. -/
theorem after_eq (n : Nat) : after n = ⟨2 * (n % 6000), if n % 6000 = 0 ∧ n ≠ 0 then -4000 else if 3000 ≤ n % 6000 then -4000 else 4000⟩ := by
  induction n with
  | zero => rfl
  | succ n ih =>
    simp only [after, ih, pass]
    by_cases h1 : 6000 ≤ 2 * (n % 6000) + 2 ∧ 2 * (n % 6000) + 2 < 12000
    · rw [if_pos h1]
      have e : (n + 1) % 6000 = n % 6000 + 1 := by omega
      simp only [e, St.mk.injEq]
      refine ⟨by omega, ?_⟩
      rw [if_neg (by omega), if_pos (by omega)]
    · rw [if_neg h1]
      by_cases h2 : 2 * (n % 6000) + 2 = 12000
      · rw [if_pos h2]
        have e : (n + 1) % 6000 = 0 := by omega
        simp only [e, St.mk.injEq]
        refine ⟨trivial, ?_⟩
        have h3 : n % 6000 = 5999 := by omega
        simp [h3]
      · rw [if_neg h2]
        have e : (n + 1) % 6000 = n % 6000 + 1 := by omega
        simp only [e, St.mk.injEq]
        refine ⟨by omega, ?_⟩
        rw [if_neg (by omega), if_neg (by omega)]

/-- C322: the last velocity which pass `n` writes, for every pass: 4000 in the first half of every 6000 passes, -4000 in the second. -/
theorem velocity_partial (n : Nat) : (writes n).getLast? = some (if n % 6000 < 2999 then 4000 else -4000) := by
  simp only [writes, after_eq, pass]
  by_cases h1 : 6000 ≤ 2 * (n % 6000) + 2 ∧ 2 * (n % 6000) + 2 < 12000
  · have h : ¬ n % 6000 < 2999 := by omega
    simp only [h1, and_self, if_true, h, if_false]; rfl
  · rw [if_neg h1]
    by_cases h2 : 2 * (n % 6000) + 2 = 12000
    · have h3 : n % 6000 = 5999 := by omega
      simp [h3]
    · have h : n % 6000 < 2999 := by omega
      simp only [h2, if_false, h, if_true]; rfl

/-- C322: every pass first writes the last velocity of the pass before (4000 at the very beginning), so the drive gets no other velocities and a change
is written once per half. -/
theorem repeats (n : Nat) : (writes n).head? = if n = 0 then some 4000 else (writes (n - 1)).getLast? := by
  cases n with
  | zero => rfl
  | succ n =>
    rw [if_neg (by omega), Nat.add_sub_cancel, velocity_partial]
    have hh : ∀ s : St, (pass s).2.1.head? = some s.vel := by
      intro s; simp only [pass]; split
      · rfl
      · split <;> rfl
    rw [writes, hh, after_eq]
    simp only [Option.some.injEq]
    by_cases h : n % 6000 < 2999
    · rw [if_pos h, if_neg (by omega), if_neg (by omega)]
    · rw [if_neg h]
      by_cases h0 : (n + 1) % 6000 = 0
      · rw [if_pos ⟨h0, by omega⟩]
      · rw [if_neg (by omega), if_pos (by omega)]

/-- C322: the position is printed in every 500th pass. -/
theorem printed (n : Nat) : prints n = true ↔ (n + 1) % 500 = 0 := by
  have hp : ∀ s : St, (pass s).2.2 = ((s.count + 2) % 1000 == 0) := by
    intro s; simp only [pass]; split
    · rfl
    · split <;> rfl
  rw [prints, hp, after_eq]
  simp only [beq_iff_eq]
  omega

/-- C322: the velocities are periodic with 6000 passes and equally long in both directions (the second half is one pass longer: 3001 passes). -/
theorem periodic (n : Nat) : (writes (n + 6000)).getLast? = (writes n).getLast? := by
  rw [velocity_partial, velocity_partial]
  have : (n + 6000) % 6000 = n % 6000 := by omega
  rw [this]

example : writes 0 = [4000, 4000] ∧ prints 0 = false := by decide
example : (writes 2998).getLast? = some 4000 ∧ (writes 2999).getLast? = some (-4000) := by rw [velocity_partial, velocity_partial]; decide
example : prints 499 = true := (printed 499).2 rfl

/-- C322 violated: the drive is never stopped nor set idle (145-150 are not reached): after any number of passes the velocity last written is not 0. -/
theorem never_stopped_violated (n : Nat) : ∀ v ∈ writes n, v ≠ 0 := by
  intro v hv
  have hs : (after n).vel = 4000 ∨ (after n).vel = -4000 := by
    rw [after_eq]; simp only; split
    · exact Or.inr rfl
    · split
      · exact Or.inr rfl
      · exact Or.inl rfl
  simp only [writes, pass] at hv
  split at hv
  · simp at hv; omega
  · split at hv
    · simp at hv; omega
    · simp at hv; omega

/-! ### The calibration -/

/-- One reading of the pair `is_calibrated`, `is_ready`: `none` if the request fails. -/
structure Read where
  motor : Option Bool
  encoder : Option Bool
deriving DecidableEq

/-- What the calibration ends with: a variable without value is used, the loop is still running, or it has ended after the request `asked`
(3 full calibration, 7 encoder only). -/
inductive Cal where
  | undefined
  | waiting (asked : Option Nat)
  | done (asked : Option Nat)
deriving DecidableEq

/-- A reading keeps the old value if the request fails. -/
def keep (old new : Option Bool) : Option Bool := match new with
  | some b => some b
  | none => old

/-- The loop 79-84 with its test at the top; 82 prints both variables. -/
def wait (asked : Option Nat) : Option Bool → Option Bool → List Read → Cal
  | none, _, _ => .undefined
  | some _, none, _ => .undefined
  | some m, some e, rs =>
    if m && e then .done asked
    else match rs with
      | [] => .waiting asked
      | r :: rs => wait asked (keep (some m) r.motor) (keep (some e) r.encoder) rs

/-- 57-84: the first reading, which is printed (59, 63), the decision which calibration to request, the reading before the loop (the variable of the motor is another one than
`is_pre_calibrated`, 75-76; the one of the encoder is kept) and the loop. -/
def calibrate (first second : Read) (rest : List Read) : Cal :=
  match first.motor, first.encoder with
  | none, _ => .undefined
  | some _, none => .undefined
  | some m, some e =>
    let asked := if !m then some 3 else if !e then some 7 else none
    wait asked second.motor (keep (some e) second.encoder) rest

theorem wait_ok (asked : Option Nat) (rs : List (Bool × Bool)) : ∀ (m e : Bool),
    wait asked (some m) (some e) (rs.map fun p => ⟨some p.1, some p.2⟩) = if (true, true) ∈ (m, e) :: rs then .done asked else .waiting asked := by
  induction rs with
  | nil => intro m e; cases m <;> cases e <;> simp [wait]
  | cons r rs ih =>
    intro m e
    obtain ⟨a, b⟩ := r
    cases m <;> cases e <;> simp [wait, keep, ih]

/-- C323: if all requests get through, the calibration asks for what is missing (all, the encoder or nothing), and the loop ends exactly if motor and encoder
are both reported ready in one of the later readings. -/
theorem calibrate_partial (m e : Bool) (second : Bool × Bool) (rest : List (Bool × Bool)) :
    calibrate ⟨some m, some e⟩ ⟨some second.1, some second.2⟩ (rest.map fun p => ⟨some p.1, some p.2⟩) =
      let asked := if m = false then some 3 else if e = false then some 7 else none
      if (true, true) ∈ second :: rest then .done asked else .waiting asked := by
  obtain ⟨a, b⟩ := second
  cases m <;> cases e <;> simp [calibrate, keep, wait_ok]

example : calibrate ⟨some true, some false⟩ ⟨some true, some false⟩ [⟨some true, some false⟩, ⟨some true, some true⟩] = .done (some 7) := by decide

/-- C323 violated: if the first request for the state of the motor fails, the decision uses a variable without value, whatever comes later. -/
theorem first_failed_violated (e : Option Bool) (second : Read) (rest : List Read) : calibrate ⟨none, e⟩ second rest = .undefined := rfl

/-- C323 violated: if the request for the motor fails before the loop, the test of the loop uses a variable without value, though the state was read before. -/
theorem second_failed_violated (m e : Bool) (e2 : Option Bool) (rest : List Read) : calibrate ⟨some m, some e⟩ ⟨none, e2⟩ rest = .undefined := by
  simp [calibrate, wait]

/-- C323 violated: "ready" may be put together from different times: the drive was never reported calibrated and ready in the same reading. -/
theorem mixed_violated (rest : List Read) : calibrate ⟨some false, some true⟩ ⟨some false, some true⟩ (⟨some true, none⟩ :: rest) = .done (some 3) := by
  cases rest <;> simp [calibrate, keep, wait]

/-- C323, the exact rule: the behaviour is undefined exactly if the state of the motor or the encoder cannot be read the first time or the motor not the second
time. -/
theorem undefined_iff (first second : Read) (rest : List Read) :
    calibrate first second rest = .undefined ↔ first.motor = none ∨ first.encoder = none ∨ second.motor = none := by
  have hw : ∀ (asked : Option Nat) (rs : List Read) (m e : Bool), wait asked (some m) (some e) rs ≠ .undefined := by
    intro asked rs
    induction rs with
    | nil => intro m e; cases m <;> cases e <;> simp [wait]
    | cons r rs ih =>
      intro m e
      obtain ⟨a, b⟩ := r
      cases m <;> cases e <;> cases a <;> cases b <;> simp [wait, keep, ih]
  obtain ⟨m1, e1⟩ := first
  obtain ⟨m2, e2⟩ := second
  cases m1 with
  | none => simp [calibrate]
  | some m1 =>
    cases e1 with
    | none => simp [calibrate]
    | some e1 =>
      cases m2 with
      | none => simp [calibrate, wait]
      | some m2 => cases e2 <;> simp [calibrate, keep, hw]

example : calibrate ⟨some true, none⟩ ⟨some true, some true⟩ [] = .undefined := by decide

end Verif.External.ODriveMain
