import Verif.Hal.ODriveCalib
import Mathlib.Algebra.Order.BigOperators.Group.List
import Mathlib.Tactic.IntervalCases
import Mathlib.Tactic.NormNum
import Mathlib.Tactic.Linarith
/-!
C304 identifications of the two axes, C305 and C306 calibration of the motors, C307 members and watchdog of the thread of `ODriveUSB`.
-/
namespace Verif.Hal.ODriveCalib

/-! ### C304 -/

/-- **C304** Every constant of axis 1 lies 229 above the one of axis 0, apart from two. -/
theorem offset_partial : ∀ r ∈ table, r.1 ≠ "is_homed" → r.1 ≠ "endstop_state" → r.2.2 = r.2.1 + 229 := by decide +kernel

/-- C304: all identifications are different. -/
theorem distinct : (common ++ table.map (fun r => r.2.1) ++ table.map (fun r => r.2.2)).Nodup := by decide +kernel

/-- C304 violated: the two constants which do not fit. -/
theorem offset_violated : (table.filter fun r => r.2.2 ≠ r.2.1 + 229) = [("is_homed", 77, 3006), ("endstop_state", 291, 513)] := by decide +kernel

example : ident "requested_state" true = ident "requested_state" false + 229 := by decide +kernel

section
variable {K : Type}

/-- C304 violated: the end switch of motor 1, at the identification 229 above the one of motor 0, is never seen: whatever it is, the answer is the same. -/
theorem switch_not_read_violated (a b : Answers K) (m : Mem K) (hv : a.vel = b.vel) (h : ∀ id, id ≠ ident "endstop_state" false + 229 → a.flag id = b.flag id) :
    isEndstopActive (pass a m).1 = isEndstopActive (pass b m).1 := by
  have h0 : a.flag (ident "endstop_state" false) = b.flag (ident "endstop_state" false) := h _ (by decide +kernel)
  have h1 : a.flag (ident "endstop_state" true) = b.flag (ident "endstop_state" true) := h _ (by decide +kernel)
  unfold pass
  by_cases hc : m.count % 500 = 0 <;> simp [hc, isEndstopActive, h0, h1]

/-- C304 violated: with the switch of motor 1 pressed and all others free the emergency switch counts as not active. -/
theorem pressed_unseen_violated (a : Answers K) (m : Mem K) (_hp : a.flag (ident "endstop_state" false + 229) = some true)
    (h : ∀ id, id ≠ ident "endstop_state" false + 229 → a.flag id = some false) : isEndstopActive (pass a m).1 = some false := by
  have h0 : a.flag (ident "endstop_state" false) = some false := h _ (by decide +kernel)
  have h1 : a.flag (ident "endstop_state" true) = some false := h _ (by decide +kernel)
  unfold pass
  by_cases hc : m.count % 500 = 0 <;> simp [hc, isEndstopActive, h0, h1]

/-- C304: the switch of motor 0 is seen. -/
theorem switch0_partial (a : Answers K) (m : Mem K) (h : a.flag 291 = some true) : isEndstopActive (pass a m).1 = some true := by
  have h0 : a.flag (ident "endstop_state" false) = some true := by
    have : ident "endstop_state" false = 291 := by decide +kernel
    rw [this]; exact h
  unfold pass
  by_cases hc : m.count % 500 = 0 <;> simp [hc, isEndstopActive, h0]

example : isEndstopActive (pass (⟨fun _ => some 0, fun id => some (id == 520)⟩ : Answers Int) {}).1 = some false :=
  pressed_unseen_violated _ _ (by decide +kernel) (by
    intro id h
    have : ident "endstop_state" false + 229 = 520 := by decide +kernel
    rw [this] at h; simp [h])

end

/-! ### C305 and C306 -/

/-- The commands among the actions: identification and value. -/
def commands (as : List Act) : List (Nat × Nat) := as.filterMap fun | .set id v => some (id, v) | _ => none

theorem commands_append (as bs : List Act) : commands (as ++ bs) = commands as ++ commands bs := List.filterMap_append

theorem commands_read (ans : Nat → Var → Option Bool) (v : Var) (s : S) : commands (read ans v s).acts = commands s.acts := by
  simp [read, commands_append]; simp [commands]

theorem commands_reads (ans : Nat → Var → Option Bool) (vs : List Var) (s : S) : commands (reads ans vs s).acts = commands s.acts := by
  induction vs generalizing s with
  | nil => rfl
  | cons v vs ih =>
    have : reads ans (v :: vs) s = reads ans vs (read ans v s) := rfl
    rw [this, ih, commands_read]

theorem commands_loop (ans : Nat → Var → Option Bool) (f : Nat) (s t : S) (h : loop ans f s = some t) : commands t.acts = commands s.acts := by
  induction f generalizing s with
  | zero =>
    unfold loop at h
    by_cases hr : ready s
    · rw [if_pos hr] at h; injection h with h; rw [h]
    · rw [if_neg hr] at h; cases h
  | succ f ih =>
    unfold loop at h
    by_cases hr : ready s
    · rw [if_pos hr] at h; injection h with h; rw [h]
    · rw [if_neg hr] at h; rw [ih _ h]; exact commands_reads _ _ _

/-- The drive which answers every read. -/
def answers (d : Nat → Var → Bool) : Nat → Var → Option Bool := fun n v => some (d n v)

theorem read_n (ans : Nat → Var → Option Bool) (v : Var) (s : S) : (read ans v s).n = s.n + 1 := rfl

theorem read_self (d : Nat → Var → Bool) (v : Var) (s : S) : (read (answers d) v s).vars v = some (d s.n v) := by simp [read, answers]

theorem read_other (ans : Nat → Var → Option Bool) (v w : Var) (s : S) (h : w ≠ v) : (read ans v s).vars w = s.vars w := by simp [read, h]

theorem motor_vars (a : Bool) (s : S) : (motor a s).vars = s.vars := by unfold motor; split <;> rfl
theorem motor_n (a : Bool) (s : S) : (motor a s).n = s.n := by unfold motor; split <;> rfl
theorem encoder_vars (ans : Nat → Var → Option Bool) (a : Bool) (s : S) : (encoder ans a s).vars = (read ans (.enc a) s).vars := by
  unfold encoder; simp only []; split <;> rfl
theorem encoder_n (ans : Nat → Var → Option Bool) (a : Bool) (s : S) : (encoder ans a s).n = s.n + 1 := by
  unfold encoder; simp only []; split <;> rfl
theorem act_vars (x : Act) (s : S) : (act x s).vars = s.vars := rfl
theorem act_n (x : Act) (s : S) : (act x s).n = s.n := rfl

theorem commands_motor (a : Bool) (s : S) : commands (motor a s).acts =
    commands s.acts ++ if s.on (.ind a) || s.on (.res a) || !s.on (.cal a) then [(ident "requested_state" a, 4)] else [] := by
  unfold motor; split <;> simp [act, commands_append, commands]

theorem commands_encoder (ans : Nat → Var → Option Bool) (a : Bool) (s : S) : commands (encoder ans a s).acts =
    commands s.acts ++ if !(read ans (.enc a) s).on (.enc a) then [(ident "requested_state" a, 7)] else [] := by
  unfold encoder
  simp only []
  split <;> simp [act, commands_append, commands_read] <;> simp [commands]

/-- The state after the first reads, for a drive which answers. -/
theorem begin_answers (d : Nat → Var → Bool) : ∃ s, begin (answers d) = some s ∧ s.n = 8 ∧ commands s.acts = [] ∧
    s.vars (.ind false) = some (d 0 (.ind false)) ∧ s.vars (.res false) = some (d 1 (.res false)) ∧
    s.vars (.ind true) = some (d 2 (.ind true)) ∧ s.vars (.res true) = some (d 3 (.res true)) ∧
    s.vars (.cal false) = some (d 4 (.cal false)) ∧ s.vars (.cal true) = some (d 5 (.cal true)) ∧
    s.vars (.enc false) = some (d 6 (.enc false)) ∧ s.vars (.enc true) = some (d 7 (.enc true)) := by
  refine ⟨reads (answers d) first (act (.exec (ident "clear_errors" true)) (act (.exec (ident "clear_errors" false)) {})), ?_, ?_, ?_⟩
  · unfold begin
    simp only []
    rw [if_pos]
    simp [first, reads, read, answers, act]
  · rfl
  · refine ⟨?_, by simp [first, reads, read, answers, act], by simp [first, reads, read, answers, act], by simp [first, reads, read, answers, act],
      by simp [first, reads, read, answers, act], by simp [first, reads, read, answers, act], by simp [first, reads, read, answers, act],
      by simp [first, reads, read, answers, act], by simp [first, reads, read, answers, act]⟩
    rw [commands_reads]; rfl

/-- The readiness which the drive reports before the loop (`j = 0`) and in pass `j` of the loop. -/
def Reported (d : Nat → Var → Bool) (j : Nat) : Prop :=
  if j = 0 then d 10 (.enc false) = true ∧ d 11 (.enc true) = true ∧ d 12 (.cal false) = true ∧ d 13 (.cal true) = true
  else d (10 + 4 * j) (.cal false) = true ∧ d (11 + 4 * j) (.enc false) = true ∧ d (12 + 4 * j) (.cal true) = true ∧ d (13 + 4 * j) (.enc true) = true

theorem middle_answers (d : Nat → Var → Bool) (s : S) (hn : s.n = 8) :
    (middle (answers d) s).n = 14 ∧ (ready (middle (answers d) s) = true ↔ Reported d 0) := by
  have n1 : (motor true (motor false s)).n = 8 := by rw [motor_n, motor_n, hn]
  constructor
  · simp [middle, reads, read_n, encoder_n, n1]
  · simp [middle, ready, S.on, reads, read, answers, encoder_vars, encoder_n, n1, Reported]
    constructor
    · rintro ⟨⟨⟨a, b⟩, c⟩, d⟩; exact ⟨b, d, a, c⟩
    · rintro ⟨a, b, c, d⟩; exact ⟨⟨⟨c, a⟩, d⟩, b⟩

theorem again_answers (d : Nat → Var → Bool) (s : S) (j : Nat) (hn : s.n = 14 + 4 * j) :
    (again (answers d) s).n = 14 + 4 * (j + 1) ∧ (ready (again (answers d) s) = true ↔ Reported d (j + 1)) := by
  constructor
  · simp only [again, reads, List.foldl, read_n, hn]; omega
  · have e1 : 10 + 4 * (j + 1) = 14 + 4 * j := by omega
    have e2 : 11 + 4 * (j + 1) = 14 + 4 * j + 1 := by omega
    have e3 : 12 + 4 * (j + 1) = 14 + 4 * j + 1 + 1 := by omega
    have e4 : 13 + 4 * (j + 1) = 14 + 4 * j + 1 + 1 + 1 := by omega
    simp only [Reported, Nat.add_one_ne_zero, if_false, e1, e2, e3, e4]
    simp [again, ready, S.on, reads, read, answers, hn]
    constructor
    · rintro ⟨⟨⟨a, b⟩, c⟩, d⟩; exact ⟨a, b, c, d⟩
    · rintro ⟨a, b, c, d⟩; exact ⟨⟨⟨a, b⟩, c⟩, d⟩

theorem loop_answers (d : Nat → Var → Bool) (f j : Nat) (s : S) (hn : s.n = 14 + 4 * j) (hr : ready s = true ↔ Reported d j) :
    (∃ t, loop (answers d) f s = some t) ↔ ∃ i, j ≤ i ∧ i ≤ j + f ∧ Reported d i := by
  induction f generalizing s j with
  | zero =>
    unfold loop
    by_cases h : ready s
    · rw [if_pos h]; exact ⟨fun _ => ⟨j, Nat.le_refl _, Nat.le_refl _, hr.mp h⟩, fun _ => ⟨s, rfl⟩⟩
    · rw [if_neg h]
      constructor
      · rintro ⟨t, ht⟩; cases ht
      · rintro ⟨i, h1, h2, h3⟩
        obtain rfl : i = j := by omega
        exact absurd (hr.mpr h3) h
  | succ f ih =>
    unfold loop
    by_cases h : ready s
    · rw [if_pos h]; exact ⟨fun _ => ⟨j, Nat.le_refl _, by omega, hr.mp h⟩, fun _ => ⟨s, rfl⟩⟩
    · rw [if_neg h]
      obtain ⟨a, b⟩ := again_answers d s j hn
      rw [ih (j + 1) _ a b]
      constructor
      · rintro ⟨i, h1, h2, h3⟩; exact ⟨i, by omega, by omega, h3⟩
      · rintro ⟨i, h1, h2, h3⟩
        have : i ≠ j := by rintro rfl; exact h (hr.mpr h3)
        exact ⟨i, by omega, by omega, h3⟩

/-- **C305** For a drive which answers every read the calibration returns after at most `fuel` passes of its loop exactly if the drive reports in one of
the rounds that both motors are calibrated and both encoders are ready; otherwise it goes on. -/
theorem returns_iff (d : Nat → Var → Bool) (fuel : Nat) :
    ((∃ as, calibrate (answers d) fuel = .done as) ↔ ∃ j, j ≤ fuel ∧ Reported d j) ∧
    (calibrate (answers d) fuel = .busy ↔ ∀ j, j ≤ fuel → ¬ Reported d j) := by
  obtain ⟨s, hb, hn, -⟩ := begin_answers d
  obtain ⟨mn, mr⟩ := middle_answers d s hn
  have key := loop_answers d fuel 0 _ mn mr
  have key2 : (∃ t, loop (answers d) fuel (middle (answers d) s) = some t) ↔ ∃ j, j ≤ fuel ∧ Reported d j := by
    rw [key]
    constructor
    · rintro ⟨i, -, h2, h3⟩; exact ⟨i, by omega, h3⟩
    · rintro ⟨i, h2, h3⟩; exact ⟨i, Nat.zero_le _, by omega, h3⟩
  unfold calibrate
  rw [hb]
  simp only []
  cases hl : loop (answers d) fuel (middle (answers d) s) with
  | none =>
    rw [hl] at key2
    have : ¬ ∃ j, j ≤ fuel ∧ Reported d j := fun h => by obtain ⟨t, ht⟩ := key2.mpr h; cases ht
    refine ⟨⟨?_, fun h => absurd h this⟩, ⟨fun _ j hj hr => this ⟨j, hj, hr⟩, fun _ => rfl⟩⟩
    rintro ⟨as, h⟩; cases h
  | some t =>
    have hx := key2.mp ⟨t, hl⟩
    refine ⟨⟨fun _ => hx, fun _ => ⟨_, rfl⟩⟩, ⟨fun h => (by cases h), fun h => ?_⟩⟩
    obtain ⟨j, h1, h2⟩ := hx
    exact absurd h2 (h j h1)

/-- **C305** The commands of a calibration which returns: a motor is calibrated exactly if one of its values is infinite or it is not calibrated, then an
encoder exactly if it is not ready. -/
theorem commands_exact (d : Nat → Var → Bool) (fuel : Nat) (as : List Act) (h : calibrate (answers d) fuel = .done as) :
    commands as =
      (if d 0 (.ind false) || d 1 (.res false) || !d 4 (.cal false) then [(74, 4)] else []) ++
      (if d 2 (.ind true) || d 3 (.res true) || !d 5 (.cal true) then [(303, 4)] else []) ++
      (if !d 10 (.enc false) then [(74, 7)] else []) ++ (if !d 11 (.enc true) then [(303, 7)] else []) := by
  obtain ⟨s, hb, hn, hc, h0, h1, h2, h3, h4, h5, h6, h7⟩ := begin_answers d
  unfold calibrate at h
  rw [hb] at h
  simp only [] at h
  cases hl : loop (answers d) fuel (middle (answers d) s) with
  | none => rw [hl] at h; cases h
  | some t =>
    rw [hl] at h
    simp only [Out.done.injEq] at h
    rw [← h, commands_reads, commands_loop _ _ _ _ hl]
    have i0 : ident "requested_state" false = 74 := by decide +kernel
    have i1 : ident "requested_state" true = 303 := by decide +kernel
    have n1 : (motor true (motor false s)).n = 8 := by rw [motor_n, motor_n, hn]
    unfold middle
    simp only []
    rw [commands_reads, commands_encoder, commands_encoder, commands_reads, commands_motor, commands_motor, hc, i0, i1]
    simp [S.on, motor_vars, h0, h1, h2, h3, h4, h5, read_self, encoder_n, reads, read_n, n1]

theorem vars_reads_isSome (ans : Nat → Var → Option Bool) (vs : List Var) (s : S) (v : Var) (h : v ∉ vs) : (reads ans vs s).vars v = s.vars v := by
  induction vs generalizing s with
  | nil => rfl
  | cons w vs ih =>
    have e : reads ans (w :: vs) s = reads ans vs (read ans w s) := rfl
    rw [e, ih _ (fun hm => h (List.mem_cons_of_mem _ hm))]
    exact read_other _ _ _ _ (fun hv => h (hv ▸ List.mem_cons_self))

/-- **C305** The result is undefined exactly if one of the first eight reads fails. -/
theorem undefined_iff (ans : Nat → Var → Option Bool) (fuel : Nat) :
    calibrate ans fuel = .undefined ↔
      ans 0 (.ind false) = none ∨ ans 1 (.res false) = none ∨ ans 2 (.ind true) = none ∨ ans 3 (.res true) = none ∨
      ans 4 (.cal false) = none ∨ ans 5 (.cal true) = none ∨ ans 6 (.enc false) = none ∨ ans 7 (.enc true) = none := by
  have hu : calibrate ans fuel = .undefined ↔ begin ans = none := by
    unfold calibrate
    cases begin ans with
    | none => simp
    | some s =>
      simp only []
      cases loop ans fuel (middle ans s) <;> simp
  rw [hu]
  unfold begin
  simp only []
  simp only [first, reads, read, act, List.foldl]
  cases ans 0 (.ind false) <;> cases ans 1 (.res false) <;> cases ans 2 (.ind true) <;> cases ans 3 (.res true) <;>
    cases ans 4 (.cal false) <;> cases ans 5 (.cal true) <;> cases ans 6 (.enc false) <;> cases ans 7 (.enc true) <;> simp

theorem reads_silent (ans : Nat → Var → Option Bool) (vs : List Var) (s : S) (n : Nat) (hn : n ≤ s.n) (h : ∀ k v, n ≤ k → ans k v = none) :
    (reads ans vs s).vars = s.vars ∧ n ≤ (reads ans vs s).n := by
  induction vs generalizing s with
  | nil => exact ⟨rfl, hn⟩
  | cons w vs ih =>
    have e : reads ans (w :: vs) s = reads ans vs (read ans w s) := rfl
    have hv : (read ans w s).vars = s.vars := by
      funext x
      by_cases hx : x = w
      · subst hx; simp [read, h s.n x hn]
      · exact read_other _ _ _ _ hx
    obtain ⟨a, b⟩ := ih (read ans w s) (Nat.le_succ_of_le hn)
    rw [e]
    exact ⟨a.trans hv, b⟩

theorem middle_silent (ans : Nat → Var → Option Bool) (s : S) (hn : 8 ≤ s.n) (h : ∀ k v, 8 ≤ k → ans k v = none) :
    (middle ans s).vars = s.vars ∧ 8 ≤ (middle ans s).n := by
  have e (a : Bool) (t : S) (ht : 8 ≤ t.n) : (encoder ans a t).vars = t.vars ∧ 8 ≤ (encoder ans a t).n := by
    have := reads_silent ans [.enc a] t 8 ht h
    exact ⟨(encoder_vars _ _ _).trans this.1, by rw [encoder_n]; omega⟩
  unfold middle
  simp only []
  have h0 : 8 ≤ (motor true (motor false s)).n := by rw [motor_n, motor_n]; exact hn
  have h1 := reads_silent ans [.cal false, .cal true] _ 8 h0 h
  have h2 := e false _ h1.2
  have h3 := e true _ h2.2
  have h4 := reads_silent ans [.cal false, .cal true] _ 8 h3.2 h
  exact ⟨by rw [h4.1, h3.1, h2.1, h1.1, motor_vars, motor_vars], h4.2⟩

/-- The variables after the first reads. -/
theorem begin_vars (ans : Nat → Var → Option Bool) (s : S) (hb : begin ans = some s) :
    s.n = 8 ∧ s.vars (.cal false) = ans 4 (.cal false) ∧ s.vars (.cal true) = ans 5 (.cal true) ∧
    s.vars (.enc false) = ans 6 (.enc false) ∧ s.vars (.enc true) = ans 7 (.enc true) := by
  unfold begin at hb
  simp only [] at hb
  split at hb
  · injection hb with hb
    subst hb
    simp only [first, reads, read, act, List.foldl]
    refine ⟨trivial, ?_, ?_, ?_, ?_⟩
    · cases ans 4 (.cal false) <;> simp
    · cases ans 5 (.cal true) <;> simp
    · cases ans 6 (.enc false) <;> simp
    · cases ans 7 (.enc true) <;> simp
  · cases hb

theorem loop_silent (ans : Nat → Var → Option Bool) (f : Nat) (s : S) (hn : 8 ≤ s.n) (h : ∀ k v, 8 ≤ k → ans k v = none) (hr : ready s = false) :
    loop ans f s = none := by
  induction f generalizing s with
  | zero => unfold loop; rw [hr]; rfl
  | succ f ih =>
    unfold loop
    rw [hr]
    have := reads_silent ans [.cal false, .enc false, .cal true, .enc true] s 8 hn h
    refine ih _ this.2 ?_
    rw [← hr]
    unfold ready S.on again
    rw [this.1]

/-- C306 violated: a drive which is not reached any more after the first eight reads counts as calibrated, if these said so; otherwise the calibration
never ends. -/
theorem silent_drive_violated (ans : Nat → Var → Option Bool) (fuel : Nat) (h : ∀ k v, 8 ≤ k → ans k v = none)
    (hd : calibrate ans fuel ≠ .undefined) :
    (∃ as, calibrate ans fuel = .done as) ↔
      ans 4 (.cal false) = some true ∧ ans 5 (.cal true) = some true ∧ ans 6 (.enc false) = some true ∧ ans 7 (.enc true) = some true := by
  cases hb : begin ans with
  | none => exact absurd (by unfold calibrate; rw [hb]) hd
  | some s =>
    obtain ⟨hn, a, b, c, d⟩ := begin_vars ans s hb
    obtain ⟨mv, mn⟩ := middle_silent ans s (by omega) h
    have hr : ready (middle ans s) = true ↔
        ans 4 (.cal false) = some true ∧ ans 5 (.cal true) = some true ∧ ans 6 (.enc false) = some true ∧ ans 7 (.enc true) = some true := by
      unfold ready S.on
      rw [mv, a, b, c, d]
      simp
      constructor
      · rintro ⟨⟨⟨p, q⟩, r⟩, t⟩; exact ⟨p, r, q, t⟩
      · rintro ⟨p, q, r, t⟩; exact ⟨⟨⟨p, r⟩, q⟩, t⟩
    rw [← hr]
    unfold calibrate
    rw [hb]
    simp only []
    by_cases hx : ready (middle ans s) = true
    · have : loop ans fuel (middle ans s) = some (middle ans s) := by cases fuel <;> unfold loop <;> rw [if_pos hx]
      rw [this]
      exact ⟨fun _ => hx, fun _ => ⟨_, rfl⟩⟩
    · have hf : ready (middle ans s) = false := by simpa using hx
      rw [loop_silent ans fuel _ mn h hf]
      exact ⟨fun ⟨as, h⟩ => (by cases h), fun h => absurd h hx⟩

/-- The endpoints which the calibration may read. -/
def Allowed (as : List Act) : Prop := ∀ id, Act.get id ∈ as → ∃ v, id = source v

theorem allowed_reads (ans : Nat → Var → Option Bool) (vs : List Var) (s : S) (h : Allowed s.acts) : Allowed (reads ans vs s).acts := by
  induction vs generalizing s with
  | nil => exact h
  | cons w vs ih =>
    have e : reads ans (w :: vs) s = reads ans vs (read ans w s) := rfl
    rw [e]
    refine ih _ ?_
    intro id hid
    simp only [read, List.mem_append, List.mem_singleton, Act.get.injEq] at hid
    rcases hid with hid | hid
    · exact h id hid
    · exact ⟨w, hid⟩

theorem allowed_act (x : Act) (s : S) (hx : ∀ id, x ≠ .get id) (h : Allowed s.acts) : Allowed (act x s).acts := by
  intro id hid
  simp only [act, List.mem_append, List.mem_singleton] at hid
  rcases hid with hid | hid
  · exact h id hid
  · exact absurd hid.symm (hx id)

theorem allowed_motor (a : Bool) (s : S) (h : Allowed s.acts) : Allowed (motor a s).acts := by
  unfold motor
  split
  · exact allowed_act _ _ (by intro id hh; cases hh) h
  · exact h

theorem allowed_encoder (ans : Nat → Var → Option Bool) (a : Bool) (s : S) (h : Allowed s.acts) : Allowed (encoder ans a s).acts := by
  have h1 := allowed_reads ans [.enc a] s h
  unfold encoder
  simp only []
  split
  · exact allowed_act _ _ (by intro id hh; cases hh) h1
  · exact h1

theorem allowed_loop (ans : Nat → Var → Option Bool) (f : Nat) (s t : S) (h : Allowed s.acts) (hl : loop ans f s = some t) : Allowed t.acts := by
  induction f generalizing s with
  | zero =>
    unfold loop at hl
    split at hl
    · injection hl with hl; rw [← hl]; exact h
    · cases hl
  | succ f ih =>
    unfold loop at hl
    split at hl
    · injection hl with hl; rw [← hl]; exact h
    · exact ih _ (allowed_reads _ _ _ h) hl

/-- C306 violated: during the calibration, however long it lasts, the emergency switches are not looked at, neither at the right nor at the wrong identification. -/
theorem switches_ignored_violated (ans : Nat → Var → Option Bool) (fuel : Nat) (as : List Act) (h : calibrate ans fuel = .done as) :
    Act.get 291 ∉ as ∧ Act.get 513 ∉ as ∧ Act.get 520 ∉ as := by
  have key : Allowed as := by
    unfold calibrate at h
    cases hb : begin ans with
    | none => rw [hb] at h; cases h
    | some s =>
      rw [hb] at h
      simp only [] at h
      have hs : Allowed s.acts := by
        unfold begin at hb
        simp only [] at hb
        split at hb
        · injection hb with hb
          rw [← hb]
          refine allowed_reads _ _ _ (allowed_act _ _ (by intro id hh; cases hh) (allowed_act _ _ (by intro id hh; cases hh) ?_))
          intro id hid; cases hid
        · cases hb
      have hm : Allowed (middle ans s).acts :=
        allowed_reads _ _ _ (allowed_encoder _ _ _ (allowed_encoder _ _ _ (allowed_reads _ _ _ (allowed_motor _ _ (allowed_motor _ _ hs)))))
      cases hl : loop ans fuel (middle ans s) with
      | none => rw [hl] at h; cases h
      | some t =>
        rw [hl] at h
        simp only [Out.done.injEq] at h
        rw [← h]
        exact allowed_reads _ _ _ (allowed_loop _ _ _ _ hm hl)
  have src : ∀ v, source v ≠ 291 ∧ source v ≠ 513 ∧ source v ≠ 520 := by
    intro v
    cases v with
    | ind a => cases a <;> decide +kernel
    | res a => cases a <;> decide +kernel
    | cal a => cases a <;> decide +kernel
    | enc a => cases a <;> decide +kernel
  refine ⟨fun hm => ?_, fun hm => ?_, fun hm => ?_⟩ <;> obtain ⟨v, hv⟩ := key _ hm
  · exact (src v).1 hv.symm
  · exact (src v).2.1 hv.symm
  · exact (src v).2.2 hv.symm

/-- A drive with a motor 0 which is not calibrated until the third round. -/
def slow : Nat → Var → Bool := fun n v => match v with | .ind _ => false | .res _ => false | .cal a => a || decide (22 ≤ n) | .enc _ => true

example : (∃ as, calibrate (answers slow) 3 = .done as) ∧ calibrate (answers slow) 2 = .busy :=
  ⟨(returns_iff slow 3).1.mpr ⟨3, Nat.le_refl _, by simp [Reported, slow]⟩,
    (returns_iff slow 2).2.mpr (by intro j hj; interval_cases j <;> simp [Reported, slow])⟩

example : ∀ as, calibrate (answers slow) 3 = .done as → commands as = [(74, 4)] := fun as h => commands_exact slow 3 as h

/-! ### C307 -/

section
variable {K : Type}

theorem pass_count (a : Answers K) (m : Mem K) (h : m.count = 0) : (pass a m).1.count = 0 ∧ (pass a m).2 = true := by
  unfold pass; simp [h]

/-- **C307** The watchdogs are fed in every pass. -/
theorem fed_every_pass (as : List (Answers K)) : (runs as {}).2 = as.map fun _ => true := by
  have key : ∀ (as : List (Answers K)) (m : Mem K), m.count = 0 → (runs as m).2 = as.map fun _ => true := by
    intro as
    induction as with
    | nil => intro m _; rfl
    | cons a as ih =>
      intro m h
      obtain ⟨h1, h2⟩ := pass_count a m h
      simp only [runs, List.map_cons]
      rw [h2, ih _ h1]
  exact key as _ rfl

/-- C307 violated: the counter which should let through one feed in 500 passes has no effect from the second pass on. -/
theorem counter_violated (as : List (Answers K)) (h : 2 ≤ as.length) :
    ((runs as {}).2.filter id).length ≠ (as.length + 499) / 500 := by
  rw [fed_every_pass]
  have : (List.map (fun _ => true) as).filter id = List.map (fun _ => true) as := by
    rw [List.filter_eq_self]
    intro b hb
    obtain ⟨_, _, rfl⟩ := List.mem_map.mp hb
    rfl
  rw [this, List.length_map]
  omega

/-- **C307** After a pass the velocities and switches are the answers of this pass; a failed read leaves no value. -/
theorem members_exact (as : List (Answers K)) (a : Answers K) :
    (runs (as ++ [a]) {}).1.vel = a.vel ∧ ∀ axis, (runs (as ++ [a]) {}).1.stop axis = a.flag (ident "endstop_state" axis) := by
  have key : ∀ (as : List (Answers K)) (m : Mem K), (runs (as ++ [a]) m).1.vel = a.vel ∧
      ∀ axis, (runs (as ++ [a]) m).1.stop axis = a.flag (ident "endstop_state" axis) := by
    intro as
    induction as with
    | nil =>
      intro m
      simp only [List.nil_append, runs, pass]
      by_cases h : m.count % 500 = 0 <;> simp [h]
    | cons b as ih =>
      intro m
      exact ih (pass b m).1
  exact key as {}

/-- C307 violated: the currents of the motors are never read from the drive: they are indeterminate after any number of passes with any answers. -/
theorem currents_never_read_violated (as : List (Answers K)) (axis : Bool) : (runs as {}).1.current axis = none := by
  have key : ∀ (as : List (Answers K)) (m : Mem K), (runs as m).1.current = m.current := by
    intro as
    induction as with
    | nil => intro m; rfl
    | cons b as ih =>
      intro m
      have hp : (pass b m).1.current = m.current := by
        unfold pass
        by_cases h : m.count % 500 = 0 <;> simp [h]
      exact (ih (pass b m).1).trans hp
  rw [key]

example : (runs [(⟨fun _ => some 3, fun _ => some false⟩ : Answers Int), ⟨fun _ => some 4, fun _ => none⟩] {}).2 = [true, true] := fed_every_pass _

end

section
variable {K : Type} [Field K] [LinearOrder K] [IsStrictOrderedRing K]

/-- **C307** The watchdog trips exactly if a pass lasts longer than its time limit of one second. -/
theorem trips_iff (ps : List (Answers K × K)) (t : K) : live ps {} t (arm t) = true ↔ ∃ p ∈ ps, 1 < p.2 := by
  have key : ∀ (ps : List (Answers K × K)) (m : Mem K) (t : K) (w : Wd K), m.count = 0 → w.enabled = true → w.last = t →
      (live ps m t w = true ↔ w.tripped = true ∨ ∃ p ∈ ps, 1 < p.2) := by
    intro ps
    induction ps with
    | nil =>
      intro m t w _ he hl
      simp [live, look, he, hl, not_lt.mpr (zero_le_one (α := K))]
    | cons p ps ih =>
      intro m t w hm he hl
      obtain ⟨a, d⟩ := p
      obtain ⟨h1, h2⟩ := pass_count a m hm
      have : live ((a, d) :: ps) m t w = live ps (pass a m).1 (t + d) (feed w (t + d)) := by
        simp only [live]; rw [h2]; rfl
      rw [this, ih (pass a m).1 (t + d) (feed w (t + d)) h1 he rfl]
      have hd : t + d - t = d := by ring
      simp [feed, he, hl, hd]
      tauto
  rw [key ps {} t (arm t) rfl rfl rfl]
  simp [arm]

/-- **C307** If every request of a pass takes at most 0.124 s the watchdog does not trip. -/
theorem fast_requests_partial (ps : List (Answers K × List K)) (t : K)
    (h : ∀ p ∈ ps, p.2.length = 8 ∧ ∀ r ∈ p.2, r ≤ 124 / 1000) : live (ps.map fun p => (p.1, duration p.2)) {} t (arm t) = false := by
  rw [Bool.eq_false_iff]
  intro hl
  obtain ⟨q, hq, hlt⟩ := (trips_iff _ t).mp hl
  obtain ⟨p, hp, rfl⟩ := List.mem_map.mp hq
  obtain ⟨h8, hr⟩ := h p hp
  have := List.sum_le_card_nsmul p.2 (124 / 1000) hr
  rw [h8] at this
  simp only [duration, nsmul_eq_mul] at hlt this
  norm_num at hlt this
  linarith

/-- C307 violated: requests which take their permitted 200 ms make the watchdog trip though the thread runs all the time. -/
theorem slow_requests_violated (ps : List (Answers K × List K)) (t : K) (p : Answers K × List K) (hp : p ∈ ps)
    (h : p.2.length = 8 ∧ ∀ r ∈ p.2, 1 / 8 ≤ r) : live (ps.map fun p => (p.1, duration p.2)) {} t (arm t) = true := by
  rw [trips_iff]
  refine ⟨_, List.mem_map.mpr ⟨p, hp, rfl⟩, ?_⟩
  have := List.card_nsmul_le_sum p.2 (1 / 8) h.2
  rw [h.1] at this
  simp only [duration, nsmul_eq_mul] at this ⊢
  norm_num at this ⊢
  linarith

example : live ([((⟨fun _ => some 0, fun _ => some false⟩ : Answers ℚ), List.replicate 8 (1 / 5 : ℚ))].map fun p => (p.1, duration p.2)) {} 7 (arm 7) = true :=
  slow_requests_violated _ 7 _ (List.mem_singleton.mpr rfl) ⟨rfl, by intro r hr; rw [List.eq_of_mem_replicate hr]; norm_num⟩

end

/-- Case of `silent_drive_violated`. -/
example : ∃ as, calibrate (fun k _ => if k < 8 then some true else none) 3 = .done as :=
  (silent_drive_violated (fun k _ => if k < 8 then some true else none) 3 (fun k v hk => if_neg (by omega)) (by decide +kernel)).2 (by decide)

end Verif.Hal.ODriveCalib
