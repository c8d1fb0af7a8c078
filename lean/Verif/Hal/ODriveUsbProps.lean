import Verif.Hal.ODriveUsb
import Mathlib.Algebra.Field.Rat
import Mathlib.Algebra.Order.Ring.Rat
import Mathlib.Tactic.NormNum
/-!
Theorems about `ODriveUSB`: which drive is selected, what is reported, the settings of the end switches, the end of the thread and of the motion.
-/
namespace Verif.Hal.ODriveUsb
set_option linter.unusedSectionVars false

/-! ### Selection of the drive -/

theorem digits_ne_nil (n : Nat) (h : n ≠ 0) : digits n ≠ [] := by
  rw [digits]; simp [h]

theorem digit_ne_zero (n : Nat) (h : n ≠ 0) (h16 : n < 16) : digit n ≠ '0' := by
  have : ∀ k : Fin 16, k.val ≠ 0 → digit k.val ≠ '0' := by decide
  exact this ⟨n, h16⟩ h

theorem digits_head (n : Nat) (h : n ≠ 0) : (digits n).head? ≠ some '0' := by
  induction n using Nat.strongRecOn with
  | _ n ih =>
    rw [digits, dif_neg h]
    by_cases h16 : n / 16 = 0
    · have hn : n < 16 := by omega
      rw [h16, digits]
      simp only [dite_true, List.nil_append, List.head?_cons, ne_eq, Option.some.injEq]
      exact digit_ne_zero _ (by omega) (by omega)
    · have := ih (n / 16) (by omega) h16
      cases hd : digits (n / 16) with
      | nil => exact absurd hd (digits_ne_nil _ h16)
      | cons a l => rw [hd] at this; simpa using this

theorem scan_spec (nr : Nat) (ds : List Device) (k : Nat) :
    (∀ i, scan nr k ds = some i → k ≤ i ∧ ∃ d, ds[i - k]? = some d ∧ attaches nr d = true ∧ ∀ j e, j < i - k → ds[j]? = some e → attaches nr e = false) ∧
    (scan nr k ds = none → ∀ d ∈ ds, attaches nr d = false) := by
  induction ds generalizing k with
  | nil => simp [scan]
  | cons d ds ih =>
    by_cases h : attaches nr d = true
    · constructor
      · intro i hi
        simp only [scan, h, if_true, Option.some.injEq] at hi
        subst hi
        exact ⟨le_refl _, d, by simp, h, fun j e hj => by omega⟩
      · intro hn; simp [scan, h] at hn
    · obtain ⟨h1, h2⟩ := ih (k + 1)
      have hf : attaches nr d = false := by simpa using h
      constructor
      · intro i hi
        simp only [scan, hf, Bool.false_eq_true, if_false] at hi
        obtain ⟨hk, e, he, ha, hl⟩ := h1 i hi
        refine ⟨by omega, e, ?_, ha, ?_⟩
        · rw [show i - k = (i - (k + 1)) + 1 by omega, List.getElem?_cons_succ]; exact he
        · intro j e' hj he'
          cases j with
          | zero => simp at he'; rw [← he']; exact hf
          | succ j => exact hl j e' (by omega) (by simpa using he')
      · intro hn x hx
        simp only [scan, hf, Bool.false_eq_true, if_false] at hn
        rcases List.mem_cons.1 hx with rfl | hx
        · exact hf
        · exact h2 hn x hx

/-- A device is attached exactly if it is a drive and its serial number is a non-empty prefix of the number which was asked for. -/
theorem attaches_iff (nr : Nat) (d : Device) :
    attaches nr d = true ↔ d.product = true ∧ ∃ buf, d.serial = some buf ∧ buf ≠ [] ∧ buf <+: hex nr := by
  obtain ⟨p, s⟩ := d
  cases s with
  | none => simp [attaches]
  | some buf =>
    cases buf with
    | nil => simp [attaches]
    | cons c cs =>
      simp only [attaches, same, Bool.and_eq_true, beq_iff_eq, Option.some.injEq, ne_eq]
      constructor
      · rintro ⟨hp, h⟩
        have ht := List.take_append_drop (c :: cs).length (hex nr)
        rw [h] at ht
        exact ⟨hp, _, rfl, by simp, _, ht⟩
      · rintro ⟨hp, b, rfl, -, t, ht⟩
        exact ⟨hp, by rw [← ht, List.take_left]⟩

/-- If all serial numbers are as long as the one which was asked for, then the device which is used is the first one with this number, and an error is
reported exactly if there is none (and at least one device is connected). -/
theorem selects_partial (nr : Nat) (ds : List Device) (hne : ds ≠ [])
    (hl : ∀ d ∈ ds, ∀ buf, d.serial = some buf → buf.length = (hex nr).length) :
    (∀ i, (init nr ds).handle = some i → ∃ d, ds[i]? = some d ∧ d.product = true ∧ d.serial = some (hex nr)) ∧
    ((init nr ds).handle = none ↔ ∀ d ∈ ds, ¬ (d.product = true ∧ d.serial = some (hex nr))) ∧
    (reported (init nr ds) = true ↔ (init nr ds).handle = none) := by
  have hz : ds.length ≠ 0 := by simpa using hne
  have hex_ne : hex nr ≠ [] := by
    unfold hex; split
    · simp
    · exact digits_ne_nil _ ‹_›
  have key : ∀ d ∈ ds, (attaches nr d = true ↔ d.product = true ∧ d.serial = some (hex nr)) := by
    intro d hd
    rw [attaches_iff]
    constructor
    · rintro ⟨hp, buf, hb, -, hpre⟩
      exact ⟨hp, by rw [hb, hpre.eq_of_length (hl d hd buf hb)]⟩
    · rintro ⟨hp, hs⟩
      exact ⟨hp, _, hs, hex_ne, List.prefix_refl _⟩
  obtain ⟨h1, h2⟩ := scan_spec nr ds 0
  cases hs : scan nr 0 ds with
  | some i =>
    have hinit : init nr ds = ⟨0, some i⟩ := by simp [init, hne, hs]
    obtain ⟨-, d, hd, ha, -⟩ := h1 i hs
    have hd' : ds[i]? = some d := by simpa using hd
    have hm : d ∈ ds := List.mem_of_getElem? hd'
    rw [hinit]
    refine ⟨?_, ?_, by simp [reported]⟩
    · intro j hj
      simp only [Option.some.injEq] at hj
      subst hj
      exact ⟨d, hd', ((key d hm).1 ha).1, ((key d hm).1 ha).2⟩
    · simp only [reduceCtorEq, false_iff, not_forall]
      exact ⟨d, hm, not_not.2 ((key d hm).1 ha)⟩
  | none =>
    have hinit : init nr ds = ⟨1, none⟩ := by simp [init, hne, hs]
    rw [hinit]
    refine ⟨by simp, ?_, by simp [reported]⟩
    simp only [true_iff]
    intro d hd hcon
    have := h2 hs d hd
    rw [(key d hd).2 hcon] at this
    simp at this

/-- Two drives with numbers of the same length; the second one is asked for. -/
example : init 0x207A [⟨true, some "207B".toList⟩, ⟨false, some "207A".toList⟩, ⟨true, some "207A".toList⟩] = ⟨0, some 2⟩ := by
  simp [init, scan, attaches, same, hex, digits, digit]

/-- Violation: with no USB device at all no error is reported, though there is no drive. -/
theorem none_violated (nr : Nat) : (init nr []).handle = none ∧ reported (init nr []) = false := by simp [init, reported]

/-- Violation: a drive whose serial number is a proper prefix of the one which was asked for is used, whatever follows in the list. -/
theorem prefix_violated (nr : Nat) (buf rest : List Char) (hb : buf ≠ []) (hr : rest ≠ []) (h : hex nr = buf ++ rest) (ds : List Device) :
    (init nr (⟨true, some buf⟩ :: ds)).handle = some 0 ∧ reported (init nr (⟨true, some buf⟩ :: ds)) = false ∧ buf ≠ hex nr := by
  have ha : attaches nr ⟨true, some buf⟩ = true := (attaches_iff _ _).2 ⟨rfl, buf, rfl, hb, rest, h.symm⟩
  refine ⟨by simp [init, scan, ha], by simp [init, scan, ha, reported], ?_⟩
  rw [h]
  intro hc
  have := congrArg List.length hc
  simp at this
  exact hr this

example : hex 0x207A = "20".toList ++ "7A".toList := by
  simp [hex, digits, digit]

/-- Violation: a drive whose serial number is printed with a leading zero (`digits` has none) is never found. -/
theorem leading_zero_violated (nr : Nat) (hn : nr ≠ 0) (rest : List Char) (p : Bool) : attaches nr ⟨p, some ('0' :: rest)⟩ = false := by
  by_contra hc
  have ha : attaches nr ⟨p, some ('0' :: rest)⟩ = true := by simpa using hc
  obtain ⟨-, buf, hb, -, t, ht⟩ := (attaches_iff _ _).1 ha
  simp only [Option.some.injEq] at hb
  subst hb
  have h := digits_head nr hn
  have : hex nr = digits nr := by simp [hex, hn]
  rw [← this, ← ht] at h
  simp at h

/-- The number 0x07A of three digits. -/
example : (0x7A : Nat) ≠ 0 ∧ attaches 0x7A ⟨true, some "07A".toList⟩ = false := ⟨by decide, leading_zero_violated _ (by decide) _ _⟩

/-! ### End switches -/

/-- After the configuration both end switches are enabled, but that of motor 0 is connected to pin 6, and pin and polarity of motor 1 are what they
were before. -/
theorem endstops_violated (drive : Param → Nat) :
    config drive (.enabled false) = 1 ∧ config drive (.enabled true) = 1 ∧ config drive (.gpio false) = 6 ∧
    config drive (.gpio true) = drive (.gpio true) ∧ config drive (.activeHigh true) = drive (.activeHigh true) := by
  simp [config, endstopWrites]

/-! ### The thread -/

section Threads
variable {K : Type} [Mul K] [Zero K]

theorem run_append (s : St K) (a b : List (Op K)) : run s (a ++ b) = run (run s a) b := by simp [run]

/-- Invariant: `*ep` is used wrongly only after it was deleted, and it is deleted only by the destructor. -/
def Inv (s : St K) : Prop :=
  (s.misuse = true → s.freed = true) ∧ (s.freed = true → s.main = .deleted ∨ s.main = .joining ∨ s.main = .done)

theorem inv_start : Inv (start : St K) := by simp [Inv, start]

theorem inv_step (s : St K) (op : Op K) (h : Inv s) : Inv (step s op) := by
  obtain ⟨m, w, st, r, c, f, mi, r0, r1, se⟩ := s
  obtain ⟨h1, h2⟩ := h
  simp only at h1 h2
  cases op with
  | main => cases m <;> simp_all [Inv, step, stepMain] <;> split_ifs <;> simp_all
  | worker ready => cases w <;> simp only [Inv, step, stepWorker, use] <;> (try split_ifs) <;> cases mi <;> cases f <;> simp_all
  | startCalibration => simp only [Inv, step]; split_ifs <;> exact ⟨h1, h2⟩
  | setRefVel k x t => simp only [Inv, step]; split_ifs <;> exact ⟨h1, h2⟩

theorem inv_run (s : St K) (ops : List (Op K)) (h : Inv s) : Inv (run s ops) := by
  induction ops generalizing s with
  | nil => exact h
  | cons o os ih => exact ih _ (inv_step s o h)

/-- As long as the destructor has not deleted the object, it is never used wrongly. -/
theorem no_misuse_partial (ops : List (Op K))
    (h : (run (start : St K) ops).main = .constructing ∨ (run (start : St K) ops).main = .alive ∨ (run (start : St K) ops).main = .zeroed) : (run (start : St K) ops).misuse = false := by
  have hi := inv_run _ ops (inv_start (K := K))
  by_contra hc
  have := hi.2 (hi.1 (by simpa using hc))
  rcases h with h | h | h <;> rw [h] at this <;> simp at this

example : (run (start : St ℚ) [.main, .startCalibration, .worker true, .worker true, .main, .worker true]).main = .zeroed := by
  simp [run, step, stepMain, stepWorker, use, start]

/-- Violation: from every state in which the object is alive and its thread accesses the drive (waiting for the calibration to be started, calibrating or
working), the destructor may delete `*ep` before the next access. -/
theorem misuse_violated (s : St K) (hm : s.main = .alive)
    (hw : (s.worker = .waitCmd ∧ s.cmd = false) ∨ s.worker = .calibrating ∨ s.worker = .set ∨ s.worker = .body) (ready : Bool) :
    (run s [.main, .main, .worker ready]).misuse = true := by
  obtain ⟨m, w, st, r, c, f, mi, r0, r1, se⟩ := s
  simp only at hm hw
  subst hm
  rcases hw with ⟨rfl, rfl⟩ | rfl | rfl | rfl <;> cases ready <;> simp [run, step, stepMain, stepWorker, use]

/-- The thread works. -/
example : (run (start : St ℚ) [.main, .startCalibration, .worker true, .worker true, .worker true, .worker true, .worker true]).worker = .body ∧
    (run (start : St ℚ) [.main, .startCalibration, .worker true, .worker true, .worker true, .worker true, .worker true]).main = .alive := by
  simp [run, step, stepMain, stepWorker, use, start]

/-- If the thread works when the destructor starts, then it ends, and the destructor returns. -/
theorem returns_partial (s : St K) (hm : s.main = .alive) (hw : s.worker = .loop ∨ s.worker = .body) :
    (run s [.main, .main, .main, .worker true, .worker true, .main]).main = .done := by
  obtain ⟨m, w, st, r, c, f, mi, r0, r1, se⟩ := s
  simp only at hm hw
  subst hm
  rcases hw with rfl | rfl <;> simp [run, step, stepMain, stepWorker, use]

/-- Stuck: the destructor has set `running` to false before the thread sets it to true. -/
def Stuck (s : St K) : Prop :=
  s.main = .joining ∧ (s.worker ≠ .exited) ∧ ((s.worker = .loop ∨ s.worker = .body) → s.running = true)

theorem stuck_step (s : St K) (op : Op K) (h : Stuck s) : Stuck (step s op) := by
  obtain ⟨m, w, st, r, c, f, mi, r0, r1, se⟩ := s
  obtain ⟨h1, h2, h3⟩ := h
  simp only at h1 h2 h3
  subst h1
  cases op with
  | main => cases w <;> simp_all [Stuck, step, stepMain]
  | worker ready =>
    cases w <;> cases st <;> cases c <;> cases ready <;> simp_all [Stuck, step, stepWorker, use]
  | startCalibration => simp [Stuck, step]; exact ⟨h2, h3⟩
  | setRefVel k x t => simp [Stuck, step]; exact ⟨h2, h3⟩

/-- Violation: if the destructor comes before the thread works (in particular: if the calibration was never started), it never returns, whatever the
two threads do. -/
theorem hangs_violated (s : St K) (hm : s.main = .deleted) (hw : s.worker = .waiting ∨ s.worker = .waitCmd ∨ s.worker = .calibrating ∨ s.worker = .set)
    (ops : List (Op K)) : (run s (.main :: ops)).main = .joining := by
  have h0 : Stuck (step s .main) := by
    obtain ⟨m, w, st, r, c, f, mi, r0, r1, se⟩ := s
    simp only at hm hw
    subst hm
    rcases hw with rfl | rfl | rfl | rfl <;> simp [Stuck, step, stepMain]
  have : ∀ (ops : List (Op K)) (s : St K), Stuck s → Stuck (run s ops) := by
    intro ops
    induction ops with
    | nil => exact fun s h => h
    | cons o os ih => exact fun s h => ih _ (stuck_step s o h)
  exact (this ops _ h0).1

example : (run (start : St ℚ) [.main, .worker true, .main, .main]).main = .deleted ∧ (run (start : St ℚ) [.main, .worker true, .main, .main]).worker = .waitCmd := by
  simp [run, step, stepMain, stepWorker, start]

/-! ### Velocities -/

/-- Specification: the set point of a motor which was requested last while the object was alive. -/
def requested (motor : Nat) : St K → List (Op K) → Option K → Option K
  | _, [], r => r
  | s, op :: ops, r => requested motor (step s op) ops
      (match op with
       | .setRefVel m speed turns => if m = motor ∧ s.main = .alive then some (turns * speed) else r
       | _ => r)

theorem refs_requested (s : St K) (ops : List (Op K)) :
    (run s ops).ref0 = requested 0 s ops s.ref0 ∧ (run s ops).ref1 = requested 1 s ops s.ref1 := by
  induction ops generalizing s with
  | nil => exact ⟨rfl, rfl⟩
  | cons o os ih =>
    obtain ⟨h0, h1⟩ := ih (step s o)
    simp only [run, List.foldl_cons] at h0 h1 ⊢
    simp only [requested]
    rw [h0, h1]
    obtain ⟨m, w, st, r, c, f, mi, r0, r1, se⟩ := s
    cases o with
    | main => cases m <;> simp [step, stepMain] <;> split_ifs <;> simp
    | worker ready => cases w <;> simp [step, stepWorker, use] <;> split_ifs <;> simp
    | startCalibration => simp [step]; split_ifs <;> simp
    | setRefVel k x t =>
      by_cases hm : m = .alive <;> by_cases hk0 : k = 0 <;> by_cases hk1 : k = 1 <;> simp_all [step]

/-- In every cycle the thread writes the set points which were requested last; an indeterminate value if there was no request. -/
theorem sends_requested (ops : List (Op K)) (ready : Bool) (hw : (run (start : St K) ops).worker = .body) :
    (run (start : St K) (ops ++ [.worker ready])).sent =
      (requested 0 start ops none, requested 1 start ops none) :: (run (start : St K) ops).sent := by
  obtain ⟨h0, h1⟩ := refs_requested (start : St K) ops
  have e0 : (start : St K).ref0 = none := rfl
  have e1 : (start : St K).ref1 = none := rfl
  rw [e0] at h0
  rw [e1] at h1
  rw [run_append, ← h0, ← h1]
  generalize run (start : St K) ops = s at hw
  simp [run, step, stepWorker, hw, use]

/-- Motor 0 was told to turn, motor 1 was not: an indeterminate value is sent to motor 1. -/
example : (run (start : St ℚ) [.main, .startCalibration, .setRefVel 0 3 2, .worker true, .worker true, .worker true, .worker true, .worker true, .worker true]).sent =
    [(some 6, none)] := by
  simp [run, step, stepMain, stepWorker, use, start]
  norm_num

/-- Violation: the destructor sets the set points to zero, but the thread is still at work: the last set points sent to the drive may be those requested
before, though nothing was used wrongly and the destructor has returned. -/
theorem still_moving_violated (s : St K) (hm : s.main = .alive) (hw : s.worker = .body) (hf : s.freed = false) (hmi : s.misuse = false) :
    (run s [.main]).sent = (some 0, some 0) :: s.sent ∧
    (run s [.main, .worker true, .main, .main, .worker true, .main]).sent.head? = some (s.ref0, s.ref1) ∧
    (run s [.main, .worker true, .main, .main, .worker true, .main]).misuse = false ∧
    (run s [.main, .worker true, .main, .main, .worker true, .main]).main = .done := by
  obtain ⟨m, w, st, r, c, f, mi, r0, r1, se⟩ := s
  simp only at hm hw hf hmi
  subst hm hw hf hmi
  simp [run, step, stepMain, stepWorker, use]

/-- Case: the speeds 3 and 4 requested before are what the drive was told last. -/
example : (run (⟨.alive, .body, false, true, false, false, false, some 3, some 4, []⟩ : St ℚ)
    [.main, .worker true, .main, .main, .worker true, .main]).sent.head? = some (some 3, some 4) :=
  (still_moving_violated _ rfl rfl rfl rfl).2.1

end Threads

end Verif.Hal.ODriveUsb
