/-
C54: the log filter.  The specification below reads everything off the history of operations (latest first).
-/
import Verif.Logger.Logger

set_option linter.unusedSectionVars false

namespace Verif.Logger

variable {T : Type}

/-! ### Specification -/

/-- Number of writers which were created. -/
def nWriters : List (Op T) → Nat
  | [] => 0
  | .setDefault :: h => nWriters h + 1
  | _ :: h => nWriters h

/-- Number of loggers which were created. -/
def nLoggers : List (Op T) → Nat
  | [] => 0
  | .getLogger _ :: h => nLoggers h + 1
  | _ :: h => nLoggers h

/-- Number of messages which were begun. -/
def nEntries : List (Op T) → Nat
  | [] => 0
  | .begin _ _ :: h => nEntries h + 1
  | _ :: h => nEntries h

/-- The `i`-th logger: number of writers at the time of its creation (it uses the latest of them), and category. -/
def madeLogger : List (Op T) → Nat → Option (Nat × Nat)
  | [], _ => none
  | .getLogger c :: h, i => if i = nLoggers h then some (nWriters h, c) else madeLogger h i
  | _ :: h, i => madeLogger h i

/-- Does logger `i` write to writer `w`? -/
def uses (h : List (Op T)) (i w : Nat) : Prop := ∃ c, madeLogger h i = some (w + 1, c)

instance (h : List (Op T)) (i w : Nat) : Decidable (uses h i w) :=
  match e : madeLogger h i with
  | none => .isFalse fun ⟨c, hc⟩ => by rw [e] at hc; cases hc
  | some (n, c) =>
    if hn : n = w + 1 then .isTrue ⟨c, by rw [e, hn]⟩
    else .isFalse fun ⟨c', hc⟩ => by rw [e] at hc; cases hc; exact hn rfl

/-- The level which was selected last for writer `w`, through whatever logger; INFO if none was. -/
def selected : List (Op T) → Nat → Level
  | [], _ => .info
  | .show i l :: h, w => if uses h i w then l else selected h w
  | _ :: h, w => selected h w

/-- The operations before message `m` was begun, its logger and its level. -/
def started : List (Op T) → Nat → Option (List (Op T) × Nat × Level)
  | [], _ => none
  | .begin i l :: h, m => if m = nEntries h then some (h, i, l) else started h m
  | _ :: h, m => started h m

/-- What was inserted into message `m`, in order. -/
def inserted : List (Op T) → Nat → List T
  | [], _ => []
  | .insert e c :: h, m => if e = m then inserted h m ++ [c] else inserted h m
  | _ :: h, m => inserted h m

/-! ### Proof -/

/-- What holds for every state reached. -/
structure Inv (h : List (Op T)) (s : State T) : Prop where
  nW : s.writers.length = nWriters h
  nL : s.loggers.length = nLoggers h
  nE : s.entries.length = nEntries h
  log : s.log.w = if nWriters h = 0 then none else some (nWriters h - 1)
  loggers : ∀ i l, s.loggers[i]? = some l → ∃ n, madeLogger h i = some (n, l.category) ∧ n ≤ nWriters h ∧ l.w = if n = 0 then none else some (n - 1)
  writers : ∀ w l, s.writers[w]? = some l → l = selected h w
  future : ∀ w, nWriters h ≤ w → selected h w = .info
  futureE : ∀ m, nEntries h ≤ m → inserted h m = []
  entries : ∀ m x, s.entries[m]? = some (some x) → ∃ h' i l c, started h m = some (h', i, l) ∧ madeLogger h' i = some (x.w + 1, c) ∧
    x.enable = decide (l.val ≤ (selected h' x.w).val) ∧ (x.enable = true → x.header = some (l, c)) ∧ x.os = inserted h m

theorem inv_init : Inv ([] : List (Op T)) init where
  nW := rfl
  nL := rfl
  nE := rfl
  log := rfl
  loggers i l h := by cases h
  writers w l h := by cases h
  future _ _ := rfl
  futureE _ _ := rfl
  entries m x h := by cases h

theorem inv_step (h : List (Op T)) (s s' : State T) (op : Op T) (hi : Inv h s) (hs : step op s = some s') : Inv (op :: h) s' := by
  cases op with
  | setDefault =>
    cases hs
    refine ⟨?_, hi.nL, hi.nE, ?_, ?_, ?_, ?_, hi.futureE, hi.entries⟩
    · simp [setDefault, nWriters, hi.nW]
    · simp [setDefault, nWriters, hi.nW]
    · intro i l hl
      obtain ⟨n, h1, h2, h3⟩ := hi.loggers i l hl
      exact ⟨n, h1, Nat.le_succ_of_le h2, h3⟩
    · intro w l hl
      simp only [setDefault] at hl
      rw [List.getElem?_append] at hl
      split at hl
      · exact hi.writers w l hl
      · rename_i hw
        have : l = .info := by
          by_cases hz : w - s.writers.length = 0
          · rw [hz] at hl; cases hl; rfl
          · rw [List.getElem?_eq_none (by simp; omega)] at hl; cases hl
        rw [this]
        exact (hi.future w (by rw [← hi.nW]; omega)).symm
    · intro w hw
      exact hi.future w (Nat.le_of_succ_le hw)
  | getLogger c =>
    cases hs
    refine ⟨hi.nW, ?_, hi.nE, hi.log, ?_, hi.writers, hi.future, hi.futureE, hi.entries⟩
    · simp [getLogger, nLoggers, hi.nL]
    · intro i l hl
      simp only [getLogger] at hl
      rw [List.getElem?_append] at hl
      rw [madeLogger]
      split at hl
      · rename_i hlt
        rw [if_neg (by rw [← hi.nL]; omega)]
        exact hi.loggers i l hl
      · rename_i hge
        by_cases hz : i - s.loggers.length = 0
        · rw [hz] at hl
          cases hl
          rw [if_pos (by rw [← hi.nL]; omega)]
          exact ⟨_, rfl, Nat.le_refl _, hi.log⟩
        · rw [List.getElem?_eq_none (by simp; omega)] at hl; cases hl
  | «show» i l =>
    simp only [step, showLevel, Option.bind_eq_bind] at hs
    cases hl : s.loggers[i]? with
    | none => rw [hl] at hs; cases hs
    | some lg =>
      rw [hl] at hs
      simp only [Option.bind_some] at hs
      cases hw : lg.w with
      | none => rw [hw] at hs; cases hs
      | some w =>
        rw [hw] at hs
        cases hs
        obtain ⟨n, h1, h2, h3⟩ := hi.loggers i lg hl
        have hn : n = w + 1 := by
          rw [hw] at h3
          split at h3
          · cases h3
          · cases h3; omega
        have hu : ∀ v, uses h i v ↔ v = w := fun v =>
          ⟨fun ⟨c, hc⟩ => by rw [h1] at hc; cases hc; omega, fun e => ⟨lg.category, by rw [h1, hn, e]⟩⟩
        refine ⟨by simpa [nWriters] using hi.nW, hi.nL, hi.nE, hi.log, hi.loggers, ?_, ?_, hi.futureE, hi.entries⟩
        · intro v l' hv
          rw [selected]
          by_cases e : v = w
          · rw [if_pos ((hu v).2 e)]
            subst e
            rw [List.getElem?_set] at hv
            simp only [if_true] at hv
            split at hv
            · cases hv; rfl
            · cases hv
          · rw [if_neg fun k => e ((hu v).1 k)]
            rw [List.getElem?_set_ne (Ne.symm e)] at hv
            exact hi.writers v l' hv
        · intro v hv
          rw [selected, if_neg fun k => by rw [(hu v).1 k] at hv; simp only [nWriters] at hv; omega]
          exact hi.future v hv
  | begin i l =>
    simp only [step, beginEntry, Option.bind_eq_bind] at hs
    cases hl : s.loggers[i]? with
    | none => rw [hl] at hs; cases hs
    | some lg =>
      rw [hl] at hs
      simp only [Option.bind_some] at hs
      cases hw : lg.w with
      | none => rw [hw] at hs; cases hs
      | some w =>
        rw [hw] at hs
        simp only [Option.bind_some] at hs
        cases hv : s.writers[w]? with
        | none => rw [hv] at hs; cases hs
        | some vis =>
          rw [hv] at hs
          cases hs
          obtain ⟨n, h1, h2, h3⟩ := hi.loggers i lg hl
          have hn : n = w + 1 := by
            rw [hw] at h3
            split at h3
            · cases h3
            · cases h3; omega
          refine ⟨hi.nW, hi.nL, by simp [nEntries, hi.nE], hi.log, hi.loggers, hi.writers, hi.future, ?_, ?_⟩
          · intro m hm
            exact hi.futureE m (Nat.le_of_succ_le hm)
          · intro m x hx
            rw [List.getElem?_append] at hx
            rw [started]
            split at hx
            · rw [if_neg (by rw [← hi.nE]; omega)]
              exact hi.entries m x hx
            · by_cases hz : m - s.entries.length = 0
              · rw [hz] at hx
                cases hx
                rw [if_pos (by rw [← hi.nE]; omega)]
                refine ⟨h, i, l, lg.category, rfl, by rw [h1, hn], by rw [hi.writers w vis hv], ?_, ?_⟩
                · intro he
                  exact if_pos he
                · exact (hi.futureE m (by rw [← hi.nE]; omega)).symm
              · rw [List.getElem?_eq_none (by simp; omega)] at hx; cases hx
  | insert e c =>
    simp only [step, insert, Option.bind_eq_bind] at hs
    cases hl : s.entries[e]? with
    | none => rw [hl] at hs; cases hs
    | some y =>
      rw [hl] at hs
      simp only [Option.bind_some] at hs
      cases hy : y with
      | none => rw [hy] at hs; cases hs
      | some y =>
        subst hy
        cases hs
        have he : e < s.entries.length := by
          rw [List.getElem?_eq_some_iff] at hl; exact hl.1
        refine ⟨hi.nW, hi.nL, by simpa [nEntries] using hi.nE, hi.log, hi.loggers, hi.writers, hi.future, ?_, ?_⟩
        · intro m hm
          rw [inserted, if_neg (by simp only [nEntries] at hm; rw [← hi.nE] at hm; omega)]
          exact hi.futureE m hm
        · intro m x hx
          simp only [started, inserted]
          by_cases hm : e = m
          · subst hm
            rw [List.getElem?_set] at hx
            simp only [if_true, he] at hx
            cases hx
            obtain ⟨h', i, l, c', a1, a2, a3, a4, a5⟩ := hi.entries e y hl
            exact ⟨h', i, l, c', a1, a2, a3, a4, by simp [a5]⟩
          · rw [List.getElem?_set_ne hm] at hx
            rw [if_neg hm]
            exact hi.entries m x hx
  | finish e =>
    simp only [step, finish, Option.bind_eq_bind] at hs
    cases hl : s.entries[e]? with
    | none => rw [hl] at hs; cases hs
    | some y =>
      rw [hl] at hs
      simp only [Option.bind_some] at hs
      cases hy : y with
      | none => rw [hy] at hs; cases hs
      | some y =>
        subst hy
        cases hs
        refine ⟨hi.nW, hi.nL, by simpa [nEntries] using hi.nE, hi.log, hi.loggers, hi.writers, hi.future, hi.futureE, ?_⟩
        intro m x hx
        simp only [started, inserted]
        by_cases hm : e = m
        · subst hm
          rw [List.getElem?_set] at hx
          simp only [if_true] at hx
          split at hx <;> cases hx
        · rw [List.getElem?_set_ne hm] at hx
          exact hi.entries m x hx

theorem inv_run (h : List (Op T)) (s : State T) (hs : run h = some s) : Inv h s := by
  induction h generalizing s with
  | nil => cases hs; exact inv_init
  | cons op h ih =>
    simp only [run, Option.bind_eq_bind] at hs
    cases hr : run h with
    | none => rw [hr] at hs; cases hs
    | some s0 => rw [hr] at hs; exact inv_step h s0 s op (ih s0 hr) hs

/-- **C54** When message `m` ends: it was begun with some level `l` on a logger writing to some `w`, and exactly one record with its level, the category of the logger and
everything inserted, in order, is written to `w` if `l` is at least as urgent as the level selected last for `w`, through whatever logger, before the message was begun (INFO if
none was selected), and nothing otherwise. -/
theorem filter (h : List (Op T)) (m : Nat) (s s' : State T) (hr : run h = some s) (hs : run (.finish m :: h) = some s') :
    ∃ h' i l w c, started h m = some (h', i, l) ∧ madeLogger h' i = some (w + 1, c) ∧
      s'.out = s.out ++ if l.val ≤ (selected h' w).val then [⟨w, some (l, c), inserted h m⟩] else [] := by
  have hi := inv_run h s hr
  simp only [run, Option.bind_eq_bind, hr, Option.bind_some, step, finish] at hs
  cases hl : s.entries[m]? with
  | none => rw [hl] at hs; cases hs
  | some y =>
    rw [hl] at hs
    simp only [Option.bind_some] at hs
    cases hy : y with
    | none => rw [hy] at hs; cases hs
    | some y =>
      subst hy
      cases hs
      obtain ⟨h', i, l, c, a1, a2, a3, a4, a5⟩ := hi.entries m y hl
      refine ⟨h', i, l, y.w, c, a1, a2, ?_⟩
      by_cases hle : l.val ≤ (selected h' y.w).val
      · have he : y.enable = true := by rw [a3]; simpa using hle
        simp only [he, if_true, if_pos hle, a4 he, a5]
      · have he : y.enable = false := by rw [a3]; simpa using hle
        simp [he, hle]

/-- **C54** Nothing else writes anything. -/
theorem only_finish_writes (h : List (Op T)) (op : Op T) (hop : ∀ m, op ≠ .finish m) (s s' : State T) (hr : run h = some s) (hs : run (op :: h) = some s') :
    s'.out = s.out := by
  simp only [run, Option.bind_eq_bind, hr, Option.bind_some] at hs
  cases op with
  | setDefault => cases hs; rfl
  | getLogger c => cases hs; rfl
  | «show» i l =>
    simp only [step, showLevel, Option.bind_eq_bind, Option.bind_eq_some_iff] at hs
    obtain ⟨_, _, _, _, hs⟩ := hs
    cases hs; rfl
  | begin i l =>
    simp only [step, beginEntry, Option.bind_eq_bind, Option.bind_eq_some_iff] at hs
    obtain ⟨_, _, _, _, _, _, hs⟩ := hs
    cases hs; rfl
  | insert e c =>
    simp only [step, insert, Option.bind_eq_bind, Option.bind_eq_some_iff] at hs
    obtain ⟨_, _, _, _, hs⟩ := hs
    cases hs; rfl
  | finish m => exact absurd rfl (hop m)


example : ∀ m, (Op.insert 0 "a" : Op String) ≠ .finish m := by simp

/-- **C54** (definedness) Selecting a level or beginning a message is possible, without dereferencing a null pointer, exactly for loggers created after the default logger was set. -/
theorem usable (h : List (Op T)) (s : State T) (hr : run h = some s) (i : Nat) (l : Level) :
    ((run (.begin i l :: h)).isSome = true ↔ ∃ w, uses h i w) ∧ ((run (.show i l :: h)).isSome = true ↔ ∃ w, uses h i w) := by
  have hi := inv_run h s hr
  have hnone : ∀ i, s.loggers[i]? = none → madeLogger h i = none := by
    intro i hn
    have : nLoggers h ≤ i := by rw [← hi.nL]; exact List.getElem?_eq_none_iff.1 hn
    clear hi hr hn
    induction h with
    | nil => rfl
    | cons op h ih =>
      cases op with
      | getLogger c => rw [madeLogger, if_neg (by simp only [nLoggers] at this; omega)]; exact ih (Nat.le_of_succ_le this)
      | setDefault => exact ih this
      | «show» => exact ih this
      | begin => exact ih this
      | insert => exact ih this
      | finish => exact ih this
  simp only [run, Option.bind_eq_bind, hr, Option.bind_some, step, beginEntry, showLevel]
  cases hl : s.loggers[i]? with
  | none =>
    have : ¬ ∃ w, uses h i w := by rintro ⟨w, c, hc⟩; rw [hnone i hl] at hc; cases hc
    simp [this]
  | some lg =>
    obtain ⟨n, h1, h2, h3⟩ := hi.loggers i lg hl
    by_cases hn : n = 0
    · have hw : lg.w = none := by rw [h3, if_pos hn]
      have : ¬ ∃ w, uses h i w := by rintro ⟨w, c, hc⟩; rw [h1] at hc; cases hc; omega
      simp [hw, this]
    · have hw : lg.w = some (n - 1) := by rw [h3, if_neg hn]
      have hu : ∃ w, uses h i w := ⟨n - 1, lg.category, by rw [h1]; congr 2; omega⟩
      have hlt : n - 1 < s.writers.length := by rw [hi.nW]; omega
      simp [hw, hu, List.getElem?_eq_getElem hlt]

/-- Non-vacuity: two loggers share a writer, the level is selected through one of them while messages are open. -/
example :
    (run (T := String) [.finish 2, .finish 0, .finish 1, .insert 0 "b", .begin 0 .trace, .show 1 .warn, .begin 1 .trace, .show 1 .trace, .insert 0 "a", .begin 0 .info,
      .getLogger 66, .getLogger 65, .setDefault]).map (fun s => s.out.map fun r => (r.w, r.header, r.text)) =
    some [(0, some (.trace, 66), []), (0, some (.info, 65), ["a", "b"])] := by
  decide

/-! ### SysLogWriter -/

/-- With a `SysLogWriter` selecting TRACE with `Logger::show` has no effect: trace messages are never logged. -/
theorem sys_trace_lost (l : Level) : ((Sys.init l).show .trace).begin .trace = (true, (Sys.init l).show .trace) ∧
    Sys.finish true ((Sys.init l).show .trace) = none := by
  cases l <;> decide

/-- With a `SysLogWriter` a message is logged with the priority of the message begun last: an error with priority INFO if an info message is begun meanwhile. -/
theorem sys_nested (l : Level) : Sys.finish ((Sys.init l).begin .error).1 (((Sys.init l).begin .error).2.begin .info).2 = some .info := by
  cases l <;> decide

/-- Case of `sys_trace_lost` and `sys_nested`: INFO is shown at first, and a single error keeps its priority. -/
example : (((Sys.init .info).show .trace).begin .trace).1 = true ∧ Sys.finish ((Sys.init .info).begin .error).1 ((Sys.init .info).begin .error).2 = some .error := by decide

end Verif.Logger
