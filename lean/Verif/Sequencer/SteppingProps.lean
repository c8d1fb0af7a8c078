import Verif.Sequencer.Stepping
namespace Verif.Sequencer.Stepping

/-! ### C98: single stepping -/

/-- Commands to go on, in an execution. -/
def commands (l : List Op) : Nat := l.count .step

/-- All gates are passed by thread `i`. -/
def Only (i : Nat) (l : List Op) : Prop := ∀ j, .gate j ∈ l → j = i

/-- **C98 (partial).** With one thread, every step which was waited for had a command of its own: there are never more of them than
commands, in every execution.  Missing: several threads (`two_pass_violated`), and that a command given before the sequence waits is
not kept (`stale_violated`). -/
theorem one_step_per_command_partial (i : Nat) (l : List Op) (h : Only i l) : (run init l).stepped ≤ commands l := by
  have key : ∀ (l : List Op) (s : St) (n : Nat), Only i l → s.running = true → (s.pc i = .clearing → s.nextStep = true) →
      s.stepped + (if s.nextStep then 1 else 0) ≤ n → (run s l).stepped ≤ n + commands l := by
    intro l
    induction l with
    | nil => intro s n _ _ _ h; simp only [run, List.foldl_nil, commands, List.count_nil]; omega
    | cons a l ih =>
      intro s n ho hr hc hn
      have ho' : Only i l := fun j hj => ho j (List.mem_cons_of_mem _ hj)
      have hcount : commands (a :: l) = commands l + (if a = .step then 1 else 0) := by
        unfold commands; rw [List.count_cons]; cases a <;> simp
      rw [hcount]
      show (run (exec s a) l).stepped ≤ _
      cases a with
      | singleStepping => exact ih _ n ho' hr hc hn
      | stopStepping => exact ih _ n ho' hr hc hn
      | step =>
        have := ih { s with nextStep := true } (n + 1) ho' hr (fun _ => rfl) (by simp only [if_true]; omega)
        simp only [exec, if_true] at this ⊢
        omega
      | gate j =>
        have : j = i := ho j (by simp)
        subst this
        have hg : ((exec s (.gate j)).running = true) ∧ ((exec s (.gate j)).pc j = .clearing → (exec s (.gate j)).nextStep = true) ∧
            (exec s (.gate j)).stepped + (if (exec s (.gate j)).nextStep then 1 else 0) ≤ n := by
          rcases hp : s.pc j with _ | _ | _
          · by_cases h : s.stepping = true
            · simp only [exec, gate, hp, h, if_true]
              exact ⟨hr, by simp, hn⟩
            · simp only [exec, gate, hp, h]
              exact ⟨hr, by simp [hp], hn⟩
          · by_cases h : s.nextStep = true
            · simp only [exec, gate, hp, h, hr, Bool.not_true, Bool.and_false, Bool.false_eq_true, if_false]
              exact ⟨trivial, fun _ => trivial, by simpa [h] using hn⟩
            · have h' : s.nextStep = false := by simpa using h
              simp only [exec, gate, hp, h', hr, Bool.not_false, Bool.and_true, if_true]
              exact ⟨trivial, by simp, by simpa [h'] using hn⟩
          · have := hc hp
            simp only [exec, gate, hp]
            simp only [this, if_true] at hn
            exact ⟨hr, by simp, by simpa using hn⟩
        have := ih _ n ho' hg.1 hg.2.1 hg.2.2
        simpa using this
  simpa using key l init 0 h rfl (by simp [init]) (by simp [init])

example : Only 0 [.singleStepping, .gate 0, .step, .gate 0, .gate 0] ∧
    (run init [.singleStepping, .gate 0, .step, .gate 0, .gate 0]).stepped = 1 := by
  constructor
  · intro j hj; simpa using hj
  · decide

/-- A thread which waits does not go on without a command: no step of any thread lets it pass. -/
theorem waits_for_command (s : St) (i : Nat) (hr : s.running = true) (hn : s.nextStep = false) (hp : s.pc i = .waiting) (k : Nat) :
    (run s (List.replicate k (.gate i))).stepped = s.stepped ∧ (run s (List.replicate k (.gate i))).pc i = .waiting := by
  have e : exec s (.gate i) = s := by simp [exec, gate, hp, hr, hn]
  have : run s (List.replicate k (.gate i)) = s := by
    induction k with
    | zero => rfl
    | succ k ih => rw [List.replicate_succ, run, List.foldl_cons, e]; exact ih
  rw [this]
  exact ⟨rfl, hp⟩

/-- Case: thread 0 waits in the single stepping mode, ten attempts do not let it pass. -/
example : (run (run init [.singleStepping, .gate 0]) (List.replicate 10 (.gate 0))).pc 0 = .waiting :=
  (waits_for_command (run init [.singleStepping, .gate 0]) 0 rfl rfl rfl 10).2

/-- **C98, violated.** With two threads one command lets both go on. -/
theorem two_pass_violated (s : St) (i j : Nat) (hij : i ≠ j) (hi : s.pc i = .waiting) (hj : s.pc j = .waiting) :
    let l := [.step, .gate i, .gate j, .gate i, .gate j]
    (run s l).stepped = s.stepped + 2 ∧ commands l = 1 := by
  have hji : j ≠ i := fun h => hij h.symm
  simp [run, exec, gate, hi, hj, hij, hji, commands]

example : let s := run init [.singleStepping, .gate 0, .gate 1]; s.pc 0 = .waiting ∧ s.pc 1 = .waiting := by decide

/-- **C98, violated.** The command to leave the single stepping mode is kept when no thread waits: after entering the mode again the next
step goes on without a command. -/
theorem stale_violated (s : St) (i : Nat) (hi : s.pc i = .outside) :
    let s' := run s (restart ++ [.singleStepping])
    (run s' [.gate i, .gate i, .gate i]).stepped = s.stepped + 1 ∧ commands [.gate i, .gate i, .gate i] = 0 := by
  simp [run, exec, gate, restart, hi, commands]

example : (init.pc 0) = .outside := rfl

/-- **C98, violated.** Of two commands in quick succession the second is lost: a thread lets only one step pass. -/
theorem lost_command_violated (s : St) (i : Nat) (hr : s.running = true) (hst : s.stepping = true) (hi : s.pc i = .waiting) (k : Nat) :
    let l := [Op.step, .gate i, .step, .gate i] ++ List.replicate k (.gate i)
    (run s l).stepped = s.stepped + 1 ∧ commands [Op.step, .gate i, .step, .gate i] = 2 := by
  refine ⟨?_, by simp [commands]⟩
  have e : run s [Op.step, .gate i, .step, .gate i] =
      { s with nextStep := false, stepped := s.stepped + 1, pc := fun j => if j = i then .outside else s.pc j } := by
    simp only [run, List.foldl_cons, List.foldl_nil, exec, gate, hi, hr, Bool.not_true, Bool.and_false, if_true,
      Bool.false_eq_true, if_false, St.mk.injEq, true_and, and_true]
    funext j
    by_cases h : j = i <;> simp [h]
  simp only [run, List.foldl_append] at e ⊢
  rw [e]
  cases k with
  | zero => rfl
  | succ k =>
    rw [List.replicate_succ, List.foldl_cons]
    have h2 := waits_for_command (exec { s with nextStep := false, stepped := s.stepped + 1, pc := fun j => if j = i then .outside else s.pc j } (.gate i)) i
      (by simp [exec, gate, hst, hr]) (by simp [exec, gate, hst]) (by simp [exec, gate, hst]) k
    have h3 := h2.1
    simp only [run] at h3
    rw [h3]
    simp [exec, gate, hst]

example : let s := run init [.singleStepping, .gate 0]; s.running = true ∧ s.stepping = true ∧ s.pc 0 = .waiting := by decide

/-! ### C97: the commands of the user interface -/

/-- What a client which sent the characters `l` asked for. -/
def requested (l : List Char) : List Op := l.flatMap command

theorem client_closed (l : List Char) (ch : Option Char) :
    client ch (l.map .char ++ [.closed]) = ((l.getLast?.or ch).map command).map (requested l ++ ·) := by
  induction l generalizing ch with
  | nil => cases ch <;> simp [client, requested]
  | cons c l ih =>
    rw [List.map_cons, List.cons_append, client, ih (some c), List.getLast?_cons]
    cases h : l.getLast? with
    | none => simp [requested, List.getLast?_eq_none_iff.1 h]
    | some d => simp [requested]

/-- **C97 (partial).** As long as the client stays connected, and if its last character is none of the commands also after it has left, the
operations executed are those requested.  Missing: clients whose last character is a command (`repeated_violated`) and clients which
send nothing (`empty_violated`). -/
theorem as_requested_partial (l : List Char) :
    client none (l.map .char) = some (requested l) ∧
    ∀ c, c ≠ 's' → c ≠ 'c' → c ≠ 'b' → client none ((l ++ [c]).map .char ++ [.closed]) = some (requested (l ++ [c])) := by
  constructor
  · have : ∀ ch, client ch (l.map .char) = some (requested l) := by
      induction l with
      | nil => intro ch; rfl
      | cons c l ih => intro ch; rw [List.map_cons, client, ih]; simp [requested]
    exact this none
  · intro c h1 h2 h3
    rw [client_closed]
    simp [command, h1, h2, h3]

/-- Case: a client which sends "sc" and a line end, and leaves. -/
example : client none (['s', 'c', '\n'].map .char ++ [.closed]) = some [.singleStepping, .step, .stopStepping, .step] :=
  (as_requested_partial ['s', 'c']).2 '\n' (by decide) (by decide) (by decide)

/-- **C97, violated.** When a client leaves, its last command is executed once more. -/
theorem repeated_violated (l : List Char) (c : Char) :
    client none ((l ++ [c]).map .char ++ [.closed]) = some (requested (l ++ [c]) ++ command c) := by
  rw [client_closed]
  simp

/-- **C97, violated.** When a client leaves without having sent anything, a variable without a value is evaluated. -/
theorem empty_violated : client none [.closed] = none := rfl

/-- A client sends one step command and leaves: a sequence which waits makes two steps. -/
example : ∃ l, client none [.char 's', .closed] = some (l ++ l) ∧ l = [.singleStepping, .step] ∧
    (run init ([.singleStepping, .gate 0] ++ l ++ [.gate 0, .gate 0, .gate 0] ++ l ++ [.gate 0, .gate 0])).stepped = 2 :=
  ⟨_, rfl, rfl, by decide⟩

end Verif.Sequencer.Stepping
