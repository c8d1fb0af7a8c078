import Verif.Sequencer.SteppingProps
/-!
Single stepping with several threads (`Verif.Sequencer.Stepping`): how many steps can pass per command.
-/
namespace Verif.Sequencer.Stepping

/-- All gates are passed by the threads below `T`. -/
def Below (T : Nat) (l : List Op) : Prop := ∀ j, .gate j ∈ l → j < T

/-- Threads which have been let through or will be by the present command. -/
def promised (T : Nat) (s : St) : Nat := (List.range T).countP fun i => s.nextStep || decide (s.pc i = .clearing)

theorem promised_le (T : Nat) (s : St) : promised T s ≤ T := by
  have := List.countP_le_length (p := fun i => s.nextStep || decide (s.pc i = .clearing)) (l := List.range T)
  simpa [promised] using this

theorem countP_remove (T i : Nat) (hi : i < T) (p q : Nat → Bool) (hp : p i = true) (hq : q i = false) (h : ∀ j, j ≠ i → q j = true → p j = true) :
    (List.range T).countP q + 1 ≤ (List.range T).countP p := by
  induction T with
  | zero => omega
  | succ T ih =>
    rw [List.range_succ, List.countP_append, List.countP_append]
    by_cases hT : i = T
    · subst hT
      have : (List.range i).countP q ≤ (List.range i).countP p := by
        apply List.countP_mono_left
        intro j hj hqj
        exact h j (by have := List.mem_range.1 hj; omega) hqj
      simp [hp, hq]
      omega
    · have h1 := ih (by omega)
      have h2 : [T].countP q ≤ [T].countP p := by
        apply List.countP_mono_left
        intro j hj hqj
        have : j = T := by simpa using hj
        exact h j (by omega) hqj
      omega

/-- **C302, at most.**  With any number of threads and in every interleaving, one command lets at most one step of each thread pass. -/
theorem steps_le (T : Nat) (l : List Op) (h : Below T l) : (run init l).stepped ≤ T * commands l := by
  have key : ∀ (l : List Op) (s : St) (n : Nat), Below T l → s.running = true → s.stepped + promised T s ≤ n → (run s l).stepped ≤ n + T * commands l := by
    intro l
    induction l with
    | nil => intro s n _ _ h; simp only [run, List.foldl_nil]; omega
    | cons a l ih =>
      intro s n hb hr hn
      have hb' : Below T l := fun j hj => hb j (List.mem_cons_of_mem _ hj)
      have hcount : commands (a :: l) = commands l + (if a = .step then 1 else 0) := by
        unfold commands; rw [List.count_cons]; cases a <;> simp
      rw [hcount]
      show (run (exec s a) l).stepped ≤ _
      cases a with
      | singleStepping => exact ih _ n hb' hr hn
      | stopStepping => exact ih _ n hb' hr hn
      | step =>
        have hp := promised_le T { s with nextStep := true }
        have := ih { s with nextStep := true } (n + T) hb' hr (by simp only; omega)
        simp only [exec, if_true, Nat.mul_add, Nat.mul_one] at this ⊢
        omega
      | gate i =>
        have hi : i < T := hb i (by simp)
        have hg : (exec s (.gate i)).running = true ∧ (exec s (.gate i)).stepped + promised T (exec s (.gate i)) ≤ n := by
          rcases hp : s.pc i with _ | _ | _
          · by_cases hst : s.stepping = true
            · simp only [exec, gate, hp, hst, if_true]
              refine ⟨hr, Nat.le_trans (Nat.add_le_add_left ?_ _) hn⟩
              apply List.countP_mono_left
              intro j _ hj
              by_cases hji : j = i
              · subst hji; simp at hj; simp [hj]
              · simpa [hji] using hj
            · simp only [exec, gate, hp, hst]
              exact ⟨hr, hn⟩
          · by_cases hnx : s.nextStep = true
            · simp only [exec, gate, hp, hnx, hr, Bool.not_true, Bool.and_false, Bool.false_eq_true, if_false]
              refine ⟨trivial, Nat.le_trans (Nat.add_le_add_left ?_ _) hn⟩
              apply List.countP_mono_left
              intro j _ _
              simp [hnx]
            · have h' : s.nextStep = false := by simpa using hnx
              simp only [exec, gate, hp, h', hr, Bool.not_false, Bool.and_true, if_true]
              exact ⟨trivial, hn⟩
          · simp only [exec, gate, hp]
            refine ⟨hr, ?_⟩
            have := countP_remove T i hi (fun j => s.nextStep || decide (s.pc j = .clearing)) (fun j => false || decide ((if j = i then Pc.outside else s.pc j) = .clearing))
              (by simp [hp]) (by simp) (fun j hj hq => by simp [hj] at hq; simp [hq])
            unfold promised at hn ⊢
            simp only at hn ⊢
            omega
        have := ih _ n hb' hg.1 hg.2
        simpa using this
  have h0 : promised T init = 0 := by
    simp [promised, init]
  have := key l init 0 h rfl (by rw [h0]; simp [init])
  simpa using this

/-! The maximum is reached. -/

/-- Every thread takes a step at the gate, one after the other. -/
def gates (T : Nat) : List Op := (List.range T).map .gate

/-- All threads below `T` come to the gate, the command is given, all see it, all pass. -/
def round (T : Nat) : List Op := gates T ++ .step :: gates T ++ gates T

theorem gates_arrive (T : Nat) (s : St) (hst : s.stepping = true) (ho : ∀ i, i < T → s.pc i = .outside) :
    run s (gates T) = { s with pc := fun j => if j < T then .waiting else s.pc j } := by
  induction T with
  | zero => simp [run, gates]
  | succ T ih =>
    rw [gates, List.range_succ, List.map_append, run, List.foldl_append]
    have := ih (fun i hi => ho i (by omega))
    unfold run gates at this
    rw [this]
    simp only [List.map_cons, List.map_nil, List.foldl_cons, List.foldl_nil, exec, gate, ho T (by omega), Nat.lt_irrefl, if_false, hst, if_true]
    congr 1
    funext j
    by_cases h1 : j = T
    · subst h1; simp
    · by_cases h2 : j < T
      · simp [h1, h2, Nat.lt_succ_of_lt h2]
      · have : ¬ j < T + 1 := by omega
        simp [h1, h2, this]

theorem gates_see (T : Nat) (s : St) (hn : s.nextStep = true) (ho : ∀ i, i < T → s.pc i = .waiting) :
    run s (gates T) = { s with pc := fun j => if j < T then .clearing else s.pc j } := by
  induction T with
  | zero => simp [run, gates]
  | succ T ih =>
    rw [gates, List.range_succ, List.map_append, run, List.foldl_append]
    have := ih (fun i hi => ho i (by omega))
    unfold run gates at this
    rw [this]
    simp only [List.map_cons, List.map_nil, List.foldl_cons, List.foldl_nil, exec, gate, ho T (by omega), Nat.lt_irrefl, if_false, hn, Bool.not_true, Bool.and_false, Bool.false_eq_true]
    congr 1
    funext j
    by_cases h1 : j = T
    · subst h1; simp
    · by_cases h2 : j < T
      · simp [h1, h2, Nat.lt_succ_of_lt h2]
      · have : ¬ j < T + 1 := by omega
        simp [h1, h2, this]

theorem gates_pass (T : Nat) (s : St) (ho : ∀ i, i < T → s.pc i = .clearing) :
    run s (gates T) = { s with nextStep := s.nextStep && decide (T = 0), stepped := s.stepped + T, pc := fun j => if j < T then .outside else s.pc j } := by
  induction T with
  | zero => simp [run, gates]
  | succ T ih =>
    rw [gates, List.range_succ, List.map_append, run, List.foldl_append]
    have := ih (fun i hi => ho i (by omega))
    unfold run gates at this
    rw [this]
    simp only [List.map_cons, List.map_nil, List.foldl_cons, List.foldl_nil, exec, gate, ho T (by omega), Nat.lt_irrefl, if_false]
    have h3 : decide (T + 1 = 0) = false := by simp
    simp only [h3, Bool.and_false, St.mk.injEq, true_and, and_true, Nat.add_assoc]
    funext j
    by_cases h1 : j = T
    · subst h1; simp
    · by_cases h2 : j < T
      · simp [h1, h2, Nat.lt_succ_of_lt h2]
      · have : ¬ j < T + 1 := by omega
        simp [h1, h2, this]

theorem run_append (s : St) (a b : List Op) : run s (a ++ b) = run (run s a) b := List.foldl_append ..

theorem round_steps (T : Nat) (s : St) (hst : s.stepping = true) (ho : ∀ i, i < T → s.pc i = .outside) :
    (run s (round T)).stepped = s.stepped + T ∧ (run s (round T)).stepping = true ∧ ∀ i, i < T → (run s (round T)).pc i = .outside := by
  have e : round T = gates T ++ ([.step] ++ (gates T ++ gates T)) := by simp [round]
  rw [e, run_append, run_append, run_append, gates_arrive T s hst ho]
  have e2 : ∀ u : St, run u [.step] = { u with nextStep := true } := fun u => rfl
  rw [e2]
  have h2 := gates_see T { s with nextStep := true, pc := fun j => if j < T then .waiting else s.pc j } rfl (fun i hi => by simp [hi])
  have h3 := gates_pass T (run { s with nextStep := true, pc := fun j => if j < T then .waiting else s.pc j } (gates T)) (fun i hi => by rw [h2]; simp [hi])
  rw [h3, h2]
  exact ⟨rfl, hst, fun i hi => by simp [hi]⟩

/-- **C302, reached.**  For every number of threads and of commands there is an interleaving in which every command lets one step of each thread pass. -/
theorem steps_reached (T n : Nat) :
    ∃ l, Below T l ∧ commands l = n ∧ (run init l).stepped = T * n := by
  refine ⟨.singleStepping :: (List.replicate n (round T)).flatten, ?_, ?_, ?_⟩
  · intro j hj
    simp only [List.mem_cons, reduceCtorEq, List.mem_flatten, List.mem_replicate, false_or] at hj
    obtain ⟨r, ⟨_, rfl⟩, hj⟩ := hj
    simpa [round, gates] using hj
  · have hg : ∀ T, (gates T).count .step = 0 := fun T => List.count_eq_zero.2 (by simp [gates])
    have hr : (round T).count .step = 1 := by simp [round, List.count_append, hg]
    simp only [commands, List.count_cons, List.count_flatten, List.map_replicate, hr]
    simp
  · have key : ∀ (n : Nat) (s : St), s.stepping = true → (∀ i, i < T → s.pc i = .outside) → (run s (List.replicate n (round T)).flatten).stepped = s.stepped + T * n := by
      intro n
      induction n with
      | zero => intro s _ _; simp [run]
      | succ n ih =>
        intro s hst ho
        rw [List.replicate_succ, List.flatten_cons, run_append]
        obtain ⟨h1, h2, h3⟩ := round_steps T s hst ho
        rw [ih _ h2 h3, h1, Nat.mul_succ]
        omega
    have := key n { init with stepping := true } rfl (fun i _ => rfl)
    simpa [init, run, exec] using this

/-- Three threads, two commands, six steps. -/
example : (run init (.singleStepping :: (round 3 ++ round 3))).stepped = 6 ∧ commands (.singleStepping :: (round 3 ++ round 3)) = 2 := by decide

end Verif.Sequencer.Stepping
