import Verif.Control.RosBlocks
import Mathlib.Tactic.SplitIfs
import Mathlib.Logic.Function.Iterate
namespace Verif.Control.RosBlocks

/-! ### C104: ROS 2 subscriber -/
namespace Sub2

theorem run_append (s : St) (a b : List Step) : run s (a ++ b) = run (run s a) b := by simp [run]

/-- **C104.** A run of the block consumes all messages of the queue and puts the one appended last on the output; without new messages
the output stays. -/
theorem run_takes_last (s : St) :
    (step s .run).queue = [] ∧
    (∀ q m, s.queue = q ++ [m] → (step s .run).out = some m) ∧ (s.queue = [] → (step s .run).out = s.out) := by
  refine ⟨?_, ?_, ?_⟩
  · simp only [step]
    cases h : s.queue.getLast? with
    | none => simpa using h
    | some m => rfl
  · intro q m h
    simp [step, h]
  · intro h
    simp [step, h]

/-- Every message is in exactly one place: on its way, in the queue, or consumed. -/
structure Inv (s : St) : Prop where
  below : (∀ i ∈ s.waiting, i < s.received) ∧ (∀ i ∈ s.queue, i < s.received) ∧ ∀ i ∈ s.out, i < s.received
  disjoint : ∀ i ∈ s.waiting, i ∉ s.queue ∧ s.out ≠ some i
  fresh : ∀ i ∈ s.queue, s.out ≠ some i
  nodup : s.waiting.Nodup ∧ s.queue.Nodup

theorem inv_step (s : St) (a : Step) (h : Inv s) : Inv (step s a) := by
  obtain ⟨⟨b1, b2, b3⟩, d, f, n1, n2⟩ := h
  cases a with
  | receive =>
    refine ⟨⟨?_, ?_, ?_⟩, ?_, f, ?_, n2⟩
    · intro i hi
      simp only [step, List.mem_append, List.mem_singleton] at hi ⊢
      rcases hi with hi | rfl
      · have := b1 i hi; omega
      · omega
    · intro i hi; have := b2 i hi; simp only [step]; omega
    · intro i hi; have := b3 i hi; simp only [step]; omega
    · intro i hi
      simp only [step, List.mem_append, List.mem_singleton] at hi ⊢
      rcases hi with hi | rfl
      · exact d i hi
      · refine ⟨fun h => absurd (b2 _ h) (by omega), fun h => absurd (b3 s.received (by simp [h])) (by omega)⟩
    · simp only [step]
      rw [List.nodup_append]
      refine ⟨n1, by simp, ?_⟩
      intro a ha b hb
      simp at hb
      subst hb
      have := b1 a ha
      omega
  | push i =>
    simp only [step]
    split_ifs with hi
    · have hd := d i hi
      refine ⟨⟨?_, ?_, b3⟩, ?_, ?_, n1.erase _, ?_⟩
      · intro j hj; exact b1 j (List.mem_of_mem_erase hj)
      · intro j hj
        simp only [List.mem_append, List.mem_singleton] at hj
        rcases hj with hj | rfl
        · exact b2 j hj
        · exact b1 _ hi
      · intro j hj
        have hjw := List.mem_of_mem_erase hj
        have hne : j ≠ i := by
          intro h; subst h
          exact (List.Nodup.not_mem_erase n1) hj
        refine ⟨?_, (d j hjw).2⟩
        simp only [List.mem_append, List.mem_singleton, not_or]
        exact ⟨(d j hjw).1, hne⟩
      · intro j hj
        simp only [List.mem_append, List.mem_singleton] at hj
        rcases hj with hj | rfl
        · exact f j hj
        · exact hd.2
      · rw [List.nodup_append]
        refine ⟨n2, by simp, ?_⟩
        intro a ha b hb
        simp at hb
        subst hb
        intro h
        subst h
        exact hd.1 ha
    · exact ⟨⟨b1, b2, b3⟩, d, f, n1, n2⟩
  | run =>
    simp only [step]
    cases h : s.queue.getLast? with
    | none => exact ⟨⟨b1, b2, b3⟩, d, f, n1, n2⟩
    | some m =>
      have hm : m ∈ s.queue := List.mem_of_getLast? h
      refine ⟨⟨b1, by simp, ?_⟩, ?_, by simp, n1, by simp⟩
      · intro i hi
        have : m = i := by simpa using hi
        subst this
        exact b2 _ hm
      · intro i hi
        refine ⟨by simp, ?_⟩
        intro he
        have : m = i := by simpa using he
        subst this
        exact (d _ hi).1 hm

theorem inv (l : List Step) : Inv (run init l) := by
  suffices ∀ (l : List Step) (s : St), Inv s → Inv (run s l) from this l init ⟨by simp [init], by simp [init], by simp [init], by simp [init]⟩
  intro l
  induction l with
  | nil => intro s h; exact h
  | cons a l ih => intro s h; exact ih _ (inv_step s a h)

/-- **C104.** No message is put on the output a second time: a run which finds messages changes the message on the output. -/
theorem no_repetition (l : List Step) (h : (run init l).queue ≠ []) : (step (run init l) .run).out ≠ (run init l).out := by
  have hi := inv l
  obtain ⟨m, hm⟩ : ∃ m, (run init l).queue.getLast? = some m := by
    cases hq : (run init l).queue.getLast? with
    | none => exact absurd (by simpa using hq) h
    | some m => exact ⟨m, rfl⟩
  simp only [step, hm]
  exact fun he => hi.fresh m (List.mem_of_getLast? hm) he.symm

example : (run init [.receive, .push 0, .run, .receive, .push 1]).queue ≠ [] := by decide

/-- One thread: a message is appended before the next one is received. -/
def oneThread : List Step → Nat → List Step
  | [], _ => []
  | .receive :: l, n => .receive :: .push n :: oneThread l (n + 1)
  | .push _ :: l, n => oneThread l n
  | .run :: l, n => .run :: oneThread l n

/-- **C104, partial.** If one thread handles the messages one after the other, the output after a run is the message received last.
Missing: several threads (`older_message_last`). -/
theorem newest_partial (l : List Step) : let s := run init (oneThread l 0)
    0 < s.received → (step s .run).out = some (s.received - 1) := by
  suffices ∀ (l : List Step) (s : St), s.waiting = [] →
      (0 < s.received → (s.queue = [] ∧ s.out = some (s.received - 1)) ∨ s.queue.getLast? = some (s.received - 1)) →
      let t := run s (oneThread l s.received)
      0 < t.received → (step t .run).out = some (t.received - 1) by
    exact this l init rfl (by simp [init])
  intro l
  induction l with
  | nil =>
    intro s _ h
    simp only [oneThread, run, List.foldl_nil]
    intro hp
    rcases h hp with ⟨h1, h2⟩ | h
    · simp [step, h1, h2]
    · simp [step, h]
  | cons a l ih =>
    intro s hw h
    cases a with
    | push i => simpa [oneThread] using ih s hw h
    | receive =>
      have e : run s (oneThread (.receive :: l) s.received) =
          run ⟨s.received + 1, [], s.queue ++ [s.received], s.out⟩ (oneThread l (s.received + 1)) := by
        simp [oneThread, run, step, hw]
      rw [e]
      refine ih ⟨s.received + 1, [], s.queue ++ [s.received], s.out⟩ rfl ?_
      intro _
      right
      simp
    | run =>
      have e : run s (oneThread (.run :: l) s.received) = run (step s .run) (oneThread l s.received) := rfl
      rw [e]
      have hr : (step s .run).received = s.received := by
        simp only [step]; cases s.queue.getLast? <;> rfl
      have hw' : (step s .run).waiting = [] := by
        simp only [step]; cases s.queue.getLast? <;> simp [hw]
      rw [← hr]
      refine ih (step s .run) hw' ?_
      rw [hr]
      intro hp
      rcases h hp with ⟨h1, h2⟩ | h
      · left; simp [step, h1, h2]
      · left; simp [step, h]

example : 0 < (run init (oneThread [.receive, .run, .receive, .receive] 0)).received := by decide

/-- **C104, violation.** With the threads of the multi-threaded executor an older message can overtake a newer one: the block has put
message 1 on its output and then goes back to message 0, although nothing was sent after message 1. -/
theorem older_message_last :
    (run init [.receive, .receive, .push 1, .run]).out = some 1 ∧
    (run init [.receive, .receive, .push 1, .run, .push 0, .run]).out = some 0 := by decide

/-- `n` messages received and appended one after the other. -/
def burst (n : Nat) : List Step := (List.range n).flatMap fun i => [.receive, .push i]

/-- **C104, violation.** The queue is not limited by `queueSize`: without a run of the block it grows with every message. -/
theorem queue_unbounded (n : Nat) : (run init (burst n)).queue.length = n := by
  suffices run init (burst n) = ⟨n, [], List.range n, none⟩ by rw [this]; simp
  induction n with
  | zero => rfl
  | succ n ih =>
    have : burst (n + 1) = burst n ++ [.receive, .push n] := by simp [burst, List.range_succ]
    rw [this, run_append, ih]
    simp [run, step, List.range_succ]

end Sub2

/-! ### C105: laser scans -/
namespace Laser

variable {K : Type}

/-- **C105, partial.** What is connected is published, what is not connected keeps the value of the last message.
Missing: the intensities (`intensities_are_ranges`). -/
theorem published_partial (s : Pub K) (i : In K) :
    (∀ k x, i.scalars k = some x → (setRosMsg s i).msg.scalars k = x) ∧
    (∀ k, i.scalars k = none → (setRosMsg s i).msg.scalars k = s.msg.scalars k) ∧
    (∀ r, i.ranges = some r → (setRosMsg s i).msg.ranges = r) ∧ (i.ranges = none → (setRosMsg s i).msg.ranges = s.msg.ranges) := by
  refine ⟨?_, ?_, ?_, ?_⟩
  · intro k x h; simp [setRosMsg, h]
  · intro k h; simp [setRosMsg, h]
  · intro r h; simp [setRosMsg, h]
  · intro h; simp [setRosMsg, h]

/-- **C105, violation.** Whenever both are connected, the published intensities are the ranges. -/
theorem intensities_are_ranges (s : Pub K) (i : In K) (r x : List K) (hr : i.ranges = some r) (hx : i.intensities = some x) :
    (setRosMsg s i).msg.intensities = r := by
  simp [setRosMsg, hr, hx]

/-- **C105, violation.** Without ranges the published intensities are what the member `rangesValue` contains; it is not initialised. -/
theorem intensities_uninitialised (s : Pub K) (i : In K) (x : List K) (hr : i.ranges = none) (hx : i.intensities = some x) :
    (setRosMsg s i).msg.intensities = s.rangesValue := by
  simp [setRosMsg, hr, hx]

/-- Two scans with different intensities are published as the same message. -/
example : ∃ (s : Pub Nat) (i j : In Nat), i.intensities ≠ j.intensities ∧ (setRosMsg s i).msg.intensities = (setRosMsg s j).msg.intensities :=
  ⟨⟨⟨fun _ => 0, [], []⟩, [], []⟩, ⟨fun _ => none, some [1, 2], some [3, 4]⟩, ⟨fun _ => none, some [1, 2], some [5, 6]⟩, by simp,
    by simp [setRosMsg]⟩

/-- **C105, partial.** From publisher to subscriber: with all inputs connected and the same number of rows the subscriber gets the numbers
and the ranges which were published.
Missing: the intensities. -/
theorem roundtrip_partial (s : Pub K) (sc : Fin 7 → K) (r x : List K) :
    ∃ o, receive r.length r.length (setRosMsg s ⟨fun k => some (sc k), some r, some x⟩).msg = some o ∧ o.scalars = sc ∧ o.ranges = r := by
  refine ⟨⟨sc, r, r⟩, ?_, rfl, rfl⟩
  simp [receive, setRosMsg, setCol]

/-- **C105.** A message is accepted exactly if it has at least as many values as the outputs have rows. -/
theorem receive_iff (n m : Nat) (x : Msg K) : (receive n m x).isSome ↔ n ≤ x.ranges.length ∧ m ≤ x.intensities.length := by
  unfold receive setCol
  split_ifs with h1 h2 h2 <;> simp [h1, h2]

/-- **C105, violation.** Many laser scanners do not send intensities: every such message makes the subscriber read behind the end of a
vector. -/
theorem no_intensities_undefined (n m : Nat) (hm : 0 < m) (x : Msg K) (h : x.intensities = []) : receive n m x = none := by
  have : ¬ (receive n m x).isSome := by
    rw [receive_iff]; simp [h]; omega
  simpa using this

example : receive 2 1 (⟨fun _ => 0, [1, 2], []⟩ : Msg Nat) = none := no_intensities_undefined 2 1 (by decide) _ rfl

end Laser

/-! ### C106: subscribers of ROS 1 -/
namespace Sub1

variable {M : Type}

/-- The newest message for block `b`. -/
def newest (b : Nat) (q : List (Nat × M)) : Option M := (q.reverse.find? fun e => e.1 = b).map Prod.snd

theorem foldl_call (q : List (Nat × M)) (out : Nat → Option M) (b : Nat) :
    (q.foldl call out) b = match newest b q with | some m => some m | none => out b := by
  induction q generalizing out with
  | nil => rfl
  | cons e q ih =>
    rw [List.foldl_cons, ih]
    unfold newest
    simp only [List.reverse_cons, List.find?_append]
    cases h : q.reverse.find? fun e => e.1 = b with
    | some x => simp
    | none =>
      by_cases he : e.1 = b
      · simp [call, he]
      · have : ¬ b = e.1 := fun h => he h.symm
        simp [call, he, this]

/-- **C106.** With `callNewest` every run of any block brings all outputs up to date. -/
theorem newest_all (s : St M) (b : Nat) : (runBlock true s).queue = [] ∧
    (runBlock true s).out b = match newest b s.queue with | some m => some m | none => s.out b := by
  refine ⟨rfl, ?_⟩
  simp only [runBlock, if_true, callAvailable]
  exact foldl_call s.queue s.out b

/-- `n` runs of any blocks without `callNewest`. -/
def runs (n : Nat) (s : St M) : St M := (runBlock false)^[n] s

/-- **C106.** Without `callNewest` `n` runs handle exactly the `n` oldest messages in their order. -/
theorem oldest_first (n : Nat) (s : St M) : runs n s = ⟨s.queue.drop n, (s.queue.take n).foldl call s.out⟩ := by
  induction n generalizing s with
  | zero => simp [runs]
  | succ n ih =>
    have : runs (n + 1) s = runs n (runBlock false s) := by simp [runs, Function.iterate_succ]
    rw [this, ih]
    cases h : s.queue with
    | nil => simp [runBlock, callOne, h]
    | cons e l => simp [runBlock, callOne, h]

/-- **C106, violation.** Without `callNewest` a block can run any number of times without getting its own messages: the queue is common to
all blocks.  After `n` runs the output of block `b` is unchanged if the `n` oldest messages are for other blocks. -/
theorem starved (n b : Nat) (s : St M) (ho : ∀ e ∈ s.queue.take n, e.1 ≠ b) : (runs n s).out b = s.out b := by
  rw [oldest_first]
  simp only
  rw [foldl_call]
  have : newest b (s.queue.take n) = none := by
    unfold newest
    simp only [Option.map_eq_none_iff, List.find?_eq_none, List.mem_reverse]
    intro e he
    simpa using ho e he
  rw [this]

/-- The message 5 of block 1 is waiting. -/
example : let s : St Nat := ⟨[(0, 10), (0, 11), (1, 5)], fun _ => none⟩
    ∀ e ∈ s.queue.take 2, e.1 ≠ 1 := by decide

/-- **C106, violation.** If messages come faster than the blocks run, the output falls behind without limit: after `k` rounds of two
messages and one run, `k` messages are waiting. -/
theorem falls_behind (k : Nat) (m : M) : let round (s : St M) : St M := runBlock false (arrive 0 m (arrive 0 m s))
    (round^[k] ⟨[], fun _ => none⟩).queue.length = k := by
  intro round
  induction k with
  | zero => rfl
  | succ k ih =>
    rw [Function.iterate_succ_apply']
    generalize round^[k] ⟨[], fun _ => none⟩ = s at ih
    have : ∀ q : List (Nat × M), q ≠ [] → (runBlock false (⟨q, s.out⟩ : St M)).queue.length = q.length - 1 := by
      intro q hq
      cases q with
      | nil => exact absurd rfl hq
      | cons e l => simp [runBlock, callOne]
    have h := this (s.queue ++ [(0, m)] ++ [(0, m)]) (by simp)
    simp only [List.length_append, List.length_singleton] at h
    show (runBlock false (arrive 0 m (arrive 0 m s))).queue.length = k + 1
    simp only [arrive]
    rw [h]
    omega

end Sub1

/-! ### C107: analog and digital signals -/
namespace Analog

variable {K : Type}

theorem parse_eq (size : Nat) (val : List K) : parse size val = if size ≤ val.length then some (val.take size) else none := by
  induction size with
  | zero => simp [parse]
  | succ n ih =>
    unfold parse at ih ⊢
    rw [List.range_succ, List.mapM_append, ih]
    split_ifs with h1 h2 h2
    · have : val[n]? = some val[n] := List.getElem?_eq_getElem (by omega)
      simp [this]
    · have : val[n]? = none := List.getElem?_eq_none (by omega)
      simp [this]
    · omega
    · rfl

/-- **C107.** What a publisher sends, a subscriber of the same size receives. -/
theorem roundtrip (x : List K) : parse x.length (publish x) = some x := by
  rw [parse_eq]; simp [publish]

/-- **C107.** A message with more values than the output is cut off. -/
theorem longer_cut (size : Nat) (val : List K) (h : size ≤ val.length) : parse size val = some (val.take size) := by
  rw [parse_eq]; simp [h]

example : parse 2 [1, 2, 3] = some [1, 2] := by decide

/-- **C107, violation.** A message with less values than the output (for a number: an empty message) makes the subscriber read behind the
end of the vector. -/
theorem shorter_undefined (size : Nat) (val : List K) (h : val.length < size) : parse size val = none := by
  rw [parse_eq]; simp; omega

example : ([] : List Nat).length < 1 := by decide

end Analog
end Verif.Control.RosBlocks
