import Verif.Core.TasksProps
import Verif.Core.ExecutorProps
import Mathlib.Data.List.Nodup
/-!
The threads of the executor at work: the lists built by `createThread` (`Verif.Core.Executor`), the dividers (`Verif.Core.Harmonic`) and the worker threads (`Verif.Core.Async`) together.
The executor itself is thread `r`: its cycle runs its list and then the main task (src/core/Executor.cpp:357-370); when a cycle begins is left open.  The threads are interleaved in every
possible way.  Left out: stopping (`Verif.Core.ExecutorRun`), exceptions, the measurements of `counter`.
-/
namespace Verif.Core.Threads

open Executor (Entry Thread)

/-- A thread: its semaphore and loop (Async.cpp:47-66), the rest of the list which it runs now (HarmonicTaskList.cpp:6-9), whether it is inside its own task, the counter `k` of the
`Harmonic` which triggers it (Harmonic.hpp:19).  The other fields count: runs of the list begun, runs of the own task begun and ended, calls of that `Harmonic`. -/
structure Th where
  async : Async.St
  todo : List Entry
  inside : Bool
  hk : Int
  starts : Nat
  begins : Nat
  ends : Nat
  calls : Nat

abbrev World := Nat → Th

/-- All threads wait. -/
def init : World := fun _ => ⟨Async.init, [], false, 0, 0, 0, 0, 0⟩

def set (w : World) (i : Nat) (x : Th) : World := fun n => if n = i then x else w n

/-- `Harmonic::run` of the entry for thread `j` (Harmonic.cpp:16-21), which calls `Async::run` (Async.cpp:25-27). -/
def call (x : Th) (k : Int) : Th :=
  let h := Harmonic.run ⟨k, x.hk⟩
  { x with hk := h.1.k, calls := x.calls + 1,
           async := if h.2 then (Async.step x.async .run).1 else x.async }

/-- One step of thread `i`: the next entry of the list it runs; without a list the executor begins a cycle (Executor.cpp:364-370), another thread goes on in its loop (Async.cpp:58-64). -/
def step (r : Nat) (prog : Nat → List Entry) (w : World) (i : Nat) : World :=
  match (w i).todo with
  | .async j k :: rest => set (set w j (call (w j) k)) i { w i with todo := rest }
  | .own _ :: rest =>
    if (w i).inside then set w i { w i with inside := false, ends := (w i).ends + 1, todo := rest }
    else set w i { w i with inside := true, begins := (w i).begins + 1 }
  | [] =>
    if i = r then set w i { w i with todo := prog i, starts := (w i).starts + 1 }
    else
      let a := Async.step (w i).async .worker
      match a.2 with
      | .taskStarts => set w i { w i with async := a.1, todo := prog i, starts := (w i).starts + 1 }
      | .none => set w i { w i with async := a.1 }

/-- The threads move in the order of the list. -/
def exec (r : Nat) (prog : Nat → List Entry) (w : World) (is : List Nat) : World := is.foldl (step r prog) w

/-- The lists of the threads which the executor creates, with the main task at the end of its own. -/
def lists {K : Type} (base : Executor.Task K) (threads : List (Thread K)) (out : List Entry) : Nat → List Entry := fun i =>
  if i = base.id then out ++ [.own base.id]
  else match threads.find? (fun t => t.id = i) with
    | some t => t.list
    | none => []

/-! ### Specification -/

/-- The lists form a tree with root `r`: every thread is triggered from one place only, not by itself, and runs its own task and nobody else's. -/
structure Wf (r : Nat) (prog : Nat → List Entry) : Prop where
  other : ∀ i j k, Entry.async j k ∈ prog i → j ≠ r ∧ j ≠ i
  parent : ∀ i i' j k k', Entry.async j k ∈ prog i → Entry.async j k' ∈ prog i' → i = i' ∧ k = k'
  nodup : ∀ i, (prog i).Nodup
  own : ∀ i x, Entry.own x ∈ prog i → x = i
  pos : ∀ i j k, Entry.async j k ∈ prog i → 1 ≤ k

/-- Thread `j` is in the tree, and `d` is the product of the divisors on the way to it. -/
inductive Below (r : Nat) (prog : Nat → List Entry) : Nat → Nat → Prop
  | root : Below r prog r 1
  | child {i d j : Nat} {k : Int} : Below r prog i d → Entry.async j k ∈ prog i → Below r prog j (d * k.toNat)

/-- Nothing is going on: every thread waits and none has been triggered. -/
def Quiet (w : World) : Prop := ∀ i, (w i).todo = [] ∧ (w i).async.counter = 0 ∧ (w i).async.pc = .waiting

/-- How often a thread has been told to run: runs begun, permits, and the permit which the worker has taken but not used yet. -/
def requests (x : Th) : Nat := x.starts + x.async.counter + Async.held x.async.pc

/-! ### Invariant -/

structure Inv (prog : Nat → List Entry) (w : World) : Prop where
  fin : ∀ i, (w i).async.finished = false
  suffix : ∀ i, (w i).todo <:+ prog i
  inside : ∀ i, (w i).inside = true → ∃ rest, (w i).todo = .own i :: rest
  own : ∀ i, Entry.own i ∈ prog i → (w i).ends + (w i).todo.count (.own i) = (w i).starts
  begins : ∀ i, (w i).begins = (w i).ends + (if (w i).inside then 1 else 0)
  harm : ∀ i j k, Entry.async j k ∈ prog i → (w j).hk = ((w j).calls % k.toNat : Nat)
  req : ∀ i j k, Entry.async j k ∈ prog i → requests (w j) = (w j).calls / k.toNat
  calls : ∀ i j k, Entry.async j k ∈ prog i → (w j).calls + (w i).todo.count (.async j k) = (w i).starts

theorem inv_init (prog : Nat → List Entry) : Inv prog init where
  fin := fun _ => rfl
  suffix := fun _ => List.nil_suffix
  inside := fun _ h => by simp [init] at h
  own := fun _ _ => by simp [init]
  begins := fun _ => by simp [init]
  harm := fun _ _ _ _ => by simp [init]
  req := fun _ _ _ _ => by simp [init, requests, Async.init, Async.held]
  calls := fun _ _ _ _ => by simp [init]

theorem set_same (w : World) (i : Nat) (x : Th) : set w i x i = x := by simp [set]
theorem set_other (w : World) {i n : Nat} (x : Th) (h : n ≠ i) : set w i x n = w n := by simp [set, h]

/-- What a `Harmonic` and its thread do in a call. -/
theorem call_spec (x : Th) (k : Int) (hk : 1 ≤ k) (h : x.hk = (x.calls % k.toNat : Nat)) (hr : requests x = x.calls / k.toNat) :
    (call x k).hk = ((call x k).calls % k.toNat : Nat) ∧ requests (call x k) = (call x k).calls / k.toNat ∧ (call x k).async.finished = x.async.finished ∧
      (call x k).async.pc = x.async.pc := by
  obtain ⟨n, rfl⟩ : ∃ n : Nat, k = n := ⟨k.toNat, by omega⟩
  have hn : 1 ≤ n := by omega
  simp only [Int.toNat_natCast] at h hr ⊢
  have hlt := Nat.mod_lt x.calls (show n > 0 by omega)
  by_cases hc : x.hk + 1 ≥ n
  · have he : x.calls % n + 1 = n := by omega
    have hd : (x.calls + 1) % n = 0 := by
      rw [Nat.add_mod]
      rcases Nat.lt_or_ge 1 n with h1 | h1
      · rw [Nat.mod_eq_of_lt h1, he, Nat.mod_self]
      · have : n = 1 := by omega
        subst this; exact Nat.mod_one _
    have hq : (x.calls + 1) / n = x.calls / n + 1 := by
      rw [Nat.succ_div, if_pos (Nat.dvd_of_mod_eq_zero hd)]
    simp only [call, Harmonic.run, hc, if_true, Async.step, requests] at hr ⊢
    refine ⟨by rw [hd]; rfl, ?_, by simp, by simp⟩
    rw [hq]; omega
  · have he : x.calls % n + 1 < n := by omega
    have hd : (x.calls + 1) % n = x.calls % n + 1 := by
      rw [Nat.add_mod, Nat.mod_eq_of_lt (show 1 < n by omega), Nat.mod_eq_of_lt he]
    have hq : (x.calls + 1) / n = x.calls / n := by
      rw [Nat.succ_div, if_neg]; · rfl
      intro hdv; have := Nat.mod_eq_zero_of_dvd hdv; omega
    simp only [call, Harmonic.run, hc, if_false, requests] at hr ⊢
    refine ⟨?_, by rw [hq]; simpa using hr, by simp, by simp⟩
    rw [hd, h]; rfl

/-- A step of the loop of a thread keeps the number of requests. -/
theorem worker_spec (a : Async.St) (hf : a.finished = false) :
    (Async.step a .worker).1.finished = false ∧
      (Async.step a .worker).1.counter + Async.held (Async.step a .worker).1.pc + (if (Async.step a .worker).2 = .taskStarts then 1 else 0) = a.counter + Async.held a.pc := by
  obtain ⟨c, f, pc⟩ := a
  simp only at hf
  subst hf
  cases pc with
  | waiting =>
    by_cases hc : c > 0
    · simp [Async.step, hc, Async.held]; omega
    · simp [Async.step, hc, Async.held]
  | testing => simp [Async.step, Async.held]
  | about => simp [Async.step, Async.held]
  | running => simp [Async.step, Async.held]
  | ended => simp [Async.step, Async.held]

theorem count_full {prog : Nat → List Entry} (hn : ∀ i, (prog i).Nodup) {i : Nat} {e : Entry} (h : e ∈ prog i) : (prog i).count e = 1 :=
  List.count_eq_one_of_mem (hn i) h

theorem inv_step {r : Nat} {prog : Nat → List Entry} (hw : Wf r prog) {w : World} (h : Inv prog w) (i : Nat) : Inv prog (step r prog w i) := by
  unfold step
  split
  · -- a trigger
    next j k rest ht =>
    have hmem : Entry.async j k ∈ prog i := (h.suffix i).subset (by rw [ht]; simp)
    obtain ⟨hjr, hji⟩ := hw.other i j k hmem
    obtain ⟨c1, c2, c3, c4⟩ := call_spec (w j) k (hw.pos i j k hmem) (h.harm i j k hmem) (h.req i j k hmem)
    have hcalls : (call (w j) k).calls = (w j).calls + 1 := rfl
    have hin : (w i).inside = false := by
      by_contra hc
      obtain ⟨rest', hr⟩ := h.inside i (by simpa using hc)
      rw [ht] at hr; simp at hr
    have hi : set (set w j (call (w j) k)) i { w i with todo := rest } i = { w i with todo := rest } := set_same _ _ _
    have hj : set (set w j (call (w j) k)) i { w i with todo := rest } j = call (w j) k := by
      rw [set_other _ _ hji, set_same]
    have ho : ∀ n, n ≠ i → n ≠ j → set (set w j (call (w j) k)) i { w i with todo := rest } n = w n := by
      intro n h1 h2; rw [set_other _ _ h1, set_other _ _ h2]
    generalize hw' : set (set w j (call (w j) k)) i { w i with todo := rest } = w' at *
    have hfin : ∀ n, (w' n).async.finished = false := by
      intro n
      by_cases h1 : n = i
      · subst h1; rw [hi]; exact h.fin n
      · by_cases h2 : n = j
        · subst h2; rw [hj, c3]; exact h.fin n
        · rw [ho n h1 h2]; exact h.fin n
    have htodo : ∀ n, (w' n).todo = if n = i then rest else (w n).todo := by
      intro n
      by_cases h1 : n = i
      · subst h1; rw [hi]; simp
      · rw [if_neg h1]
        by_cases h2 : n = j
        · subst h2; rw [hj]; rfl
        · rw [ho n h1 h2]
    have hsame : ∀ n, (w' n).inside = (w n).inside ∧ (w' n).starts = (w n).starts ∧ (w' n).begins = (w n).begins ∧ (w' n).ends = (w n).ends := by
      intro n
      by_cases h1 : n = i
      · subst h1; rw [hi]; exact ⟨rfl, rfl, rfl, rfl⟩
      · by_cases h2 : n = j
        · subst h2; rw [hj]; exact ⟨rfl, rfl, rfl, rfl⟩
        · rw [ho n h1 h2]; exact ⟨rfl, rfl, rfl, rfl⟩
    refine ⟨hfin, ?_, ?_, ?_, ?_, ?_, ?_, ?_⟩
    · intro n
      rw [htodo]
      split
      · next e => subst e; exact (List.suffix_cons _ _).trans (ht ▸ h.suffix n)
      · exact h.suffix n
    · intro n hn
      rw [(hsame n).1] at hn
      rw [htodo]
      split
      · next e => subst e; rw [hin] at hn; simp at hn
      · exact h.inside n hn
    · intro n hn
      rw [htodo, (hsame n).2.2.2, (hsame n).2.1, ← h.own n hn]
      split
      · next e => subst e; rw [ht, List.count_cons_of_ne (by simp)]
      · rfl
    · intro n
      rw [(hsame n).1, (hsame n).2.2.1, (hsame n).2.2.2]; exact h.begins n
    · intro a b kk hab
      by_cases h2 : b = j
      · subst h2
        obtain ⟨ha, hkk⟩ := hw.parent a i b kk k hab hmem
        subst ha; subst hkk
        rw [hj]; exact c1
      · by_cases h1 : b = i
        · subst h1; rw [hi]; exact h.harm a b kk hab
        · rw [ho b h1 h2]; exact h.harm a b kk hab
    · intro a b kk hab
      by_cases h2 : b = j
      · subst h2
        obtain ⟨ha, hkk⟩ := hw.parent a i b kk k hab hmem
        subst ha; subst hkk
        rw [hj]; exact c2
      · by_cases h1 : b = i
        · subst h1; rw [hi]; exact h.req a b kk hab
        · rw [ho b h1 h2]; exact h.req a b kk hab
    · intro a b kk hab
      rw [htodo, (hsame a).2.1, ← h.calls a b kk hab]
      by_cases h2 : b = j
      · subst h2
        obtain ⟨ha, hkk⟩ := hw.parent a i b kk k hab hmem
        subst ha; subst hkk
        rw [hj, if_pos rfl, ht, List.count_cons_self, hcalls]; omega
      · have hb : (w' b).calls = (w b).calls := by
          by_cases h1 : b = i
          · subst h1; rw [hi]
          · rw [ho b h1 h2]
        rw [hb]
        split
        · next e =>
          subst e
          rw [ht, List.count_cons_of_ne]
          intro he; injection he with he1; exact h2 he1.symm
        · rfl
  · -- the own task
    next x rest ht =>
    have hmem : Entry.own x ∈ prog i := (h.suffix i).subset (by rw [ht]; simp)
    have hx := hw.own i x hmem
    subst hx
    split
    · next hin =>
      have hnr : Entry.own x ∉ rest := by
        have := (hw.nodup x).sublist (h.suffix x).sublist
        rw [ht] at this; exact (List.nodup_cons.mp this).1
      refine ⟨?_, ?_, ?_, ?_, ?_, ?_, ?_, ?_⟩
      · intro n; by_cases e : n = x
        · subst e; rw [set_same]; exact h.fin n
        · rw [set_other _ _ e]; exact h.fin n
      · intro n; by_cases e : n = x
        · subst e; rw [set_same]; exact (List.suffix_cons _ _).trans (ht ▸ h.suffix n)
        · rw [set_other _ _ e]; exact h.suffix n
      · intro n hn; by_cases e : n = x
        · subst e; rw [set_same] at hn; simp at hn
        · rw [set_other _ _ e] at hn ⊢; exact h.inside n hn
      · intro n hn; by_cases e : n = x
        · subst e; rw [set_same]; have := h.own n hn; rw [ht, List.count_cons_self] at this; simp only; omega
        · rw [set_other _ _ e]; exact h.own n hn
      · intro n; by_cases e : n = x
        · subst e; rw [set_same]; have := h.begins n; rw [hin] at this; simpa using this
        · rw [set_other _ _ e]; exact h.begins n
      · intro a b kk hab; by_cases e : b = x
        · subst e; rw [set_same]; exact h.harm a b kk hab
        · rw [set_other _ _ e]; exact h.harm a b kk hab
      · intro a b kk hab; by_cases e : b = x
        · subst e; rw [set_same]; exact h.req a b kk hab
        · rw [set_other _ _ e]; exact h.req a b kk hab
      · intro a b kk hab
        have hb : (set w x { w x with inside := false, ends := (w x).ends + 1, todo := rest } b).calls = (w b).calls := by
          by_cases e : b = x
          · subst e; rw [set_same]
          · rw [set_other _ _ e]
        rw [hb, ← h.calls a b kk hab |>.trans (show (w a).starts = (set w x { w x with inside := false, ends := (w x).ends + 1, todo := rest } a).starts by
          by_cases e : a = x
          · subst e; rw [set_same]
          · rw [set_other _ _ e])]
        by_cases e : a = x
        · subst e; rw [set_same, ht, List.count_cons_of_ne (by simp)]
        · rw [set_other _ _ e]
    · next hin =>
      have hinf : (w x).inside = false := by simpa using hin
      refine ⟨?_, ?_, ?_, ?_, ?_, ?_, ?_, ?_⟩
      · intro n; by_cases e : n = x
        · subst e; rw [set_same]; exact h.fin n
        · rw [set_other _ _ e]; exact h.fin n
      · intro n; by_cases e : n = x
        · subst e; rw [set_same]; exact h.suffix n
        · rw [set_other _ _ e]; exact h.suffix n
      · intro n hn; by_cases e : n = x
        · subst e; rw [set_same]; exact ⟨rest, ht⟩
        · rw [set_other _ _ e] at hn ⊢; exact h.inside n hn
      · intro n hn; by_cases e : n = x
        · subst e; rw [set_same]; exact h.own n hn
        · rw [set_other _ _ e]; exact h.own n hn
      · intro n; by_cases e : n = x
        · subst e; rw [set_same]; have := h.begins n; rw [hinf] at this; simpa using this
        · rw [set_other _ _ e]; exact h.begins n
      · intro a b kk hab; by_cases e : b = x
        · subst e; rw [set_same]; exact h.harm a b kk hab
        · rw [set_other _ _ e]; exact h.harm a b kk hab
      · intro a b kk hab; by_cases e : b = x
        · subst e; rw [set_same]; exact h.req a b kk hab
        · rw [set_other _ _ e]; exact h.req a b kk hab
      · intro a b kk hab
        have := h.calls a b kk hab
        by_cases e : b = x
        · subst e
          by_cases e2 : a = b
          · subst e2; rw [set_same]; exact this
          · rw [set_same, set_other _ _ e2]; exact this
        · rw [set_other _ _ e]
          by_cases e2 : a = x
          · subst e2; rw [set_same]; exact this
          · rw [set_other _ _ e2]; exact this
  · -- no list
    next ht =>
    have hin : (w i).inside = false := by
      by_contra hc
      obtain ⟨rest', hr⟩ := h.inside i (by simpa using hc)
      rw [ht] at hr; simp at hr
    -- beginning a run of the list, with requests kept
    have begin_run : ∀ a : Async.St, a.finished = false → (i ≠ r → a.counter + Async.held a.pc + 1 = (w i).async.counter + Async.held (w i).async.pc) →
        Inv prog (set w i { w i with async := a, todo := prog i, starts := (w i).starts + 1 }) := by
      intro a hf hreq
      refine ⟨?_, ?_, ?_, ?_, ?_, ?_, ?_, ?_⟩
      · intro n; by_cases e : n = i
        · subst e; rw [set_same]; exact hf
        · rw [set_other _ _ e]; exact h.fin n
      · intro n; by_cases e : n = i
        · subst e; rw [set_same]; exact List.suffix_refl _
        · rw [set_other _ _ e]; exact h.suffix n
      · intro n hn; by_cases e : n = i
        · subst e; rw [set_same] at hn; simp [hin] at hn
        · rw [set_other _ _ e] at hn ⊢; exact h.inside n hn
      · intro n hn; by_cases e : n = i
        · subst e; rw [set_same]; have := h.own n hn; rw [ht] at this
          simp only [count_full hw.nodup hn]; simp at this; omega
        · rw [set_other _ _ e]; exact h.own n hn
      · intro n; by_cases e : n = i
        · subst e; rw [set_same]; exact h.begins n
        · rw [set_other _ _ e]; exact h.begins n
      · intro a' b kk hab; by_cases e : b = i
        · subst e; rw [set_same]; exact h.harm a' b kk hab
        · rw [set_other _ _ e]; exact h.harm a' b kk hab
      · intro a' b kk hab; by_cases e : b = i
        · subst e
          rw [set_same]
          have h1 := h.req a' b kk hab
          have h2 := hreq (hw.other a' b kk hab).1
          simp only [requests] at h1 ⊢
          omega
        · rw [set_other _ _ e]; exact h.req a' b kk hab
      · intro a' b kk hab
        have h1 := h.calls a' b kk hab
        have hne := (hw.other a' b kk hab).2
        by_cases e : a' = i
        · subst e
          rw [set_same, set_other _ _ hne, count_full hw.nodup hab]
          rw [ht] at h1; simp at h1; simp only; omega
        · rw [set_other _ _ e]
          by_cases e2 : b = i
          · subst e2; rw [set_same]; exact h1
          · rw [set_other _ _ e2]; exact h1
    split
    · next hr => exact begin_run (w i).async (h.fin i) (fun hc => absurd hr hc)
    · next hr =>
      obtain ⟨w1, w2⟩ := worker_spec (w i).async (h.fin i)
      simp only
      split
      · next ho =>
        rw [ho] at w2
        exact begin_run _ w1 (fun _ => by simpa using w2)
      · next ho =>
        rw [ho] at w2
        refine ⟨?_, ?_, ?_, ?_, ?_, ?_, ?_, ?_⟩
        · intro n; by_cases e : n = i
          · subst e; rw [set_same]; exact w1
          · rw [set_other _ _ e]; exact h.fin n
        · intro n; by_cases e : n = i
          · subst e; rw [set_same]; exact h.suffix n
          · rw [set_other _ _ e]; exact h.suffix n
        · intro n hn; by_cases e : n = i
          · subst e; rw [set_same] at hn; simp [hin] at hn
          · rw [set_other _ _ e] at hn ⊢; exact h.inside n hn
        · intro n hn; by_cases e : n = i
          · subst e; rw [set_same]; exact h.own n hn
          · rw [set_other _ _ e]; exact h.own n hn
        · intro n; by_cases e : n = i
          · subst e; rw [set_same]; exact h.begins n
          · rw [set_other _ _ e]; exact h.begins n
        · intro a' b kk hab; by_cases e : b = i
          · subst e; rw [set_same]; exact h.harm a' b kk hab
          · rw [set_other _ _ e]; exact h.harm a' b kk hab
        · intro a' b kk hab; by_cases e : b = i
          · subst e
            rw [set_same]
            have h1 := h.req a' b kk hab
            simp only [requests] at h1 ⊢
            simp at w2
            omega
          · rw [set_other _ _ e]; exact h.req a' b kk hab
        · intro a' b kk hab
          have h1 := h.calls a' b kk hab
          by_cases e : a' = i
          · subst e
            rw [set_same]
            by_cases e2 : b = a'
            · subst e2; rw [set_same]; exact h1
            · rw [set_other _ _ e2]; exact h1
          · rw [set_other _ _ e]
            by_cases e2 : b = i
            · subst e2; rw [set_same]; exact h1
            · rw [set_other _ _ e2]; exact h1

theorem inv_exec {r : Nat} {prog : Nat → List Entry} (hw : Wf r prog) (is : List Nat) {w : World} (h : Inv prog w) : Inv prog (exec r prog w is) := by
  induction is generalizing w with
  | nil => exact h
  | cons i is ih => exact ih (inv_step hw h i)

/-! ### C153: how often the tasks run -/

theorem starts_le {r : Nat} {prog : Nat → List Entry} {w : World} (h : Inv prog w) {j d : Nat} (hb : Below r prog j d) :
    (w j).starts * d ≤ (w r).starts := by
  induction hb with
  | root => simp
  | @child i d j k _ hm ih =>
    have h1 := h.calls _ _ _ hm
    have h2 := h.req _ _ _ hm
    have h3 : (w j).starts * k.toNat ≤ (w j).calls := by
      refine Nat.le_trans (Nat.mul_le_mul_right _ ?_) (Nat.div_mul_le_self (w j).calls k.toNat)
      rw [← h2]; simp only [requests]; omega
    calc (w j).starts * (d * k.toNat) = ((w j).starts * k.toNat) * d := by rw [Nat.mul_comm d, Nat.mul_assoc]
      _ ≤ (w i).starts * d := Nat.mul_le_mul_right _ (by omega)
      _ ≤ _ := ih

theorem begins_le {prog : Nat → List Entry} {w : World} (h : Inv prog w) {j : Nat} (ho : Entry.own j ∈ prog j) : (w j).begins ≤ (w j).starts := by
  have h1 := h.own j ho
  have h2 := h.begins j
  cases hi : (w j).inside
  · rw [hi] at h2; simp at h2; omega
  · rw [hi] at h2
    obtain ⟨rest, hr⟩ := h.inside j hi
    rw [hr, List.count_cons_self] at h1
    simp at h2; omega

/-- C153.  Whatever the threads do, at any time a task has begun at most as often as the executor has begun cycles, divided by the product of the divisors on the way to the task; the
tree of tasks may have any depth. -/
theorem task_rate (r : Nat) (prog : Nat → List Entry) (hw : Wf r prog) (is : List Nat) (j d : Nat) (hb : Below r prog j d) (ho : Entry.own j ∈ prog j) :
    (exec r prog init is j).begins * d ≤ (exec r prog init is r).starts := by
  have h := inv_exec hw is (inv_init prog)
  exact Nat.le_trans (Nat.mul_le_mul_right _ (begins_le h ho)) (starts_le h hb)

theorem quiet_starts {r : Nat} {prog : Nat → List Entry} {w : World} (h : Inv prog w) (hq : Quiet w) {j d : Nat} (hb : Below r prog j d) : (w j).starts = (w r).starts / d := by
  induction hb with
  | root => simp
  | @child i d j k _ hm ih =>
    have h1 := h.calls _ _ _ hm
    have h2 := h.req _ _ _ hm
    obtain ⟨q1, q2, q3⟩ := hq j
    rw [(hq i).1] at h1
    simp only [requests, q2, q3, Async.held] at h2
    simp at h1 h2
    rw [h2, h1, ih, Nat.div_div_eq_div_mul]

/-- C153.  No run is lost and none is invented: whenever all threads are idle, every task has run exactly as often as the cycles of the executor demand. -/
theorem task_count (r : Nat) (prog : Nat → List Entry) (hw : Wf r prog) (is : List Nat) (hq : Quiet (exec r prog init is)) (j d : Nat) (hb : Below r prog j d)
    (ho : Entry.own j ∈ prog j) : (exec r prog init is j).ends = (exec r prog init is r).starts / d := by
  have h := inv_exec hw is (inv_init prog)
  rw [← quiet_starts h hq hb, ← h.own j ho, (hq j).1]
  simp

/-! ### C152, C155: the order of the tasks -/

theorem suffix_count {l1 l2 todo : List Entry} {e f : Entry} (hs : todo <:+ l1 ++ e :: l2) (hn : (l1 ++ e :: l2).Nodup) (hf : f ∈ l2) : todo.count e ≤ todo.count f := by
  by_cases he : e ∈ todo
  · obtain ⟨t, ht⟩ := hs
    have hnt : todo.Nodup := by rw [← ht] at hn; exact (List.nodup_append.mp hn).2.1
    have hft : f ∈ todo := by
      by_contra hc
      have hs2 : e :: l2 <:+ t ++ todo := ht ▸ List.suffix_append _ _
      rcases List.suffix_or_suffix_of_suffix hs2 (List.suffix_append t todo) with h1 | h1
      · exact hc (h1.subset (by simp [hf]))
      · rcases List.suffix_cons_iff.mp h1 with h2 | h2
        · rw [h2] at hc; exact hc (by simp [hf])
        · have : e ∈ l2 := h2.subset he
          have := (List.nodup_append.mp hn).2.1
          exact (List.nodup_cons.mp this).1 ‹e ∈ l2›
    rw [List.count_eq_one_of_mem hnt he, List.count_eq_one_of_mem hnt hft]
  · rw [List.count_eq_zero.mpr he]; exact Nat.zero_le _

/-- C152.  A task registered after the task of thread `i` with divisor `k` never overtakes it: its `m`-th run only begins when the task has ended `m * k` times. -/
theorem after_order (r : Nat) (prog : Nat → List Entry) (hw : Wf r prog) (is : List Nat) (i j : Nat) (k : Int) (l1 l2 : List Entry)
    (hl : prog i = l1 ++ .own i :: l2) (hm : Entry.async j k ∈ l2) (ho : Entry.own j ∈ prog j) :
    (exec r prog init is j).begins * k.toNat ≤ (exec r prog init is i).ends := by
  have h := inv_exec hw is (inv_init prog)
  generalize exec r prog init is = w at *
  have hmi : Entry.async j k ∈ prog i := by rw [hl]; simp [hm]
  have hoi : Entry.own i ∈ prog i := by rw [hl]; simp
  have h1 := h.calls i j k hmi
  have h2 := h.own i hoi
  have h3 := suffix_count (hl ▸ h.suffix i) (hl ▸ hw.nodup i) hm
  have h4 : (w j).starts * k.toNat ≤ (w j).calls := by
    refine Nat.le_trans (Nat.mul_le_mul_right _ ?_) (Nat.div_mul_le_self (w j).calls k.toNat)
    rw [← h.req i j k hmi]; simp only [requests]; omega
  have h5 := Nat.mul_le_mul_right k.toNat (begins_le h ho)
  omega

/-- C155.  A task registered before the task of thread `i` has been told to run as often as it has to before the task begins.  Missing: that it has run (`before_order_violated`). -/
theorem before_requested_partial (r : Nat) (prog : Nat → List Entry) (hw : Wf r prog) (is : List Nat) (i j : Nat) (k : Int) (l1 l2 : List Entry)
    (hl : prog i = l1 ++ .own i :: l2) (hm : Entry.async j k ∈ l1) : (exec r prog init is i).begins / k.toNat ≤ requests (exec r prog init is j) := by
  have h := inv_exec hw is (inv_init prog)
  generalize exec r prog init is = w at *
  have hmi : Entry.async j k ∈ prog i := by rw [hl]; simp [hm]
  have hoi : Entry.own i ∈ prog i := by rw [hl]; simp
  rw [h.req i j k hmi]
  apply Nat.div_le_div_right
  have h1 := h.calls i j k hmi
  have h2 := h.own i hoi
  have h3 := h.begins i
  have hn := hl ▸ hw.nodup i
  by_cases hin : (w i).inside = true
  · obtain ⟨rest, hr⟩ := h.inside i hin
    rw [hr, List.count_cons_self] at h2
    rw [hin] at h3
    -- the rest of the list is what follows the own task
    have hs := h.suffix i
    rw [hr, hl] at hs
    have hnot : Entry.async j k ∉ (w i).todo := by
      intro hc
      rw [hr] at hc
      have hc' : Entry.async j k ∈ rest := by simpa using hc
      obtain ⟨t, ht⟩ := hs
      have hcl := suffix_count (l1 := t) (l2 := rest) (todo := .own i :: l2) (e := .own i) (f := .async j k)
        (by rw [ht]; exact List.suffix_append _ _) (by rw [ht]; exact hn) hc'
      have : Entry.async j k ∈ Entry.own i :: l2 := by
        by_contra hcc
        rw [List.count_eq_zero.mpr hcc, List.count_cons_self] at hcl
        omega
      have hdis := (List.nodup_append.mp hn).2.2
      exact hdis _ hm _ this rfl
    rw [List.count_eq_zero.mpr hnot] at h1
    simp at h3
    omega
  · have hf : (w i).inside = false := by simpa using hin
    rw [hf] at h3
    simp at h3
    -- if the trigger is still in the list, so is the task
    have : (w i).todo.count (.async j k) ≤ (w i).todo.count (.own i) := by
      obtain ⟨a, b, rfl⟩ := List.append_of_mem hm
      have hl' : a ++ Entry.async j k :: (b ++ Entry.own i :: l2) = a ++ .async j k :: b ++ .own i :: l2 := by simp
      refine suffix_count (l1 := a) (l2 := b ++ .own i :: l2) ?_ ?_ (by simp)
      · rw [hl', ← hl]; exact h.suffix i
      · rw [hl']; exact hn
    omega

/-! ### What the threads need not do -/

/-- What stays the same for a thread which does not move itself. -/
def Idle (x y : Th) : Prop := y.begins = x.begins ∧ y.starts = x.starts ∧ y.async.pc = x.async.pc ∧ y.todo = x.todo

theorem call_idle (x : Th) (k : Int) : Idle x (call x k) := by
  refine ⟨rfl, rfl, ?_, rfl⟩
  simp only [call]
  split <;> rfl

/-- A thread can run its list to the end without the other threads. -/
theorem run_list {r : Nat} {prog : Nat → List Entry} (hw : Wf r prog) (i : Nat) (l : List Entry) : ∀ w : World, (w i).todo = l → l <:+ prog i →
    ∃ m, (exec r prog w (List.replicate m i) i).todo = [] ∧ (exec r prog w (List.replicate m i) i).starts = (w i).starts ∧
      (exec r prog w (List.replicate m i) i).async = (w i).async ∧ ∀ n, n ≠ i → Idle (w n) (exec r prog w (List.replicate m i) n) := by
  induction l with
  | nil => intro w hl _; exact ⟨0, by simpa [exec] using hl, rfl, rfl, fun _ _ => ⟨rfl, rfl, rfl, rfl⟩⟩
  | cons e l ih =>
    intro w hl hs
    have hs' : l <:+ prog i := (List.suffix_cons _ _).trans hs
    have hmem : e ∈ prog i := hs.subset (by simp)
    cases e with
    | async j k =>
      have hji := (hw.other i j k hmem).2
      have hstep : step r prog w i = set (set w j (call (w j) k)) i { w i with todo := l } := by simp [step, hl]
      obtain ⟨m, h1, h2, h3, h4⟩ := ih (step r prog w i) (by rw [hstep, set_same]) hs'
      refine ⟨m + 1, ?_⟩
      rw [List.replicate_succ]
      simp only [exec, List.foldl_cons] at h1 h2 h3 h4 ⊢
      refine ⟨h1, ?_, ?_, ?_⟩
      · rw [h2, hstep, set_same]
      · rw [h3, hstep, set_same]
      · intro n hn
        obtain ⟨a1, a2, a3, a4⟩ := h4 n hn
        rw [hstep] at a1 a2 a3 a4 ⊢
        rw [set_other _ _ hn] at a1 a2 a3 a4
        by_cases e : n = j
        · subst e
          rw [set_same] at a1 a2 a3 a4
          obtain ⟨b1, b2, b3, b4⟩ := call_idle (w n) k
          exact ⟨a1.trans b1, a2.trans b2, a3.trans b3, a4.trans b4⟩
        · rw [set_other _ _ e] at a1 a2 a3 a4
          exact ⟨a1, a2, a3, a4⟩
    | own x =>
      have key : ∀ v : World, (v i).todo = .own x :: l → (v i).inside = true → ∃ m, (exec r prog v (List.replicate m i) i).todo = [] ∧
          (exec r prog v (List.replicate m i) i).starts = (v i).starts ∧ (exec r prog v (List.replicate m i) i).async = (v i).async ∧
          ∀ n, n ≠ i → Idle (v n) (exec r prog v (List.replicate m i) n) := by
        intro v hv hin
        have hstep : step r prog v i = set v i { v i with inside := false, ends := (v i).ends + 1, todo := l } := by simp [step, hv, hin]
        obtain ⟨m, h1, h2, h3, h4⟩ := ih (step r prog v i) (by rw [hstep, set_same]) hs'
        refine ⟨m + 1, ?_⟩
        rw [List.replicate_succ]
        simp only [exec, List.foldl_cons] at h1 h2 h3 h4 ⊢
        refine ⟨h1, by rw [h2, hstep, set_same], by rw [h3, hstep, set_same], ?_⟩
        intro n hn
        have := h4 n hn
        rw [hstep] at this ⊢
        rw [set_other _ _ hn] at this
        exact this
      by_cases hin : (w i).inside = true
      · exact key w hl hin
      · have hstep : step r prog w i = set w i { w i with inside := true, begins := (w i).begins + 1 } := by simp [step, hl, hin]
        obtain ⟨m, h1, h2, h3, h4⟩ := key (step r prog w i) (by rw [hstep, set_same]; exact hl) (by rw [hstep, set_same])
        refine ⟨m + 1, ?_⟩
        rw [List.replicate_succ]
        simp only [exec, List.foldl_cons] at h1 h2 h3 h4 ⊢
        refine ⟨h1, by rw [h2, hstep, set_same], by rw [h3, hstep, set_same], ?_⟩
        intro n hn
        have := h4 n hn
        rw [hstep] at this ⊢
        rw [set_other _ _ hn] at this
        exact this

theorem exec_append (r : Nat) (prog : Nat → List Entry) (w : World) (a b : List Nat) : exec r prog w (a ++ b) = exec r prog (exec r prog w a) b := List.foldl_append ..

/-- The executor can run cycle after cycle without the other threads. -/
theorem solo_cycles {r : Nat} {prog : Nat → List Entry} (hw : Wf r prog) (n : Nat) :
    ∃ m, (exec r prog init (List.replicate m r) r).todo = [] ∧ (exec r prog init (List.replicate m r) r).starts = n ∧
      ∀ j, j ≠ r → Idle (init j) (exec r prog init (List.replicate m r) j) := by
  induction n with
  | zero => exact ⟨0, rfl, rfl, fun _ _ => ⟨rfl, rfl, rfl, rfl⟩⟩
  | succ n ih =>
    obtain ⟨m, h1, h2, h3⟩ := ih
    generalize hv : exec r prog init (List.replicate m r) = v at h1 h2 h3
    have hstep : step r prog v r = set v r { v r with todo := prog r, starts := (v r).starts + 1 } := by simp [step, h1]
    obtain ⟨m', g1, g2, g3, g4⟩ := run_list hw r (prog r) (step r prog v r) (by rw [hstep, set_same]) (List.suffix_refl _)
    have he : exec r prog init (List.replicate (m + (m' + 1)) r) = exec r prog (step r prog v r) (List.replicate m' r) := by
      rw [List.replicate_add, exec_append, hv, List.replicate_succ]; rfl
    refine ⟨m + (m' + 1), ?_, ?_, ?_⟩
    · rw [he]; exact g1
    · rw [he, g2, hstep, set_same, h2]
    · intro j hj
      rw [he]
      obtain ⟨a1, a2, a3, a4⟩ := g4 j hj
      rw [hstep] at a1 a2 a3 a4 ⊢
      rw [set_other _ _ hj] at a1 a2 a3 a4
      obtain ⟨b1, b2, b3, b4⟩ := h3 j hj
      exact ⟨a1.trans b1, a2.trans b2, a3.trans b3, a4.trans b4⟩

/-- C155 violated: the main task does not wait for the tasks which the executor runs before it.  In every tree of tasks and for every number `n` of cycles there is an execution in which the
main task has run `n` times and no other task has begun. -/
theorem before_order_violated (r : Nat) (prog : Nat → List Entry) (hw : Wf r prog) (ho : Entry.own r ∈ prog r) (n : Nat) :
    ∃ is, (exec r prog init is r).ends = n ∧ ∀ j, j ≠ r → (exec r prog init is j).begins = 0 := by
  obtain ⟨m, h1, h2, h3⟩ := solo_cycles hw n
  refine ⟨_, ?_, fun j hj => (h3 j hj).1⟩
  have := (inv_exec hw (List.replicate m r) (inv_init prog)).own r ho
  rw [h1, h2] at this
  simpa using this

/-- A thread with `c` permits can use them all without the other threads. -/
theorem drain {r : Nat} {prog : Nat → List Entry} (hw : Wf r prog) (j : Nat) (hj : j ≠ r) (c : Nat) : ∀ w : World, (w j).todo = [] → (w j).async = ⟨c, false, .waiting⟩ →
    ∃ m, (exec r prog w (List.replicate m j) j).todo = [] ∧ (exec r prog w (List.replicate m j) j).starts = (w j).starts + c ∧
      ∀ n, n ≠ j → (exec r prog w (List.replicate m j) n).starts = (w n).starts := by
  induction c with
  | zero => intro w h1 _; exact ⟨0, h1, rfl, fun _ _ => rfl⟩
  | succ c ih =>
    intro w h1 h2
    let w1 := set w j { w j with async := ⟨c, false, .testing⟩ }
    let w2 := set w1 j { w1 j with async := ⟨c, false, .about⟩ }
    let w3 := set w2 j { w2 j with async := ⟨c, false, .running⟩, todo := prog j, starts := (w2 j).starts + 1 }
    have e1 : step r prog w j = w1 := by simp [step, h1, hj, h2, Async.step, w1]
    have e2 : step r prog w1 j = w2 := by
      have : (w1 j).todo = [] := by simp only [w1, set_same]; exact h1
      have h' : (w1 j).async = ⟨c, false, .testing⟩ := by simp only [w1, set_same]
      simp [step, this, hj, h', Async.step, w2]
    have e3 : step r prog w2 j = w3 := by
      have : (w2 j).todo = [] := by simp only [w2, w1, set_same]; exact h1
      have h' : (w2 j).async = ⟨c, false, .about⟩ := by simp only [w2, set_same]
      simp [step, this, hj, h', Async.step, w3]
    obtain ⟨m, g1, g2, g3, g4⟩ := run_list hw j (prog j) w3 (by simp only [w3, set_same]) (List.suffix_refl _)
    generalize hv : exec r prog w3 (List.replicate m j) = v at g1 g2 g3 g4
    have g3' : (v j).async = ⟨c, false, .running⟩ := by rw [g3]; simp only [w3, set_same]
    have e4 : step r prog v j = set v j { v j with async := ⟨c, false, .waiting⟩ } := by simp [step, g1, hj, g3', Async.step]
    obtain ⟨m', k1, k2, k3⟩ := ih (step r prog v j) (by rw [e4, set_same]; exact g1) (by rw [e4, set_same])
    have he : exec r prog w (List.replicate (3 + (m + (1 + m'))) j) = exec r prog (step r prog v j) (List.replicate m' j) := by
      rw [List.replicate_add, exec_append, List.replicate_add, exec_append, List.replicate_add, exec_append]
      have : exec r prog w (List.replicate 3 j) = w3 := by
        simp only [exec, List.replicate, List.foldl_cons, List.foldl_nil, e1, e2, e3]
      rw [this, hv]; rfl
    refine ⟨3 + (m + (1 + m')), ?_, ?_, ?_⟩
    · rw [he]; exact k1
    · rw [he, k2, e4, set_same]
      simp only [g2, w3, w2, w1, set_same]
      omega
    · intro n hn
      rw [he, k3 n hn, e4, set_other _ _ hn, (g4 n hn).2.1]
      simp only [w3, w2, w1, set_other _ _ hn]

/-- C154 violated: a task may run many times within a cycle of the executor.  For every task triggered by the executor and every `n` there is an execution in which it has not begun at some
point and ends `n` times afterwards, while the executor begins no cycle. -/
theorem one_per_cycle_violated (r : Nat) (prog : Nat → List Entry) (hw : Wf r prog) (j : Nat) (k : Int) (hm : Entry.async j k ∈ prog r) (ho : Entry.own j ∈ prog j) (n : Nat) :
    ∃ before after, (exec r prog init before j).begins = 0 ∧ (exec r prog init (before ++ after) j).ends = n ∧
      (exec r prog init (before ++ after) r).starts = (exec r prog init before r).starts := by
  have hj := (hw.other r j k hm).1
  have hk := hw.pos r j k hm
  obtain ⟨m, h1, h2, h3⟩ := solo_cycles hw (n * k.toNat)
  have hi := inv_exec hw (List.replicate m r) (inv_init prog)
  obtain ⟨b1, b2, b3, b4⟩ := h3 j hj
  have hc := hi.calls r j k hm
  have hq := hi.req r j k hm
  have hf := hi.fin j
  generalize hv : exec r prog init (List.replicate m r) = v at *
  rw [h1, h2] at hc
  simp only [List.count_nil, Nat.add_zero] at hc
  rw [hc, Nat.mul_div_cancel _ (by omega)] at hq
  have b2' : (v j).starts = 0 := b2
  have b3' : (v j).async.pc = .waiting := b3
  have b4' : (v j).todo = [] := b4
  simp only [requests, b2', b3', Async.held] at hq
  have ha : (v j).async = ⟨n, false, .waiting⟩ := by
    cases hx : (v j).async with
    | mk c f pc =>
      rw [hx] at hq b3' hf
      simp only at hq b3' hf
      simp at hq
      rw [hq, hf, b3']
  obtain ⟨m', d1, d2, d3⟩ := drain hw j hj n v b4' ha
  refine ⟨List.replicate m r, List.replicate m' j, ?_, ?_, ?_⟩
  · rw [hv]; exact b1
  · have hi' := inv_exec hw (List.replicate m r ++ List.replicate m' j) (inv_init prog)
    have := hi'.own j ho
    rw [exec_append, hv] at this ⊢
    rw [d1, d2, b2'] at this
    simpa using this
  · rw [exec_append, hv]; exact d3 r (Ne.symm hj)

theorem below_pos {r : Nat} {prog : Nat → List Entry} (hw : Wf r prog) {j d : Nat} (h : Below r prog j d) : 1 ≤ d := by
  induction h with
  | root => exact Nat.le_refl 1
  | @child i d j k _ hm ih =>
    have := hw.pos _ _ _ hm
    exact Nat.mul_pos ih (show 0 < k.toNat by omega)

/-- C154, as far as it holds.  If all threads are idle at some point, then a task begins at most once from there until the executor begins its second cycle.  Missing: the same without
the idle point (`one_per_cycle_violated`). -/
theorem one_per_cycle_partial (r : Nat) (prog : Nat → List Entry) (hw : Wf r prog) (j d : Nat) (hb : Below r prog j d) (ho : Entry.own j ∈ prog j) (before after : List Nat)
    (hq : Quiet (exec r prog init before)) (hc : (exec r prog init (before ++ after) r).starts ≤ (exec r prog init before r).starts + 1) :
    (exec r prog init (before ++ after) j).begins ≤ (exec r prog init before j).begins + 1 := by
  have h1 := task_rate r prog hw (before ++ after) j d hb ho
  have h2 := task_count r prog hw before hq j d hb ho
  have h3 := (inv_exec hw before (inv_init prog)).begins j
  have hd := below_pos hw hb
  have h4 : (exec r prog init (before ++ after) j).begins ≤ ((exec r prog init before r).starts + 1) / d :=
    (Nat.le_div_iff_mul_le hd).mpr (Nat.le_trans h1 hc)
  have h5 : ((exec r prog init before r).starts + 1) / d ≤ (exec r prog init before r).starts / d + 1 := by
    rw [Nat.succ_div]; split <;> omega
  omega

/-! ### The lists which `createThreads` builds -/

section created
open Executor

variable {K : Type} [Field K] [LinearOrder K] [IsStrictOrderedRing K] [FloorRing K]

mutual
theorem created_divisor (base t : Executor.Task K) (r : List (Thread K) × Entry) (h : createThread base t = .ok r) : ∀ x ∈ withBase base t, ∃ k, divisor x.2 x.1 = .ok k := by
  match t with
  | .mk id period realtime nice before after =>
    unfold createThread at h
    simp only [bind, Except.bind, pure, Except.pure] at h
    split at h
    · simp at h
    · rename_i x1 h1
      split at h
      · simp at h
      · rename_i x2 h2
        split at h
        · simp at h
        · rename_i k hk
          intro x hx
          simp only [withBase, List.mem_cons, List.mem_append] at hx
          rcases hx with rfl | hx | hx
          · exact ⟨k, hk⟩
          · exact created_divisors _ before x1 h1 x hx
          · exact created_divisors _ after x2 h2 x hx
theorem created_divisors (base : Executor.Task K) (ts : List (Executor.Task K)) (r : List (Thread K) × List Entry) (h : createThreads base ts = .ok r) :
    ∀ x ∈ withBaseAll base ts, ∃ k, divisor x.2 x.1 = .ok k := by
  match ts with
  | [] => simp [withBaseAll]
  | t :: ts =>
    unfold createThreads at h
    simp only [bind, Except.bind, pure, Except.pure] at h
    split at h
    · simp at h
    · rename_i x1 h1
      split at h
      · simp at h
      · rename_i x2 h2
        intro x hx
        simp only [withBaseAll, List.mem_append] at hx
        rcases hx with hx | hx
        · exact created_divisor base t x1 h1 x hx
        · exact created_divisors base ts x2 h2 x hx
end

theorem top_mem (base : Executor.Task K) (ts : List (Executor.Task K)) {b : Executor.Task K} (h : b ∈ ts) : (base, b) ∈ withBaseAll base ts := by
  induction ts with
  | nil => simp at h
  | cons t ts ih =>
    simp only [withBaseAll, List.mem_append]
    rcases List.mem_cons.mp h with rfl | h
    · left
      cases b
      simp [withBase]
    · exact Or.inr (ih h)

mutual
theorem child_mem (base t : Executor.Task K) : ∀ x ∈ withBase base t, ∀ b ∈ x.2.before ++ x.2.after, (x.2, b) ∈ withBase base t := by
  match t with
  | .mk id period realtime nice before after =>
    intro x hx b hb
    simp only [withBase, List.mem_cons, List.mem_append] at hx ⊢
    rcases hx with rfl | hx | hx
    · simp only [Task.before, Task.after, List.mem_append] at hb
      rcases hb with hb | hb
      · exact Or.inr (Or.inl (top_mem _ _ hb))
      · exact Or.inr (Or.inr (top_mem _ _ hb))
    · exact Or.inr (Or.inl (child_mem_all _ before x hx b hb))
    · exact Or.inr (Or.inr (child_mem_all _ after x hx b hb))
theorem child_mem_all (base : Executor.Task K) (ts : List (Executor.Task K)) : ∀ x ∈ withBaseAll base ts, ∀ b ∈ x.2.before ++ x.2.after, (x.2, b) ∈ withBaseAll base ts := by
  match ts with
  | [] => simp [withBaseAll]
  | t :: ts =>
    intro x hx b hb
    simp only [withBaseAll, List.mem_append] at hx ⊢
    rcases hx with hx | hx
    · exact Or.inl (child_mem base t x hx b hb)
    · exact Or.inr (child_mem_all base ts x hx b hb)
end

theorem ids_sublist (base : Executor.Task K) (ts : List (Executor.Task K)) : (ts.map Task.id).Sublist ((withBaseAll base ts).map (fun x => x.2.id)) := by
  induction ts with
  | nil => simp
  | cons t ts ih =>
    simp only [withBaseAll, List.map_cons, List.map_append]
    cases t
    simp only [withBase, List.map_cons, Task.id, List.cons_append]
    exact List.Sublist.cons_cons _ (ih.trans (List.sublist_append_right _ _))

mutual
theorem children_sublist (base t : Executor.Task K) : ∀ x ∈ withBase base t, ((x.2.before ++ x.2.after).map Task.id).Sublist ((withBase base t).map (fun x => x.2.id)) := by
  match t with
  | .mk id period realtime nice before after =>
    intro x hx
    simp only [withBase, List.mem_cons, List.mem_append] at hx
    simp only [withBase, List.map_cons, List.map_append]
    rcases hx with rfl | hx | hx
    · exact List.Sublist.cons _ ((ids_sublist _ _).append (ids_sublist _ _))
    · have := children_sublist_all _ before x hx
      rw [List.map_append] at this
      exact List.Sublist.cons _ (this.trans (List.sublist_append_left _ _))
    · have := children_sublist_all _ after x hx
      rw [List.map_append] at this
      exact List.Sublist.cons _ (this.trans (List.sublist_append_right _ _))
theorem children_sublist_all (base : Executor.Task K) (ts : List (Executor.Task K)) :
    ∀ x ∈ withBaseAll base ts, ((x.2.before ++ x.2.after).map Task.id).Sublist ((withBaseAll base ts).map (fun x => x.2.id)) := by
  match ts with
  | [] => simp [withBaseAll]
  | t :: ts =>
    intro x hx
    simp only [withBaseAll, List.mem_append] at hx
    simp only [withBaseAll, List.map_append]
    rcases hx with hx | hx
    · have := children_sublist base t x hx
      rw [List.map_append] at this
      exact this.trans (List.sublist_append_left _ _)
    · have := children_sublist_all base ts x hx
      rw [List.map_append] at this
      exact this.trans (List.sublist_append_right _ _)
end

theorem child_smaller (t b : Executor.Task K) (h : b ∈ t.before ++ t.after) : sizeOf b < sizeOf t := by
  cases t with
  | mk id period realtime nice before after =>
    simp only [Task.before, Task.after, List.mem_append] at h
    rcases h with h | h
    · have := List.sizeOf_lt_of_mem h
      simp; omega
    · have := List.sizeOf_lt_of_mem h
      simp; omega

theorem nodup_inj {α : Type} {l : List α} {f : α → Nat} (h : (l.map f).Nodup) {x y : α} (hx : x ∈ l) (hy : y ∈ l) (he : f x = f y) : x = y :=
  List.inj_on_of_nodup_map h hx hy he

/-- What a list contains: nothing, the list of the executor, or the list of a task of the tree. -/
theorem lists_cases (base : Executor.Task K) (ts : List (Executor.Task K)) (threads : List (Thread K)) (out : List Entry) (h : createThreads base ts = .ok (threads, out)) (i : Nat) :
    (i = base.id ∧ lists base threads out i = ts.map (fun t => Entry.async t.id (kOf base t)) ++ [.own i]) ∨
    (i ≠ base.id ∧ ∃ x ∈ withBaseAll base ts, x.2.id = i ∧ lists base threads out i =
      x.2.before.map (fun b => Entry.async b.id (kOf x.2 b)) ++ [.own i] ++ x.2.after.map (fun a => Entry.async a.id (kOf x.2 a))) ∨
    (i ≠ base.id ∧ (∀ x ∈ withBaseAll base ts, x.2.id ≠ i) ∧ lists base threads out i = []) := by
  obtain ⟨hp, he⟩ := createThreads_spec base ts _ h
  simp only at hp he
  by_cases hb : i = base.id
  · left; exact ⟨hb, by rw [lists, if_pos hb, he, hb]⟩
  · right
    cases hf : threads.find? (fun t => t.id = i) with
    | none =>
      right
      refine ⟨hb, ?_, by simp [lists, hb, hf]⟩
      intro x hx hxi
      have hm : expectedThread x.1 x.2 ∈ threads := hp.mem_iff.mpr (List.mem_map.mpr ⟨x, hx, rfl⟩)
      have := List.find?_eq_none.mp hf _ hm
      simp [expectedThread, hxi] at this
    | some t =>
      left
      have hm := List.mem_of_find?_eq_some hf
      have hid := List.find?_some hf
      obtain ⟨x, hx, rfl⟩ := List.mem_map.mp (hp.mem_iff.mp hm)
      simp [expectedThread] at hid
      refine ⟨hb, x, hx, hid, ?_⟩
      simp only [lists, hb, if_false, hf]
      simp [expectedThread, hid]

/-- The lists of the threads which the executor creates for a forest of tasks with positive periods form a tree (tasks are told apart by their identities). -/
theorem created_wf (base : Executor.Task K) (ts : List (Executor.Task K)) (threads : List (Thread K)) (out : List Entry) (h : createThreads base ts = .ok (threads, out))
    (hn : (base.id :: (flatAll ts).map Task.id).Nodup) (hb : 0 < base.period) (hpos : ∀ t ∈ flatAll ts, 0 < t.period) : Wf base.id (lists base threads out) := by
  have hids : ((withBaseAll base ts).map (fun x => x.2.id)).Nodup := by
    have := (List.nodup_cons.mp hn).2
    rwa [← withBaseAll_snd base ts, List.map_map] at this
  have hbase : ∀ x ∈ withBaseAll base ts, x.2.id ≠ base.id := by
    intro x hx he
    apply (List.nodup_cons.mp hn).1
    rw [← withBaseAll_snd base ts, List.map_map]
    exact List.mem_map.mpr ⟨x, hx, he⟩
  have hdiv := created_divisors base ts _ h
  have hperiod : ∀ x ∈ withBaseAll base ts, 0 < x.2.period := by
    intro x hx
    apply hpos
    rw [← withBaseAll_snd base ts]
    exact List.mem_map.mpr ⟨x, hx, rfl⟩
  -- where an entry comes from
  have from_ : ∀ i j k, Entry.async j k ∈ lists base threads out i → ∃ p b, (p, b) ∈ withBaseAll base ts ∧ b.id = j ∧ k = kOf p b ∧ p.id = i ∧
      (p = base ∨ ∃ q, (q, p) ∈ withBaseAll base ts ∧ b ∈ p.before ++ p.after) := by
    intro i j k hm
    rcases lists_cases base ts threads out h i with ⟨e, hl⟩ | ⟨e, x, hx, hxi, hl⟩ | ⟨e, _, hl⟩
    · rw [hl] at hm
      simp only [List.mem_append, List.mem_map, List.mem_singleton] at hm
      rcases hm with ⟨b, hbm, hbe⟩ | hm
      · injection hbe with h1 h2
        exact ⟨base, b, top_mem base ts hbm, h1, h2.symm, e.symm, Or.inl rfl⟩
      · simp at hm
    · rw [hl] at hm
      simp only [List.mem_append, List.mem_map, List.mem_singleton] at hm
      rcases hm with (⟨b, hbm, hbe⟩ | hm) | ⟨b, hbm, hbe⟩
      · injection hbe with h1 h2
        have hb' : b ∈ x.2.before ++ x.2.after := by simp [hbm]
        exact ⟨x.2, b, child_mem_all base ts x hx b hb', h1, h2.symm, hxi, Or.inr ⟨x.1, hx, hb'⟩⟩
      · simp at hm
      · injection hbe with h1 h2
        have hb' : b ∈ x.2.before ++ x.2.after := by simp [hbm]
        exact ⟨x.2, b, child_mem_all base ts x hx b hb', h1, h2.symm, hxi, Or.inr ⟨x.1, hx, hb'⟩⟩
    · rw [hl] at hm; simp at hm
  refine ⟨?_, ?_, ?_, ?_, ?_⟩
  · intro i j k hm
    obtain ⟨p, b, hpb, hbj, -, hpi, hor⟩ := from_ i j k hm
    have hjr : j ≠ base.id := by rw [← hbj]; exact hbase _ hpb
    refine ⟨hjr, ?_⟩
    intro hji
    rcases hor with rfl | ⟨q, hq, hch⟩
    · exact hjr (hji.trans hpi.symm)
    · have := nodup_inj hids hpb hq (show b.id = p.id by rw [hbj, hji, hpi])
      injection this with _ h2
      have := child_smaller p b hch
      rw [h2] at this
      omega
  · intro i i' j k k' hm hm'
    obtain ⟨p, b, hpb, hbj, hk, hpi, -⟩ := from_ i j k hm
    obtain ⟨p', b', hpb', hbj', hk', hpi', -⟩ := from_ i' j k' hm'
    have := nodup_inj hids hpb hpb' (show b.id = b'.id by rw [hbj, hbj'])
    injection this with h1 h2
    subst h1; subst h2
    exact ⟨hpi.symm.trans hpi', hk.trans hk'.symm⟩
  · intro i
    have key : ∀ (l : List (Executor.Task K)) (g : Executor.Task K → Int), (l.map Task.id).Nodup → (l.map (fun b => Entry.async b.id (g b))).Nodup := by
      intro l g hl
      apply List.Nodup.of_map (fun e => match e with | Entry.async j _ => j | Entry.own x => x)
      rw [List.map_map]; exact hl
    rcases lists_cases base ts threads out h i with ⟨e, hl⟩ | ⟨e, x, hx, hxi, hl⟩ | ⟨e, _, hl⟩
    · rw [hl, List.nodup_append]
      refine ⟨key ts _ (hids.sublist (ids_sublist base ts)), by simp, ?_⟩
      intro a ha b hb'
      simp only [List.mem_map] at ha
      obtain ⟨t, -, rfl⟩ := ha
      simp only [List.mem_singleton] at hb'
      subst hb'; simp
    · rw [hl]
      have hch := hids.sublist (children_sublist_all base ts x hx)
      have hk := key (x.2.before ++ x.2.after) (kOf x.2) hch
      rw [List.map_append, List.nodup_append] at hk
      obtain ⟨k1, k2, k3⟩ := hk
      rw [List.nodup_append]
      refine ⟨?_, k2, ?_⟩
      · rw [List.nodup_append]
        refine ⟨k1, by simp, ?_⟩
        intro a ha b hb'
        simp only [List.mem_map] at ha
        obtain ⟨t, -, rfl⟩ := ha
        simp only [List.mem_singleton] at hb'
        subst hb'; simp
      · intro a ha b hb'
        rcases List.mem_append.mp ha with ha | ha
        · exact k3 a ha b hb'
        · simp only [List.mem_map] at hb'
          obtain ⟨t, -, rfl⟩ := hb'
          simp only [List.mem_singleton] at ha
          subst ha; simp
    · rw [hl]; exact List.nodup_nil
  · intro i x hm
    rcases lists_cases base ts threads out h i with ⟨e, hl⟩ | ⟨e, y, hy, hyi, hl⟩ | ⟨e, _, hl⟩
    · rw [hl] at hm; simpa using hm
    · rw [hl] at hm; simpa using hm
    · rw [hl] at hm; simp at hm
  · intro i j k hm
    obtain ⟨p, b, hpb, hbj, hk, hpi, hor⟩ := from_ i j k hm
    obtain ⟨k0, hk0⟩ := hdiv _ hpb
    simp only at hk0
    have hpp : 0 < p.period := by
      rcases hor with rfl | ⟨q, hq, -⟩
      · exact hb
      · exact hperiod _ hq
    have hbp := hperiod _ hpb
    simp only at hbp
    rw [hk]
    rw [← divisor_ok_k hk0]
    exact (accepted_period b p hbp hpp k0 hk0).1

/-- Every task runs its own task in its own thread. -/
theorem created_own (base : Executor.Task K) (ts : List (Executor.Task K)) (threads : List (Thread K)) (out : List Entry) (h : createThreads base ts = .ok (threads, out))
    (t : Executor.Task K) (ht : t ∈ flatAll ts) : Entry.own t.id ∈ lists base threads out t.id := by
  rcases lists_cases base ts threads out h t.id with ⟨e, hl⟩ | ⟨e, y, hy, hyi, hl⟩ | ⟨e, hno, hl⟩
  · rw [hl]; simp
  · rw [hl]; simp
  · rw [← withBaseAll_snd base ts] at ht
    obtain ⟨x, hx, rfl⟩ := List.mem_map.mp ht
    exact absurd rfl (hno x hx)

mutual
theorem below_task (r : Nat) (prog : Nat → List Entry) (base t : Executor.Task K) (u : K) (d : Nat) (hd : Below r prog base.id d) (hu : (d : K) * u = base.period)
    (hprog : ∀ x ∈ withBase base t, Entry.async x.2.id (kOf x.1 x.2) ∈ prog x.1.id ∧ 1 ≤ kOf x.1 x.2 ∧ x.2.period = (kOf x.1 x.2 : K) * x.1.period) :
    ∀ x ∈ withBase base t, ∃ d, Below r prog x.2.id d ∧ (d : K) * u = x.2.period := by
  match t with
  | .mk id period realtime nice before after =>
    simp only [withBase, List.mem_cons, List.mem_append] at hprog ⊢
    obtain ⟨p1, p2, p3⟩ := hprog _ (Or.inl rfl)
    simp only at p1 p2 p3
    have hb := Below.child hd p1
    have he : ((d * (kOf base (.mk id period realtime nice before after)).toNat : Nat) : K) * u = (Task.mk id period realtime nice before after).period := by
      rw [p3, ← hu, Nat.cast_mul]
      have : (((kOf base (.mk id period realtime nice before after)).toNat : Nat) : K) = ((kOf base (.mk id period realtime nice before after) : Int) : K) := by
        rw [← Int.cast_natCast, Int.toNat_of_nonneg (by omega)]
      rw [this]; ring
    rintro x (rfl | hx | hx)
    · exact ⟨_, hb, he⟩
    · exact below_tasks r prog _ before u _ hb he (fun y hy => hprog y (Or.inr (Or.inl hy))) x hx
    · exact below_tasks r prog _ after u _ hb he (fun y hy => hprog y (Or.inr (Or.inr hy))) x hx
theorem below_tasks (r : Nat) (prog : Nat → List Entry) (base : Executor.Task K) (ts : List (Executor.Task K)) (u : K) (d : Nat) (hd : Below r prog base.id d)
    (hu : (d : K) * u = base.period)
    (hprog : ∀ x ∈ withBaseAll base ts, Entry.async x.2.id (kOf x.1 x.2) ∈ prog x.1.id ∧ 1 ≤ kOf x.1 x.2 ∧ x.2.period = (kOf x.1 x.2 : K) * x.1.period) :
    ∀ x ∈ withBaseAll base ts, ∃ d, Below r prog x.2.id d ∧ (d : K) * u = x.2.period := by
  match ts with
  | [] => simp [withBaseAll]
  | t :: ts =>
    simp only [withBaseAll, List.mem_append] at hprog ⊢
    rintro x (hx | hx)
    · exact below_task r prog base t u d hd hu (fun y hy => hprog y (Or.inl hy)) x hx
    · exact below_tasks r prog base ts u d hd hu (fun y hy => hprog y (Or.inr hy)) x hx
end

mutual
/-- An entry for every task in the list of its base task. -/
theorem entry_task (base t : Executor.Task K) : ∀ x ∈ withBase base t, x = (base, t) ∨ ∃ y ∈ withBase base t, x.1 = y.2 ∧ x.2 ∈ y.2.before ++ y.2.after := by
  match t with
  | .mk id period realtime nice before after =>
    intro x hx
    simp only [withBase, List.mem_cons, List.mem_append] at hx ⊢
    rcases hx with rfl | hx | hx
    · exact Or.inl rfl
    · right
      rcases entry_tasks _ before x hx with ⟨h1, h2⟩ | ⟨y, hy, h1, h2⟩
      · exact ⟨_, Or.inl rfl, h1, by simp [Task.before, h2]⟩
      · exact ⟨y, Or.inr (Or.inl hy), h1, List.mem_append.mp h2⟩
    · right
      rcases entry_tasks _ after x hx with ⟨h1, h2⟩ | ⟨y, hy, h1, h2⟩
      · exact ⟨_, Or.inl rfl, h1, by simp [Task.after, h2]⟩
      · exact ⟨y, Or.inr (Or.inr hy), h1, List.mem_append.mp h2⟩
theorem entry_tasks (base : Executor.Task K) (ts : List (Executor.Task K)) :
    ∀ x ∈ withBaseAll base ts, (x.1 = base ∧ x.2 ∈ ts) ∨ ∃ y ∈ withBaseAll base ts, x.1 = y.2 ∧ x.2 ∈ y.2.before ++ y.2.after := by
  match ts with
  | [] => simp [withBaseAll]
  | t :: ts =>
    intro x hx
    simp only [withBaseAll, List.mem_append] at hx ⊢
    rcases hx with hx | hx
    · rcases entry_task base t x hx with rfl | ⟨y, hy, h1, h2⟩
      · exact Or.inl ⟨rfl, by simp⟩
      · exact Or.inr ⟨y, Or.inl hy, h1, List.mem_append.mp h2⟩
    · rcases entry_tasks base ts x hx with ⟨h1, h2⟩ | ⟨y, hy, h1, h2⟩
      · exact Or.inl ⟨h1, by simp [h2]⟩
      · exact Or.inr ⟨y, Or.inr hy, h1, List.mem_append.mp h2⟩
end

theorem created_below (base : Executor.Task K) (ts : List (Executor.Task K)) (threads : List (Thread K)) (out : List Entry) (h : createThreads base ts = .ok (threads, out))
    (hn : (base.id :: (flatAll ts).map Task.id).Nodup) (hb : 0 < base.period) (hpos : ∀ t ∈ flatAll ts, 0 < t.period)
    (hx : ∀ x ∈ withBaseAll base ts, ∃ n : Nat, x.2.period = n * x.1.period) (t : Executor.Task K) (ht : t ∈ flatAll ts) :
    ∃ d, Below base.id (lists base threads out) t.id d ∧ (d : K) * base.period = t.period := by
  have hids : ((withBaseAll base ts).map (fun x => x.2.id)).Nodup := by
    have := (List.nodup_cons.mp hn).2
    rwa [← withBaseAll_snd base ts, List.map_map] at this
  have hbase : ∀ x ∈ withBaseAll base ts, x.2.id ≠ base.id := by
    intro x hx he
    apply (List.nodup_cons.mp hn).1
    rw [← withBaseAll_snd base ts, List.map_map]
    exact List.mem_map.mpr ⟨x, hx, he⟩
  have hperiod : ∀ x ∈ withBaseAll base ts, 0 < x.2.period := by
    intro x hx
    apply hpos
    rw [← withBaseAll_snd base ts]
    exact List.mem_map.mpr ⟨x, hx, rfl⟩
  rw [← withBaseAll_snd base ts] at ht
  obtain ⟨x, hxm, rfl⟩ := List.mem_map.mp ht
  refine below_tasks base.id (lists base threads out) base ts base.period 1 Below.root (by simp) ?_ x hxm
  intro x hxm
  have hent := entry_tasks base ts x hxm
  have hp1 : 0 < x.1.period := by
    rcases hent with ⟨h1, -⟩ | ⟨y, hy, h1, -⟩
    · rw [h1]; exact hb
    · rw [h1]; exact hperiod y hy
  obtain ⟨n, hnx⟩ := hx x hxm
  obtain ⟨k, hk⟩ := created_divisors base ts _ h x hxm
  have hk1 := (accepted_period x.2 x.1 (hperiod x hxm) hp1 k hk).1
  have hkk : kOf x.1 x.2 = n := by
    rw [kOf, hnx, mul_div_cancel_right₀ _ hp1.ne', trunc, if_pos (Nat.cast_nonneg n)]
    simp
  refine ⟨?_, ?_, ?_⟩
  · rcases hent with ⟨h1, h2⟩ | ⟨y, hy, h1, h2⟩
    · rcases lists_cases base ts threads out h x.1.id with ⟨e, hl⟩ | ⟨e, _⟩ | ⟨e, _⟩
      · rw [hl, h1]; simp only [List.mem_append, List.mem_map]; exact Or.inl ⟨x.2, h2, rfl⟩
      · exact absurd (by rw [h1]) e
      · exact absurd (by rw [h1]) e
    · rcases lists_cases base ts threads out h x.1.id with ⟨e, hl⟩ | ⟨e, z, hz, hzi, hl⟩ | ⟨e, hno, _⟩
      · rw [h1] at e; exact absurd e (hbase y hy)
      · have : z = y := nodup_inj hids hz hy (by rw [hzi, h1])
        subst this
        rw [hl, h1]
        simp only [List.mem_append, List.mem_map, List.mem_singleton]
        rcases List.mem_append.mp h2 with h2 | h2
        · exact Or.inl (Or.inl ⟨x.2, h2, rfl⟩)
        · exact Or.inr ⟨x.2, h2, rfl⟩
      · exact absurd (by rw [h1]) (hno y hy)
  · rw [← divisor_ok_k hk]; exact hk1
  · rw [hkk]; simpa using hnx

/-- C153 for the threads which the executor creates: if all periods are multiples of the period of the task they are based on, then at any time a task has begun at most as often as its period
fits into the cycles of the executor. -/
theorem created_rate (base : Executor.Task K) (ts : List (Executor.Task K)) (threads : List (Thread K)) (out : List Entry) (h : createThreads base ts = .ok (threads, out))
    (hn : (base.id :: (flatAll ts).map Task.id).Nodup) (hb : 0 < base.period) (hpos : ∀ t ∈ flatAll ts, 0 < t.period)
    (hx : ∀ x ∈ withBaseAll base ts, ∃ n : Nat, x.2.period = n * x.1.period) (t : Executor.Task K) (ht : t ∈ flatAll ts) (is : List Nat) :
    ((exec base.id (lists base threads out) init is t.id).begins : K) * t.period ≤ (exec base.id (lists base threads out) init is base.id).starts * base.period := by
  obtain ⟨d, hd, he⟩ := created_below base ts threads out h hn hb hpos hx t ht
  have := task_rate base.id _ (created_wf base ts threads out h hn hb hpos) is t.id d hd (created_own base ts threads out h t ht)
  rw [← he, ← mul_assoc]
  refine mul_le_mul_of_nonneg_right ?_ hb.le
  exact_mod_cast this

end created

/-! ### Example: the executor with main task 0 triggers task 1 in every second cycle; task 2 is registered before task 1, task 3 after it with divisor 2 -/

def sample : Nat → List Entry
  | 0 => [.async 1 2, .own 0]
  | 1 => [.async 2 1, .own 1, .async 3 2]
  | 2 => [.own 2]
  | 3 => [.own 3]
  | _ => []

theorem sample_wf : Wf 0 sample := by
  have other : ∀ i j k, Entry.async j k ∈ sample i → (i = 0 ∧ j = 1 ∧ k = 2) ∨ (i = 1 ∧ j = 2 ∧ k = 1) ∨ (i = 1 ∧ j = 3 ∧ k = 2) := by
    intro i j k h
    match i with
    | 0 => simp [sample] at h; omega
    | 1 => simp [sample] at h; omega
    | 2 => simp [sample] at h
    | 3 => simp [sample] at h
    | n + 4 => simp [sample] at h
  refine ⟨?_, ?_, ?_, ?_, ?_⟩
  · intro i j k h; have := other i j k h; omega
  · intro i i' j k k' h h'; have := other i j k h; have := other i' j k' h'; omega
  · intro i
    match i with
    | 0 => simp [sample]
    | 1 => simp [sample]
    | 2 => simp [sample]
    | 3 => simp [sample]
    | n + 4 => simp [sample]
  · intro i x h
    match i with
    | 0 => simpa [sample] using h
    | 1 => simpa [sample] using h
    | 2 => simpa [sample] using h
    | 3 => simpa [sample] using h
    | n + 4 => simp [sample] at h
  · intro i j k h; have := other i j k h; omega

theorem sample_below : Below 0 sample 3 4 :=
  Below.child (i := 1) (d := 2) (k := 2) (Below.child (i := 0) (d := 1) (k := 2) Below.root (by simp [sample])) (by simp [sample])

/-- Four cycles of the executor with everything each thread has to do in them. -/
def four : List Nat := List.replicate 20 0 ++ List.replicate 20 1 ++ List.replicate 20 2 ++ List.replicate 20 3

example : ((exec 0 sample init four 3).begins, (exec 0 sample init four 1).ends, (exec 0 sample init four 2).ends, (exec 0 sample init four 0).starts) = (1, 2, 2, 5) := by decide +kernel
example (is : List Nat) : (exec 0 sample init is 3).begins * 4 ≤ (exec 0 sample init is 0).starts := task_rate 0 sample sample_wf is 3 4 sample_below (by simp [sample])
example (is : List Nat) : (exec 0 sample init is 3).begins * 2 ≤ (exec 0 sample init is 1).ends :=
  after_order 0 sample sample_wf is 1 3 2 [.async 2 1] [.async 3 2] rfl (by simp) (by simp [sample])
example (is : List Nat) : (exec 0 sample init is 1).begins / 1 ≤ requests (exec 0 sample init is 2) :=
  before_requested_partial 0 sample sample_wf is 1 2 1 [.async 2 1] [.async 3 2] rfl (by simp)
example : ∃ is, (exec 0 sample init is 0).ends = 9 ∧ ∀ j, j ≠ 0 → (exec 0 sample init is j).begins = 0 := before_order_violated 0 sample sample_wf (by simp [sample]) 9
example : ∃ before after, (exec 0 sample init before 1).begins = 0 ∧ (exec 0 sample init (before ++ after) 1).ends = 7 ∧
    (exec 0 sample init (before ++ after) 0).starts = (exec 0 sample init before 0).starts := one_per_cycle_violated 0 sample sample_wf 1 2 (by simp [sample]) (by simp [sample]) 7
/-- The same inside the tree: task 1 has run twice, task 2 which is registered before it has not begun. -/
example : (exec 0 sample init (List.replicate 20 0 ++ List.replicate 20 1) 1).ends = 2 ∧ (exec 0 sample init (List.replicate 20 0 ++ List.replicate 20 1) 2).begins = 0 := by decide +kernel

theorem untouched {r : Nat} {prog : Nat → List Entry} (hw : Wf r prog) (i : Nat) (hi : ∀ a j k, Entry.async j k ∈ prog a → j ≠ i) (is : List Nat) (h : i ∉ is) :
    ∀ w, Inv prog w → exec r prog w is i = w i := by
  induction is with
  | nil => intro w _; rfl
  | cons a is ih =>
    intro w hv
    have ha : i ≠ a := fun e => h (by simp [e])
    have := ih (fun hc => h (by simp [hc])) (step r prog w a) (inv_step hw hv a)
    simp only [exec, List.foldl_cons] at this ⊢
    rw [this]
    cases ht : (w a).todo with
    | nil =>
      by_cases har : a = r
      · simp only [step, ht, if_pos har]; rw [set_other _ _ ha]
      · simp only [step, ht, if_neg har]
        cases (Async.step (w a).async .worker).2 <;> simp only <;> rw [set_other _ _ ha]
    | cons e rest =>
      cases e with
      | async j k =>
        have := hi a j k ((hv.suffix a).subset (by rw [ht]; simp))
        simp only [step, ht]
        rw [set_other _ _ ha, set_other _ _ (Ne.symm this)]
      | own x =>
        by_cases hin : (w a).inside = true
        · simp only [step, ht, if_pos hin]; rw [set_other _ _ ha]
        · simp only [step, ht, if_neg hin]; rw [set_other _ _ ha]

theorem sample_quiet : Quiet (exec 0 sample init four) := by
  intro i
  match i with
  | 0 => decide +kernel
  | 1 => decide +kernel
  | 2 => decide +kernel
  | 3 => decide +kernel
  | n + 4 =>
    rw [untouched sample_wf (n + 4) (by
      intro a j k h
      match a with
      | 0 => simp [sample] at h; omega
      | 1 => simp [sample] at h; omega
      | 2 => simp [sample] at h
      | 3 => simp [sample] at h
      | m + 4 => simp [sample] at h) four (by simp [four]) init (inv_init _)]
    exact ⟨rfl, rfl, rfl⟩

example : (exec 0 sample init four 3).ends = (exec 0 sample init four 0).starts / 4 :=
  task_count 0 sample sample_wf four sample_quiet 3 4 sample_below (by simp [sample])

/-- From the idle point after five cycles to the next cycle. -/
example (after : List Nat) (hc : (exec 0 sample init (four ++ after) 0).starts ≤ 6) : (exec 0 sample init (four ++ after) 3).begins ≤ 2 := by
  have h5 : (exec 0 sample init four 0).starts = 5 := by decide +kernel
  have h1 : (exec 0 sample init four 3).begins = 1 := by decide +kernel
  have := one_per_cycle_partial 0 sample sample_wf 3 4 sample_below (by simp [sample]) four after sample_quiet (by rw [h5]; exact hc)
  rwa [h1] at this

section
open Executor
/-- The same tree, created by the executor: task 3 with period 4 under a base period of 1. -/
example : ∃ threads out, createThreads (Task.mk 0 (1 : ℚ) true 1 [] []) [.mk 1 2 true 1 [.mk 2 2 true 2 [] []] [.mk 3 4 false (-1) [] []]] = .ok (threads, out) ∧
    ∀ is, ((exec 0 (lists (Task.mk 0 (1 : ℚ) true 1 [] []) threads out) init is 3).begins : ℚ) * 4 ≤
      (exec 0 (lists (Task.mk 0 (1 : ℚ) true 1 [] []) threads out) init is 0).starts * 1 := by
  have d1 : divisor (Task.mk 2 (2:ℚ) true 2 [] []) (.mk 1 2 true 1 [.mk 2 2 true 2 [] []] [.mk 3 4 false (-1) [] []]) = .ok 1 :=
    multiple_accepted _ _ 1 (by decide) (by decide) (by simp [Task.period]) (by simp [Task.period]) (by simp [Task.nice])
  have d2 : divisor (Task.mk 3 (4:ℚ) false (-1) [] []) (.mk 1 2 true 1 [.mk 2 2 true 2 [] []] [.mk 3 4 false (-1) [] []]) = .ok 2 :=
    multiple_accepted _ _ 2 (by decide) (by decide) (by simp [Task.period]) (by simp [Task.period]; norm_num) (by simp [Task.realtime])
  have d3 : divisor (.mk 1 2 true 1 [.mk 2 2 true 2 [] []] [.mk 3 4 false (-1) [] []]) (Task.mk 0 (1 : ℚ) true 1 [] []) = .ok 2 :=
    multiple_accepted _ _ 2 (by decide) (by decide) (by simp [Task.period]) (by simp [Task.period]) (by simp [Task.nice])
  have hc : ∃ threads out, createThreads (Task.mk 0 (1 : ℚ) true 1 [] []) [.mk 1 2 true 1 [.mk 2 2 true 2 [] []] [.mk 3 4 false (-1) [] []]] = .ok (threads, out) :=
    ⟨_, _, by simp [createThreads, createThread, d1, d2, d3, bind, Except.bind, pure, Except.pure]; exact ⟨rfl, rfl⟩⟩
  obtain ⟨threads, out, h⟩ := hc
  refine ⟨threads, out, h, fun is => ?_⟩
  refine created_rate (Task.mk 0 (1 : ℚ) true 1 [] []) _ threads out h ?_ (by simp [Task.period]) ?_ ?_ (.mk 3 4 false (-1) [] []) (by simp [flatAll, flat]) is
  · simp [flatAll, flat, Task.id]
  · intro t ht
    simp [flatAll, flat] at ht
    rcases ht with rfl | rfl | rfl <;> simp [Task.period]
  · intro x hx
    simp [withBaseAll, withBase] at hx
    rcases hx with rfl | rfl | rfl
    · exact ⟨2, by simp [Task.period]⟩
    · exact ⟨1, by simp [Task.period]⟩
    · exact ⟨2, by simp [Task.period]; norm_num⟩
end

end Verif.Core.Threads
