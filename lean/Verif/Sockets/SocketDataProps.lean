import Verif.Sockets.SocketData
import Mathlib.Tactic.SplitIfs
import Mathlib.Data.List.Induction
/-!
Theorems about two connected `SocketData` blocks.
-/
namespace Verif.Sockets.Data

/-- A step in which the system accepts all bytes and the signals have the right size. -/
def Whole (N : Nat) : Op → Prop
  | .run _ (some v) => v.length = N
  | .write _ k => k = N
  | _ => True

/-- Specification: the value which the block of the side `s` has given to its thread last. -/
def lastSet (s : Bool) (d : Frame) : List Op → Frame
  | [] => d
  | .run t (some v) :: ops => lastSet s (if t = s then v else d) ops
  | _ :: ops => lastSet s d ops

theorem exec_snoc (N : Nat) (st : St) (ops : List Op) (o : Op) : exec N st (ops ++ [o]) = step N (exec N st ops) o := by simp [exec]

theorem lastSet_snoc (s : Bool) (d : Frame) (ops : List Op) (o : Op) :
    lastSet s d (ops ++ [o]) = match o with
      | .run t (some v) => if t = s then v else lastSet s d ops
      | _ => lastSet s d ops := by
  induction ops generalizing d with
  | nil =>
    cases o with
    | run t v => cases v <;> rfl
    | _ => rfl
  | cons x ops ih =>
    cases x with
    | run t v => cases v <;> exact ih _
    | _ => exact ih _

/-- Every write sends the value which was set last. -/
theorem tx_last (N : Nat) (jt jr : Bool → Frame) (ops : List Op) (s : Bool) : ((exec N (start jt jr) ops).side s).tx = lastSet s (jt s) ops := by
  induction ops using List.reverseRecOn with
  | nil => rfl
  | append_singleton ops o ih =>
    rw [exec_snoc, lastSet_snoc]
    cases o with
    | run t v =>
      by_cases h : t = s
      · subst h; cases v <;> simp [step, St.upd, ih]
      · cases v <;> simp [step, St.upd, ih, h, Ne.symm h]
    | write t k =>
      simp only [step]
      split_ifs
      · exact ih
      · by_cases h : s = t
        · subst h; simp [St.upd, ih]
        · simp [St.upd, ih, h]
    | read t =>
      simp only [step]
      split_ifs
      · by_cases h : s = t
        · subst h; simp [St.upd, ih]
        · simp [St.upd, ih, h]
      · exact ih
    | reset t =>
      by_cases h : s = t
      · subst h; simp [step, St.upd, ih]
      · simp [step, St.upd, ih, h]
    | lost => simp [step, ih]

/-- Invariant: what is on the wire are whole frames, those which were written and not yet read, and the two threads run in step. -/
structure Inv (N : Nat) (st : St) : Prop where
  txLen : ∀ s, (st.side s).tx.length = N
  sentLen : ∀ s, ∀ f ∈ (st.side s).sent, f.length = N
  wire : ∀ s, ∃ rest, (st.side s).sent = (st.side (!s)).got ++ rest ∧ st.wire s = rest.flatten
  phase : ∀ s, (st.side s).sent.length = (st.side s).got.length + if (st.side s).reading then 1 else 0

theorem take_flatten (N : Nat) (rest : List Frame) (hl : ∀ f ∈ rest, f.length = N) (hN : 0 < N) (h : N ≤ rest.flatten.length) :
    ∃ f r, rest = f :: r ∧ rest.flatten.take N = f ∧ rest.flatten.drop N = r.flatten := by
  cases rest with
  | nil => simp at h; omega
  | cons f r =>
    have := hl f List.mem_cons_self
    exact ⟨f, r, rfl, by simp [← this], by simp [← this]⟩

theorem inv_step (N : Nat) (hN : 0 < N) (st : St) (o : Op) (ho : Whole N o) (h : Inv N st) : Inv N (step N st o) := by
  obtain ⟨h1, h2, h3, h4⟩ := h
  cases o with
  | run t v =>
    have ht : (v.getD (st.side t).tx).length = N := by
      cases v with
      | none => exact h1 t
      | some v => exact ho
    refine ⟨fun s => ?_, fun s => ?_, fun s => ?_, fun s => ?_⟩
    · by_cases hs : s = t
      · subst hs; simpa [step, St.upd] using ht
      · simpa [step, St.upd, hs] using h1 s
    · by_cases hs : s = t
      · subst hs; simpa [step, St.upd] using h2 s
      · simpa [step, St.upd, hs] using h2 s
    · have := h3 s
      cases s <;> cases t <;> simpa [step, St.upd] using this
    · by_cases hs : s = t
      · subst hs; simpa [step, St.upd] using h4 s
      · simpa [step, St.upd, hs] using h4 s
  | write t k =>
    have hk : k = N := ho
    subst hk
    simp only [step]
    split_ifs with hr
    · exact ⟨h1, h2, h3, h4⟩
    · refine ⟨fun s => ?_, fun s => ?_, fun s => ?_, fun s => ?_⟩
      · by_cases hs : s = t
        · subst hs; simpa [St.upd] using h1 s
        · simpa [St.upd, hs] using h1 s
      · by_cases hs : s = t
        · subst hs
          simp only [St.upd, if_true, List.mem_append, List.mem_singleton]
          rintro f (hf | rfl)
          · exact h2 s f hf
          · exact h1 s
        · simpa [St.upd, hs] using h2 s
      · by_cases hs : s = t
        · subst hs
          obtain ⟨rest, e1, e2⟩ := h3 s
          refine ⟨rest ++ [(st.side s).tx], ?_, ?_⟩
          · have hne : (!s) ≠ s := by cases s <;> decide
            simp [St.upd, hne, e1]
          · simp [St.upd, e2, ← h1 s]
        · have hst : (!s) = t := by cases s <;> cases t <;> simp_all
          obtain ⟨rest, e1, e2⟩ := h3 s
          refine ⟨rest, ?_, ?_⟩
          · simp [St.upd, hs, hst]; rw [← hst]; exact e1
          · simp [St.upd, hs, e2]
      · have := h4 s
        by_cases hs : s = t
        · subst hs; simp [St.upd, this, hr]
        · simpa [St.upd, hs] using this
  | read t =>
    simp only [step]
    split_ifs with hr
    · obtain ⟨hr, hw⟩ := hr
      obtain ⟨rest, e1, e2⟩ := h3 (!t)
      simp only [Bool.not_not] at e1
      rw [e2] at hw
      obtain ⟨f, r, rfl, t1, t2⟩ := take_flatten N rest (fun f hf => h2 (!t) f (by rw [e1]; exact List.mem_append_right _ hf)) hN hw
      have hne : (!t) ≠ t := by cases t <;> decide
      refine ⟨fun s => ?_, fun s => ?_, fun s => ?_, fun s => ?_⟩
      · by_cases hs : s = t
        · subst hs; simpa [St.upd] using h1 s
        · simpa [St.upd, hs] using h1 s
      · by_cases hs : s = t
        · subst hs; simpa [St.upd] using h2 s
        · simpa [St.upd, hs] using h2 s
      · by_cases hs : s = t
        · subst hs
          obtain ⟨rest', e1', e2'⟩ := h3 s
          refine ⟨rest', ?_, ?_⟩
          · simp [St.upd, hne, e1']
          · have : s ≠ !s := hne.symm
            simp [St.upd, this, e2']
        · have hst : s = !t := by cases s <;> cases t <;> simp_all
          subst hst
          refine ⟨r, ?_, ?_⟩
          · simp only [St.upd, Bool.not_not, if_true, if_neg hne]
            rw [e1, e2, t1]; simp
          · simp only [if_true]
            rw [e2, t2]
      · have := h4 s
        by_cases hs : s = t
        · subst hs; simp [St.upd, this, hr]
        · simpa [St.upd, hs] using this
    · exact ⟨h1, h2, h3, h4⟩
  | reset t =>
    refine ⟨fun s => ?_, fun s => ?_, fun s => ?_, fun s => ?_⟩
    · by_cases hs : s = t
      · subst hs; simpa [step, St.upd] using h1 s
      · simpa [step, St.upd, hs] using h1 s
    · by_cases hs : s = t
      · subst hs; simpa [step, St.upd] using h2 s
      · simpa [step, St.upd, hs] using h2 s
    · have := h3 s
      cases s <;> cases t <;> simpa [step, St.upd] using this
    · by_cases hs : s = t
      · subst hs; simpa [step, St.upd] using h4 s
      · simpa [step, St.upd, hs] using h4 s
  | lost => exact ⟨h1, by simp [step], fun s => ⟨[], by simp [step], by simp [step]⟩, by simp [step]⟩

theorem inv_exec (N : Nat) (hN : 0 < N) (jt jr : Bool → Frame) (hj : ∀ s, (jt s).length = N) (ops : List Op) (ho : ∀ o ∈ ops, Whole N o) :
    Inv N (exec N (start jt jr) ops) := by
  induction ops using List.reverseRecOn with
  | nil => exact ⟨hj, by simp [exec, start], fun s => ⟨[], rfl, rfl⟩, by simp [exec, start]⟩
  | append_singleton ops o ih =>
    rw [exec_snoc]
    exact inv_step N hN _ o (ho o (by simp)) (ih (fun x hx => ho x (by simp [hx])))

/-- For every execution in which the system accepts whole buffers: on each connection a side receives exactly the frames which the other one has sent, in the
same order and none omitted; at most two frames are under way, however different the periods of the two sides are. -/
theorem in_order_partial (N : Nat) (hN : 0 < N) (jt jr : Bool → Frame) (hj : ∀ s, (jt s).length = N) (ops : List Op) (ho : ∀ o ∈ ops, Whole N o) (s : Bool) :
    let st := exec N (start jt jr) ops
    ∃ rest, (st.side s).sent = (st.side (!s)).got ++ rest ∧ rest.length ≤ 2 := by
  intro st
  obtain ⟨-, -, h3, h4⟩ := inv_exec N hN jt jr hj ops ho
  obtain ⟨r1, a1, -⟩ := h3 s
  obtain ⟨r2, a2, -⟩ := h3 (!s)
  rw [Bool.not_not] at a2
  refine ⟨r1, a1, ?_⟩
  have b1 := h4 s
  have b2 := h4 (!s)
  have c1 := congrArg List.length a1
  have c2 := congrArg List.length a2
  simp only [List.length_append] at c1 c2
  split_ifs at b1 b2 <;> omega

/-- Both sides exchange values twice. -/
example : let ops : List Op := [.run false (some [1]), .run true (some [7]), .write false 1, .write true 1, .read true, .run false (some [2]), .read false,
      .write false 1, .write true 1, .read true]
    (∀ o ∈ ops, Whole 1 o) ∧ ((exec 1 (start (fun _ => [0]) (fun _ => [0])) ops).side true).got = [[1], [2]] := by
  refine ⟨?_, by decide⟩
  intro o ho
  simp only [List.mem_cons, List.not_mem_nil, or_false] at ho
  rcases ho with rfl | rfl | rfl | rfl | rfl | rfl | rfl | rfl | rfl | rfl <;> simp [Whole]

/-- The receive buffer is the last frame of the connection; before the first one it is what it was: zeros after a lost connection, not initialised on the
first one. -/
theorem rx_last (N : Nat) (jt jr : Bool → Frame) (ops : List Op) (s : Bool) :
    let x := (exec N (start jt jr) ops).side s
    x.rx = x.got.getLastD (if .lost ∈ ops then List.replicate N 0 else jr s) := by
  induction ops using List.reverseRecOn with
  | nil => rfl
  | append_singleton ops o ih =>
    simp only [] at ih ⊢
    rw [exec_snoc]
    cases o with
    | run t v =>
      by_cases h : s = t
      · subst h; simpa [step, St.upd] using ih
      · simpa [step, St.upd, h] using ih
    | write t k =>
      simp only [step]
      split_ifs with h1 h2 h3
      all_goals
        simp only [List.mem_append, List.mem_singleton, reduceCtorEq, or_false] at *
        by_cases h : s = t
        · subst h; simp_all [St.upd]
        · simp_all [St.upd]
    | read t =>
      simp only [step]
      by_cases hc : ((exec N (start jt jr) ops).side t).reading = true ∧ N ≤ ((exec N (start jt jr) ops).wire (!t)).length
      · rw [if_pos hc]
        by_cases h : s = t
        · subst h; simp [St.upd]
        · simpa [St.upd, h] using ih
      · rw [if_neg hc]; simpa using ih
    | reset t =>
      by_cases h : s = t
      · subst h; simpa [step, St.upd] using ih
      · simpa [step, St.upd, h] using ih
    | lost => simp [step]

/-- A run of the block puts the receive buffer to the output. -/
theorem run_output (N : Nat) (st : St) (s : Bool) (v : Option Frame) : ((step N st (.run s v)).side s).out = (st.side s).rx := by
  simp [step, St.upd]

/-- Violation: a short write is not noticed: the other side gets a frame with the beginning of one value and the beginning of the next. -/
theorem short_write_violated (N k : Nat) (jt jr : Bool → Frame) (hj : ∀ s, (jt s).length = N) (a b : Frame) (ha : a.length = N) (hb : b.length = N) (hk : k ≤ N)
    (s : Bool) :
    ((exec N (start jt jr) [.run s (some a), .write s k, .write (!s) N, .read s, .run s (some b), .write s N, .read (!s)]).side (!s)).got =
      [a.take k ++ b.take (N - k)] := by
  have hlen : (jt true).length = N ∧ (jt false).length = N := ⟨hj true, hj false⟩
  cases s <;> simp [exec, step, start, St.upd, hlen.1, hlen.2, ha, hb, List.take_append, Nat.min_eq_right hk, Nat.min_eq_left hk, List.take_take]

example : ([1, 2, 3, 4] : Frame).take 1 ++ ([5, 6, 7, 8] : Frame).take 3 = [1, 5, 6, 7] := by decide

/-- Violation: before the first run of its block a side sends its uninitialised buffer. -/
theorem uninitialised_violated (N : Nat) (jt jr : Bool → Frame) (hj : ∀ s, (jt s).length = N) (s : Bool) :
    ((exec N (start jt jr) [.write s N, .write (!s) N, .read (!s)]).side (!s)).got = [jt s] := by
  have h1 := hj true
  have h2 := hj false
  cases s <;> simp [exec, step, start, St.upd, h1, h2, List.take_take, List.take_of_length_le]

/-- `isNew` is true exactly if something was stored in the receive buffer of the side since the last reset (step by step). -/
theorem isNew_iff (N : Nat) (st : St) (o : Op) (s : Bool) :
    ((step N st o).side s).newData = true ↔
      (o = .lost ∨ (o = .read s ∧ ((st.side s).reading = true ∧ N ≤ (st.wire (!s)).length)) ∨ ((st.side s).newData = true ∧ o ≠ .reset s)) := by
  cases o with
  | run t v =>
    by_cases h : s = t
    · subst h; simp [step, St.upd]
    · simp [step, St.upd, h]
  | write t k =>
    simp only [step]
    split_ifs
    · simp
    · by_cases h : s = t
      · subst h; simp [St.upd]
      · simp [St.upd, h]
  | read t =>
    by_cases h : s = t
    · subst h
      simp only [step]
      split_ifs with hc
      · simp [St.upd, hc]
      · simp [hc]
    · simp only [step]
      split_ifs with hc
      · simp [St.upd, h, Ne.symm h]
      · simp [Ne.symm h]
  | reset t =>
    by_cases h : s = t
    · subst h; simp [step, St.upd]
    · simp [step, St.upd, h, Ne.symm h]
  | lost => simp [step]

/-- Violation: after a lost connection `isNew` is true on both sides though nothing was received, and the output becomes zero. -/
theorem lost_is_new_violated (N : Nat) (st : St) (s : Bool) :
    ((step N st .lost).side s).newData = true ∧ ((step N st .lost).side s).got = [] ∧ ((step N (step N st .lost) (.run s none)).side s).out = List.replicate N 0 := by
  simp [step, St.upd]

/-- Case of `uninitialised_violated`: the bytes 170, 187 which happened to be in the buffer reach the peer. -/
example : ((exec 2 (start (fun _ => [170, 187]) (fun _ => [0, 0])) [.write true 2, .write false 2, .read false]).side false).got = [[170, 187]] :=
  uninitialised_violated 2 (fun _ => [170, 187]) (fun _ => [0, 0]) (fun _ => rfl) true

end Verif.Sockets.Data
