import Mathlib.Algebra.Field.Basic
import Mathlib.Data.List.Induction
import Mathlib.Algebra.Order.Field.Rat
import Mathlib.Tactic.Ring
import Mathlib.Tactic.ByContra
import Mathlib.Tactic.NormNum
/-!
The client program without EEROS which talks to the socket example (examples/socket/standaloneClient/StandaloneClient.cpp).

Simplifications: the bytes of `readBuf` and not its doubles are modelled; a byte which was never written is `none` (`readBuf` is declared without initialisation
in the outer loop, so it is indeterminate again on each connection). `write` is taken as complete when it succeeds (48 bytes fit into the send buffer). The times
at which the loop runs and the console are not modelled. The values sent are numbers of an arbitrary field, their rounding is not modelled.
-/
namespace Verif.Examples.StandaloneClient

/-- Size of `readBuf` in bytes: four doubles (StandaloneClient.cpp:41). -/
def size : ℕ := 32

/-- Number of values of `writeBuf` (StandaloneClient.cpp:42). -/
def width : ℕ := 6

/-- Outcome of `write` (StandaloneClient.cpp:58): success, an error without signal (-1), or SIGPIPE, which the kernel sends when the peer has closed the
connection and which ends a process which neither handles nor ignores it; the program does neither. -/
inductive WOut
  | ok
  | failed
  | sigpipe
  deriving DecidableEq, Repr

/-- Outcome of `read` (StandaloneClient.cpp:65): some bytes, at most the size of the buffer, none when the peer has closed the connection, or an error. -/
inductive ROut (B : Type)
  | data (d : List B)
  | failed

/-- The bytes which `read` puts to the begin of the buffer. -/
def fill {B : Type} (buf : List (Option B)) (d : List B) : List (Option B) := d.map some ++ buf.drop d.length

/-- `buf`: `readBuf`; `next`: `dataToSend`; `rows`: what was printed after "rec:" on this connection; `out`: the values put to the
socket on this connection; `conns`: connections made; `alive`: the process runs. -/
structure St (B K : Type) where
  buf : List (Option B) := List.replicate size none
  next : K
  rows : List (List (Option B)) := []
  out : List K := []
  conns : ℕ := 1
  alive : Bool := true

/-- A new connection (StandaloneClient.cpp:19-45): new socket, indeterminate buffer, `dataToSend` is 0.1. -/
def connect {B K : Type} (first : K) (conns : ℕ) : St B K := { next := first, conns := conns }

/-- The loop which fills `writeBuf` (StandaloneClient.cpp:52-56): the values and `dataToSend` afterwards. -/
def prepare {K : Type} [Field K] (inc : K) : ℕ → K → List K × K
  | 0, x => ([], x)
  | n + 1, x => let r := prepare inc n (x + inc); (x :: r.1, r.2)

/-- One turn of the inner loop (StandaloneClient.cpp:47-75) and, if it ends, `close` and the next connection. A failed `read` is only reported, one of
zero bytes is not looked at; both leave the buffer as it is. -/
def step {B K : Type} [Field K] (inc : K) (s : St B K) (w : WOut) (r : ROut B) : St B K :=
  if s.alive then
    let p := prepare inc width s.next
    match w with
    | .sigpipe => { s with next := p.2, alive := false }
    | w =>
      let buf := match r with | .data d => fill s.buf d | .failed => s.buf
      if w = .ok then { s with buf := buf, next := p.2, rows := s.rows ++ [buf], out := s.out ++ p.1 }
      else connect inc (s.conns + 1)
  else s

def exec {B K : Type} [Field K] (inc : K) : St B K → List (WOut × ROut B) → St B K
  | s, [] => s
  | s, (w, r) :: l => exec inc (step inc s w r) l

theorem exec_append {B K : Type} [Field K] (inc : K) : ∀ (l l' : List (WOut × ROut B)) (s : St B K), exec inc s (l ++ l') = exec inc (exec inc s l) l' := by
  intro l
  induction l with
  | nil => intros; rfl
  | cons x l ih => intro l' s; exact ih l' _

/-! ### The rows shown -/

/-- Byte `j` of the stream of the server, which sends one record of 32 bytes after the other. -/
def stream {B : Type} (rec : ℕ → ℕ → B) (j : ℕ) : B := rec (j / size) (j % size)

/-- The turns of a connection on which every write succeeds and the reads deliver the stream in portions of the given sizes, from position `p` on. -/
def turns {B : Type} (rec : ℕ → ℕ → B) : ℕ → List ℕ → List (WOut × ROut B)
  | _, [] => []
  | p, n :: ns => (.ok, .data ((List.range n).map fun i => stream rec (p + i))) :: turns rec (p + n) ns

theorem turns_append {B : Type} (rec : ℕ → ℕ → B) : ∀ (ns ms : List ℕ) (p : ℕ), turns rec p (ns ++ ms) = turns rec p ns ++ turns rec (p + ns.sum) ms := by
  intro ns
  induction ns with
  | nil => intros; rfl
  | cons n ns ih => intro ms p; simp [turns, ih, Nat.add_assoc]

/-- What the client shows for portions of the given sizes. -/
def shown {B : Type} (rec : ℕ → ℕ → B) (ns : List ℕ) : List (List (Option B)) := (exec (1 / 10 : ℚ) (connect (1 / 10) 1) (turns rec 0 ns)).rows

theorem step_ok {B K : Type} [Field K] (inc : K) (s : St B K) (d : List B) (h : s.alive = true) :
    step inc s .ok (.data d) = { s with buf := fill s.buf d, next := (prepare inc width s.next).2, rows := s.rows ++ [fill s.buf d], out := s.out ++ (prepare inc width s.next).1 } := by
  simp [step, h]

theorem state_snoc {B : Type} (rec : ℕ → ℕ → B) (ns : List ℕ) (n : ℕ) :
    exec (1 / 10 : ℚ) (connect (1 / 10) 1) (turns rec 0 (ns ++ [n])) =
      step (1 / 10 : ℚ) (exec (1 / 10 : ℚ) (connect (1 / 10) 1) (turns rec 0 ns)) .ok (.data ((List.range n).map fun i => stream rec (ns.sum + i))) := by
  rw [turns_append, exec_append]; simp [turns, exec]

/-- The state after portions: alive, on its first connection, one row per portion, the last of them in the buffer. -/
theorem state_inv {B : Type} (rec : ℕ → ℕ → B) (ns : List ℕ) : let s := exec (1 / 10 : ℚ) (connect (1 / 10) 1 : St B ℚ) (turns rec 0 ns)
    s.alive = true ∧ s.rows.length = ns.length ∧ (∀ (k : ℕ), ns.length = k + 1 → s.rows[k]? = some s.buf) ∧ (ns = [] → s.buf = List.replicate size none) := by
  induction ns using List.reverseRecOn with
  | nil => simp [turns, exec, connect]
  | append_singleton ns n ih =>
    obtain ⟨h1, h2, -, -⟩ := ih
    simp only [state_snoc]
    rw [step_ok _ _ _ h1]
    refine ⟨h1, by rw [List.length_append, List.length_append, h2]; rfl, ?_, by simp⟩
    intro k hk
    simp only [List.length_append, List.length_singleton, Nat.add_right_cancel_iff] at hk
    subst hk
    simp [← h2]

theorem shown_snoc {B : Type} (rec : ℕ → ℕ → B) (ns : List ℕ) (n : ℕ) :
    shown rec (ns ++ [n]) = shown rec ns ++ [fill (exec (1 / 10 : ℚ) (connect (1 / 10) 1 : St B ℚ) (turns rec 0 ns)).buf ((List.range n).map fun i => stream rec (ns.sum + i))] := by
  unfold shown
  rw [state_snoc, step_ok _ _ _ (state_inv rec ns).1]

theorem shown_length {B : Type} (rec : ℕ → ℕ → B) (ns : List ℕ) : (shown rec ns).length = ns.length := (state_inv rec ns).2.1

theorem fill_full {B : Type} (buf : List (Option B)) (d : List B) (h : buf.length = d.length) : fill buf d = d.map some := by
  simp [fill, ← h]

theorem fill_length {B : Type} (buf : List (Option B)) (d : List B) (h : d.length ≤ buf.length) : (fill buf d).length = buf.length := by
  simp [fill]; omega

theorem buf_length {B : Type} (rec : ℕ → ℕ → B) (ns : List ℕ) (h : ∀ n ∈ ns, n ≤ size) :
    (exec (1 / 10 : ℚ) (connect (1 / 10) 1 : St B ℚ) (turns rec 0 ns)).buf.length = size := by
  induction ns using List.reverseRecOn with
  | nil => simp [turns, exec, connect]
  | append_singleton ns n ih =>
    have hi := ih fun m hm => h m (by simp [hm])
    rw [state_snoc, step_ok _ _ _ (state_inv rec ns).1]
    have := h n (by simp)
    simp only
    rw [fill_length _ _ (by rw [hi, List.length_map, List.length_range]; exact this), hi]

/-- Record `k` of the server as a row of the client. -/
def record {B : Type} (rec : ℕ → ℕ → B) (k : ℕ) : List (Option B) := (List.range size).map fun i => some (rec k i)

theorem sum_full (ns : List ℕ) (h : ∀ n ∈ ns, n = size) : ns.sum = size * ns.length := by
  induction ns with
  | nil => rfl
  | cons n ns ih =>
    rw [List.sum_cons, h n (by simp), ih fun m hm => h m (by simp [hm]), List.length_cons, Nat.mul_succ, Nat.add_comm]

theorem stream_record {B : Type} (rec : ℕ → ℕ → B) (k i : ℕ) (h : i < size) : stream rec (size * k + i) = rec k i := by
  unfold stream
  have h0 : 0 < size := by decide
  rw [Nat.mul_add_div h0, Nat.div_eq_of_lt h, Nat.mul_add_mod, Nat.mod_eq_of_lt h, Nat.add_zero]

/-- **C346, the part which holds.** When every read delivers a whole record, row `k` is record `k`. -/
theorem rows_partial {B : Type} (rec : ℕ → ℕ → B) (ns : List ℕ) (h : ∀ n ∈ ns, n = size) : shown rec ns = (List.range ns.length).map (record rec) := by
  induction ns using List.reverseRecOn with
  | nil => rfl
  | append_singleton ns n ih =>
    have h' : ∀ m ∈ ns, m = size := fun m hm => h m (by simp [hm])
    have hn : n = size := h n (by simp)
    rw [shown_snoc, ih h', fill_full _ _ (by rw [buf_length rec ns fun m hm => (h' m hm).le]; simp [hn]), sum_full ns h', hn]
    simp only [List.length_append, List.length_singleton, List.range_succ, List.map_append, List.map_cons, List.map_nil]
    congr 2
    unfold record
    rw [List.map_map]
    apply List.map_congr_left
    intro i hi
    exact congrArg some (stream_record rec ns.length i (List.mem_range.1 hi))

/-- **C346, exactly.** Reads of at most 32 bytes show the records of every server, whatever it sends, if and only if each of them delivers a whole record. -/
theorem rows_iff {B : Type} (b0 b1 : B) (hb : b0 ≠ b1) (ns : List ℕ) (hs : ∀ n ∈ ns, n ≤ size) :
    (∀ rec : ℕ → ℕ → B, shown rec ns = (List.range ns.length).map (record rec)) ↔ ∀ n ∈ ns, n = size := by
  constructor
  · intro h
    induction ns using List.reverseRecOn with
    | nil => simp
    | append_singleton ns n ih =>
      have h1 : ∀ rec : ℕ → ℕ → B, shown rec ns = (List.range ns.length).map (record rec) ∧
          fill (exec (1 / 10 : ℚ) (connect (1 / 10) 1 : St B ℚ) (turns rec 0 ns)).buf ((List.range n).map fun i => stream rec (ns.sum + i)) = record rec ns.length := by
        intro rec
        have := h rec
        rw [shown_snoc] at this
        simp only [List.length_append, List.length_singleton, List.range_succ, List.map_append, List.map_cons, List.map_nil] at this
        have h2 := List.append_inj this (by simp [shown_length])
        exact ⟨h2.1, by simpa using h2.2⟩
      have h2 := ih (fun m hm => hs m (by simp [hm])) fun rec => (h1 rec).1
      intro m hm
      rcases List.mem_append.1 hm with hm | hm
      · exact h2 m hm
      · obtain rfl : m = n := by simpa using hm
        by_contra hne
        have hlt : m < size := Nat.lt_of_le_of_ne (hs m (by simp)) hne
        obtain ⟨hr, hf⟩ := h1 fun k _ => if k = ns.length then b1 else b0
        have hl := buf_length (fun k _ => if k = ns.length then b1 else b0) ns fun m hm => hs m (by simp [hm])
        obtain ⟨-, -, hlast, hnil⟩ := state_inv (fun k _ => if k = ns.length then b1 else b0) ns
        have e := congrArg (fun l : List (Option B) => l[31]?) hf
        have hr31 : (record (fun k _ => if k = ns.length then b1 else b0) ns.length)[31]? = some (some b1) := by simp [record, size]
        simp only [hr31, fill] at e
        rw [List.getElem?_append_right (by simp [size] at hlt ⊢; omega)] at e
        simp only [List.length_map, List.length_range, List.getElem?_drop] at e
        rw [show m + (31 - m) = 31 by simp [size] at hlt; omega] at e
        cases hk : ns.length with
        | zero =>
          rw [hnil (List.length_eq_zero_iff.1 hk)] at e
          simp [size] at e
        | succ k =>
          have h3 := hlast k hk
          have h4 : (shown (fun j (_ : ℕ) => if j = ns.length then b1 else b0) ns)[k]? = some (record (fun j _ => if j = ns.length then b1 else b0) k) := by
            rw [hr]; simp [hk]
          have h5 := h3.symm.trans h4
          rw [Option.some.inj h5] at e
          have : (record (fun j (_ : ℕ) => if j = ns.length then b1 else b0) k)[31]? = some (some b0) := by simp [record, size, hk]
          rw [this] at e
          exact hb (by simpa using e)
  · intro h rec; exact rows_partial rec ns h

/-- **C346 is violated**: after a portion of `n` bytes, fewer than a record, the row shown begins with `n` bytes of the second record and ends with bytes of the first one. -/
theorem mixed_violated {B : Type} (rec : ℕ → ℕ → B) (n : ℕ) (h : n < size) :
    (shown rec [size, n])[1]? = some ((List.range n).map (fun i => some (rec 1 i)) ++ ((List.range size).map fun i => some (rec 0 i)).drop n) := by
  have h0 := rows_partial rec [size] (by simp)
  obtain ⟨-, -, h1, -⟩ := state_inv rec [size]
  have h2 : (exec (1 / 10 : ℚ) (connect (1 / 10) 1 : St B ℚ) (turns rec 0 [size])).buf = record rec 0 := by
    have := h1 0 rfl
    have h3 : (shown rec [size])[0]? = some (record rec 0) := by rw [h0]; rfl
    exact Option.some.inj (this.symm.trans h3)
  have e := shown_snoc rec [size] n
  rw [show [size] ++ [n] = [size, n] from rfl, h2] at e
  rw [e, List.getElem?_append_right (by simp [shown_length])]
  simp only [shown_length, List.length_singleton, Nat.sub_self, List.getElem?_cons_zero, fill, record, List.map_map, List.length_map, List.length_range, List.sum_singleton]
  congr 2
  apply List.map_congr_left
  intro i hi
  have := stream_record rec 1 i (by have := List.mem_range.1 hi; omega)
  rw [Nat.mul_one] at this
  simp [this]

/-- **C346 is violated**: when the server has closed the connection (reads of zero bytes), the last row is shown again, as often as the loop runs. -/
theorem closed_violated {B K : Type} [Field K] (inc : K) (s : St B K) (h : s.alive = true) (m : ℕ) :
    (exec inc s (List.replicate m (.ok, .data []))).rows = s.rows ++ List.replicate m s.buf := by
  induction m generalizing s with
  | zero => simp [exec]
  | succ m ih =>
    rw [List.replicate_succ, exec, step_ok _ _ _ h, ih]
    · simp [fill, List.replicate_succ]
    · exact h

/-- Every byte of the row was received. -/
def Received {B : Type} (row : List (Option B)) : Prop := ∀ x ∈ row, x ≠ none

theorem buf_received {B : Type} (rec : ℕ → ℕ → B) (ns : List ℕ) (hs : ∀ n ∈ ns, n ≤ size) (i : ℕ) (hi : i < size) :
    ((exec (1 / 10 : ℚ) (connect (1 / 10) 1 : St B ℚ) (turns rec 0 ns)).buf[i]? = some none) ↔ ∀ n ∈ ns, n ≤ i := by
  induction ns using List.reverseRecOn with
  | nil => simp [turns, exec, connect, hi]
  | append_singleton ns n ih =>
    have hi' := ih fun m hm => hs m (by simp [hm])
    rw [state_snoc, step_ok _ _ _ (state_inv rec ns).1]
    simp only [fill]
    by_cases hn : i < n
    · rw [List.getElem?_append_left (by simpa using hn)]
      constructor
      · intro h; simp [hn] at h
      · intro h; exact absurd (h n (by simp)) (by omega)
    · rw [List.getElem?_append_right (by simp; omega)]
      simp only [List.length_map, List.length_range, List.getElem?_drop]
      rw [show n + (i - n) = i by omega, hi']
      constructor
      · intro h m hm
        rcases List.mem_append.1 hm with hm | hm
        · exact h m hm
        · have : m = n := by simpa using hm
          omega
      · intro h m hm; exact h m (by simp [hm])

/-- **C346, memory never written.** The row shown after the reads consists of received bytes only if and only if one of the reads delivered a whole record. -/
theorem received_iff {B : Type} (rec : ℕ → ℕ → B) (ns : List ℕ) (hs : ∀ n ∈ ns, n ≤ size) (k : ℕ) (hk : ns.length = k + 1) :
    (∃ row, (shown rec ns)[k]? = some row ∧ Received row) ↔ ∃ n ∈ ns, n = size := by
  have hl := buf_length rec ns hs
  have h1 : (shown rec ns)[k]? = some _ := (state_inv rec ns).2.2.1 k hk
  rw [h1]
  constructor
  · rintro ⟨row, hrow, hr⟩
    obtain rfl := Option.some.inj hrow
    by_contra hn
    have hle : ∀ n ∈ ns, n ≤ 31 := by
      intro n hm
      have h2 := hs n hm
      have h3 : n ≠ size := fun e => hn ⟨n, hm, e⟩
      simp only [size] at h2 h3; omega
    have h2 := (buf_received rec ns hs 31 (by decide)).2 hle
    exact hr none (List.mem_of_getElem? h2) rfl
  · rintro ⟨n, hn, he⟩
    refine ⟨_, rfl, ?_⟩
    rintro x hx rfl
    obtain ⟨i, hi, hg⟩ := List.getElem_of_mem hx
    have h2 := (buf_received rec ns hs i (by omega)).1 (by rw [List.getElem?_eq_getElem hi, hg]) n hn
    omega

/-! ### The connection -/

/-- **C347, exactly.** The number of connections is one more than the number of writes which failed without a signal, up to the first SIGPIPE; the program runs
as long as there was none. What is read, also the end of the stream, makes no difference. -/
theorem connections_exact {B K : Type} [Field K] (inc : K) (l : List (WOut × ROut B)) : let s := exec inc (connect inc 1) l
    s.conns = 1 + ((l.takeWhile fun e => e.1 ≠ .sigpipe).countP fun e => e.1 = .failed) ∧ (s.alive = true ↔ ∀ e ∈ l, e.1 ≠ .sigpipe) := by
  have dead : ∀ (l : List (WOut × ROut B)) (s : St B K), s.alive = false → exec inc s l = s := by
    intro l
    induction l with
    | nil => intros; rfl
    | cons e l ih => intro s hs; rw [exec]; simp only [step, hs, Bool.false_eq_true, if_false]; exact ih s hs
  have key : ∀ (l : List (WOut × ROut B)) (s : St B K), s.alive = true →
      (exec inc s l).conns = s.conns + ((l.takeWhile fun e => e.1 ≠ .sigpipe).countP fun e => e.1 = .failed) ∧ ((exec inc s l).alive = true ↔ ∀ e ∈ l, e.1 ≠ .sigpipe) := by
    intro l
    induction l with
    | nil => intro s hs; simp [exec, hs]
    | cons e l ih =>
      intro s hs
      obtain ⟨w, r⟩ := e
      cases w with
      | ok =>
        have h1 : (step inc s .ok r).alive = true := by simp [step, hs]
        have h2 : (step inc s .ok r).conns = s.conns := by simp [step, hs]
        obtain ⟨a, b⟩ := ih _ h1
        rw [exec]
        constructor
        · rw [a, h2]; simp
        · rw [b]; simp
      | failed =>
        have h1 : (step inc s .failed r).alive = true := by simp [step, hs, connect]
        have h2 : (step inc s .failed r).conns = s.conns + 1 := by simp [step, hs, connect]
        obtain ⟨a, b⟩ := ih _ h1
        rw [exec]
        constructor
        · rw [a, h2]; simp; omega
        · rw [b]; simp
      | sigpipe =>
        have h1 : step inc s .sigpipe r = { s with next := (prepare inc width s.next).2, alive := false } := by simp [step, hs]
        rw [exec, dead l _ (by rw [h1]), h1]
        simp
  exact key l _ rfl

/-- **C347, the part which holds.** A write which fails without a signal is followed by a new connection: empty, with the first value to be sent again. -/
theorem reconnect_partial {B K : Type} [Field K] (inc : K) (s : St B K) (r : ROut B) (h : s.alive = true) :
    step inc s .failed r = { buf := List.replicate size none, next := inc, rows := [], out := [], conns := s.conns + 1, alive := true } := by
  simp [step, h, connect]

/-- **C347 is violated**: when the server has closed the connection, the next writes raise SIGPIPE: there is never a second connection, whatever happens later. -/
theorem sigpipe_violated {B K : Type} [Field K] (inc : K) (r : ROut B) (l : List (WOut × ROut B)) :
    (exec inc (connect inc 1) ((.ok, .data []) :: (.sigpipe, r) :: l)).conns = 1 ∧ (exec inc (connect inc 1) ((.ok, .data []) :: (.sigpipe, r) :: l)).alive = false := by
  obtain ⟨h1, h2⟩ := connections_exact inc ((.ok, .data []) :: (.sigpipe, r) :: l)
  refine ⟨by rw [h1]; simp, ?_⟩
  rw [← Bool.not_eq_true, h2]
  intro h
  exact h (.sigpipe, r) (by simp) rfl

/-- **C347 is violated**: a connection of which only reading shows that it is gone is never given up. -/
theorem read_ignored_violated {B K : Type} [Field K] (inc : K) (rs : List (ROut B)) : (exec inc (connect inc 1) (rs.map fun r => (.ok, r))).conns = 1 := by
  have h := (connections_exact inc (rs.map fun r => (WOut.ok, r))).1
  rw [h]
  have : ((rs.map fun r => (WOut.ok, r)).takeWhile fun e => e.1 ≠ .sigpipe).countP (fun e => e.1 = .failed) = 0 := by
    rw [List.countP_eq_zero]
    intro e he
    obtain ⟨r, -, rfl⟩ := List.mem_map.1 ((List.takeWhile_sublist _).subset he)
    simp
  rw [this]

/-! ### The values sent -/

theorem prepare_exact {K : Type} [Field K] (inc : K) : ∀ (n : ℕ) (x : K), prepare inc n x = ((List.range n).map (fun i : ℕ => x + i * inc), x + n * inc) := by
  intro n
  induction n with
  | zero => intro x; simp [prepare]
  | succ n ih =>
    intro x
    rw [prepare, ih, List.range_succ_eq_map]
    simp only [List.map_cons, List.map_map, Nat.cast_zero, zero_mul, add_zero]
    refine Prod.ext ?_ (by push_cast; ring)
    simp only [List.cons.injEq, true_and]
    apply List.map_congr_left
    intro i _
    simp only [Function.comp, Nat.succ_eq_add_one]; push_cast; ring

/-- **C348.** On a connection with `m` successful writes, the values sent are the first `6 m` multiples of 0.1, in order, none missing and none twice. -/
theorem sent_exact {B K : Type} [Field K] (inc : K) (rs : List (ROut B)) :
    (exec inc (connect inc 1) (rs.map fun r => (.ok, r))).out = (List.range (6 * rs.length)).map fun i : ℕ => (i + 1) * inc := by
  have key : ∀ (rs : List (ROut B)), let s := exec inc (connect inc 1) (rs.map fun r => (.ok, r))
      s.alive = true ∧ s.next = (6 * rs.length + 1 : ℕ) * inc ∧ s.out = (List.range (6 * rs.length)).map fun i : ℕ => (i + 1) * inc := by
    intro rs
    induction rs using List.reverseRecOn with
    | nil => simp [exec, connect]
    | append_singleton rs r ih =>
      obtain ⟨h1, h2, h3⟩ := ih
      simp only [List.map_append, List.map_cons, List.map_nil, exec_append, exec]
      simp only [step, h1, if_true]
      refine ⟨trivial, ?_, ?_⟩
      · rw [h2, prepare_exact]; simp only [width, List.length_append, List.length_singleton]; push_cast; ring
      · rw [h3, h2, prepare_exact, List.length_append, List.length_singleton, Nat.mul_add, Nat.mul_one, List.range_add, List.map_append, List.map_map]
        congr 1
        apply List.map_congr_left
        intro i _
        simp only [Function.comp]; push_cast; ring
  exact (key rs).2.2

/-! ### Cases -/

/-- Two whole records. -/
example : (shown (fun k i => 100 * k + i) [32, 32]).map (fun r => r.map fun b => b.getD 999) = [List.range 32, (List.range 32).map (100 + ·)] := by decide +kernel
/-- A record which comes in two portions: the second row is a mixture and the third begins in the middle of the record. -/
example : (shown (fun k i => 100 * k + i) [32, 8, 24]).map (fun r => ((r.take 9).map fun b => b.getD 999)) =
    [[0, 1, 2, 3, 4, 5, 6, 7, 8], [100, 101, 102, 103, 104, 105, 106, 107, 8], [108, 109, 110, 111, 112, 113, 114, 115, 116]] := by decide +kernel
example : ¬ ∀ rec : ℕ → ℕ → ℕ, shown rec [32, 8, 24] = (List.range 3).map (record rec) := fun h =>
  absurd ((rows_iff 0 1 (by decide) [32, 8, 24] (by decide)).1 h 8 (by decide)) (by decide)
/-- A first read of 8 bytes shows 24 bytes never received. -/
example : ¬ ∃ row, (shown (fun k i => 100 * k + i) [8])[0]? = some row ∧ Received row := fun h => by
  obtain ⟨n, hn, he⟩ := (received_iff _ [8] (by decide) 0 rfl).1 h
  simp only [List.mem_singleton] at hn
  subst hn; exact absurd he (by decide)
/-- Two turns, a write which fails, a turn on the second connection, SIGPIPE. -/
example : (exec (1 / 10 : ℚ) (connect (1 / 10) 1 : St ℕ ℚ) [(.ok, .data [1]), (.ok, .failed), (.failed, .failed), (.ok, .data [2])]).conns = 2 ∧
    (exec (1 / 10 : ℚ) (connect (1 / 10) 1 : St ℕ ℚ) [(.ok, .data [1]), (.ok, .failed), (.failed, .failed), (.ok, .data [2])]).out = [1 / 10, 1 / 5, 3 / 10, 2 / 5, 1 / 2, 3 / 5] ∧
    (exec (1 / 10 : ℚ) (connect (1 / 10) 1 : St ℕ ℚ) [(.ok, .data [1]), (.failed, .failed), (.sigpipe, .failed), (.failed, .failed)]).conns = 2 := by decide +kernel
example : (exec (1 / 10 : ℚ) (connect (1 / 10) 1 : St ℕ ℚ) ([.data [1], .data [2]].map fun r => (.ok, r))).out = (List.range 12).map fun i : ℕ => ((i : ℚ) + 1) * (1 / 10) :=
  sent_exact (1 / 10) [.data [1], .data [2]]

end Verif.Examples.StandaloneClient
