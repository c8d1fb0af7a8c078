/-
C55: framing.  C56: stopping.
-/
import Verif.Sockets.Socket

set_option linter.unusedSectionVars false

namespace Verif.Sockets

/-! ### Specification (histories have the latest event first) -/

/-- Number of connections so far. -/
def nConn : List Event → Nat
  | [] => 0
  | .connect :: h => nConn h + 1
  | _ :: h => nConn h

/-- All bytes received in connection `c`. -/
def received (c : Nat) : List Event → List Byte
  | [] => []
  | .read _ (.data bs) :: h => if nConn h = c then received c h ++ bs else received c h
  | _ :: h => received c h

/-- The buffers published in connection `c` while it was alive. -/
def frames (c : Nat) (pubs : List (Nat × Bool × Buf)) : List Buf := (pubs.filter fun p => decide (p.1 = c) && p.2.1).map fun p => p.2.2

/-! ### Proof -/

theorem run_append (N : Nat) (a b : List Event) (s : State) : run N (a ++ b) s = (run N a s).bind (run N b) := by
  induction a generalizing s with
  | nil => rfl
  | cons e a ih =>
    simp only [List.cons_append, run, Option.bind_eq_bind]
    cases step N e s with
    | none => rfl
    | some t => exact ih t

/-- What holds in a phase for the bytes of the current connection (`d`: bytes received, `f`: frames published). -/
def PhaseOk (N : Nat) (s : State) (d f : Buf) : Prop :=
  match s.phase with
  | .writing => s.connected = true ∧ s.bread.length = N ∧ d = f
  | .reading done => s.connected = true ∧ s.bread.length = N ∧ done < N ∧ d = f ++ s.bread.take done
  | .lost => s.connected = false
  | .connecting => (0 < s.conn → s.rxBuf = List.replicate N (some 0))
  | .ended => 0 < s.conn ∧ s.rxBuf = List.replicate N (some 0)

structure Inv (N : Nat) (h : List Event) (s : State) : Prop where
  conn : s.conn = nConn h
  future : ∀ c, nConn h < c → received c h = [] ∧ frames c s.pubs = []
  len : ∀ c, ∀ f ∈ frames c s.pubs, f.length = N
  prefix_ : ∀ c, ∃ rest, (received c h).map some = (frames c s.pubs).flatten ++ rest
  phase : PhaseOk N s ((received (nConn h) h).map some) (frames (nConn h) s.pubs).flatten
  started : s.phase ≠ .connecting → 0 < s.conn

theorem frames_append (c : Nat) (ps : List (Nat × Bool × Buf)) (n : Nat) (b : Bool) (f : Buf) :
    frames c (ps ++ [(n, b, f)]) = frames c ps ++ if n = c ∧ b = true then [f] else [] := by
  unfold frames
  by_cases h : n = c
  · cases b <;> simp [h]
  · simp [h]

/-- Publishing keeps the invariant: either the connection was lost, or the whole frame was received. -/
theorem inv_publish (N : Nat) (h : List Event) (s : State) (hc : s.conn = nConn h) (hpos : 0 < s.conn) (hb : s.bread.length = N)
    (hf : ∀ c, nConn h < c → received c h = [] ∧ frames c s.pubs = [])
    (hl : ∀ c, ∀ f ∈ frames c s.pubs, f.length = N)
    (hp : ∀ c, ∃ rest, (received c h).map some = (frames c s.pubs).flatten ++ rest)
    (hd : s.connected = true → (received (nConn h) h).map some = (frames (nConn h) s.pubs).flatten ++ s.bread) : Inv N h (publish s) := by
  refine ⟨hc, ?_, ?_, ?_, ?_, fun _ => hpos⟩
  · intro c hlt
    refine ⟨(hf c hlt).1, ?_⟩
    simp only [publish, frames_append, (hf c hlt).2]
    rw [if_neg (by omega)]
    rfl
  · intro c f hm
    simp only [publish, frames_append, List.mem_append] at hm
    rcases hm with hm | hm
    · exact hl c f hm
    · split at hm
      · rw [List.mem_singleton.1 hm]; exact hb
      · cases hm
  · intro c
    simp only [publish, frames_append]
    split
    · rename_i hcc
      refine ⟨[], ?_⟩
      rw [← hcc.1, hc, hd hcc.2]
      simp
    · obtain ⟨rest, hr⟩ := hp c
      exact ⟨rest, by simpa using hr⟩
  · cases hcn : s.connected with
    | false => simp [PhaseOk, publish, hcn]
    | true =>
      simp only [PhaseOk, publish, hcn, if_true]
      refine ⟨trivial, hb, ?_⟩
      rw [hd hcn, frames_append, if_pos ⟨hc, rfl⟩]
      simp

theorem put_length (b : Buf) (i : Nat) (bs : List Byte) (h : i + bs.length ≤ b.length) : (put b i bs).length = b.length := by
  simp [put]; omega

theorem put_take (b : Buf) (i : Nat) (bs : List Byte) (h : i + bs.length ≤ b.length) : (put b i bs).take (i + bs.length) = b.take i ++ bs.map some := by
  unfold put
  rw [List.take_append_of_le_length (by simp; omega), List.take_of_length_le (by simp; omega)]

theorem inv_loop (N : Nat) (h : List Event) (s : State) (done : Nat) (hc : s.conn = nConn h) (hpos : 0 < s.conn) (hb : s.bread.length = N) (hle : done ≤ N)
    (hf : ∀ c, nConn h < c → received c h = [] ∧ frames c s.pubs = [])
    (hl : ∀ c, ∀ f ∈ frames c s.pubs, f.length = N)
    (hp : ∀ c, ∃ rest, (received c h).map some = (frames c s.pubs).flatten ++ rest)
    (hd : s.connected = true → (received (nConn h) h).map some = (frames (nConn h) s.pubs).flatten ++ s.bread.take done) : Inv N h (loopTest N done s) := by
  unfold loopTest
  split
  · rename_i hcc
    exact ⟨hc, hf, hl, hp, ⟨hcc.1, hb, by omega, hd hcc.1⟩, fun _ => hpos⟩
  · rename_i hcc
    refine inv_publish N h s hc hpos hb hf hl hp fun ht => ?_
    have hN : done = N := by
      by_cases hN : done = N
      · exact hN
      · exact absurd ⟨ht, hN⟩ hcc
    rw [hd ht, List.take_of_length_le (by rw [hb, hN]; exact Nat.le_refl _)]

theorem inv_step (N : Nat) (h : List Event) (s s' : State) (e : Event) (hi : Inv N h s) (hs : step N e s = some s') : Inv N (e :: h) s' := by
  have hph := hi.phase
  unfold PhaseOk at hph
  cases e with
  | stop =>
    unfold step at hs
    cases hs
    exact ⟨hi.conn, hi.future, hi.len, hi.prefix_, hi.phase, hi.started⟩
  | connectFailed =>
    unfold step at hs
    cases hp : s.phase <;> rw [hp] at hs <;> simp only at hs <;> cases hs
    exact ⟨hi.conn, hi.future, hi.len, hi.prefix_, hi.phase, hi.started⟩
  | connect =>
    unfold step at hs
    cases hp : s.phase <;> rw [hp] at hs <;> simp only at hs <;> cases hs
    refine ⟨by simp [nConn, hi.conn], ?_, hi.len, hi.prefix_, ?_, fun _ => Nat.succ_pos _⟩
    · intro c hc
      exact hi.future c (Nat.lt_of_succ_lt hc)
    · have := hi.future (nConn h + 1) (Nat.lt_succ_self _)
      simp only [PhaseOk, nConn, received]
      refine ⟨trivial, by simp, ?_⟩
      rw [this.1, this.2]
      rfl
  | write ok =>
    unfold step at hs
    cases hp : s.phase <;> rw [hp] at hs <;> simp only at hs <;> cases hs
    rw [hp] at hph
    obtain ⟨hcn, hb, hd⟩ := hph
    have hpos := hi.started (by rw [hp]; exact nofun)
    have hd' : (received (nConn h) h).map some = (frames (nConn h) s.pubs).flatten ++ s.bread.take 0 := by rw [hd]; simp
    cases ok with
    | false => exact inv_loop N (.write false :: h) { s with connected := false } 0 hi.conn hpos hb (Nat.zero_le _) hi.future hi.len hi.prefix_ nofun
    | true => exact inv_loop N (.write true :: h) s 0 hi.conn hpos hb (Nat.zero_le _) hi.future hi.len hi.prefix_ fun _ => hd'
  | read late r =>
    unfold step at hs
    cases hp : s.phase <;> rw [hp] at hs <;> simp only at hs <;> try cases hs
    rename_i done
    rw [hp] at hph
    obtain ⟨hcn, hb, hlt, hd⟩ := hph
    have hpos := hi.started (by rw [hp]; exact nofun)
    cases r with
    | error =>
      simp only at hs
      cases hs
      cases late with
      | false => exact inv_publish N (.read false .error :: h) { s with connected := false, phase := _ } hi.conn hpos hb hi.future hi.len hi.prefix_ nofun
      | true => exact inv_publish N (.read true .error :: h) { s with connected := false, phase := _ } hi.conn hpos hb hi.future hi.len hi.prefix_ nofun
    | eof =>
      simp only at hs
      cases hs
      cases late with
      | false => exact inv_loop N (.read false .eof :: h) { s with phase := _ } done hi.conn hpos hb (Nat.le_of_lt hlt) hi.future hi.len hi.prefix_ fun _ => hd
      | true => exact inv_loop N (.read true .eof :: h) { s with connected := false, phase := _ } done hi.conn hpos hb (Nat.le_of_lt hlt) hi.future hi.len hi.prefix_ nofun
    | data bs =>
      simp only at hs
      split at hs
      · rename_i hbs
        cases hs
        have hle : done + bs.length ≤ s.bread.length := by rw [hb]; exact hbs.2
        have hfut : ∀ c, nConn h < c → received c (.read late (.data bs) :: h) = [] ∧ frames c s.pubs = [] := by
          intro c hlt
          rw [received, if_neg (by omega)]
          exact hi.future c hlt
        have hpre : ∀ c, ∃ rest, (received c (.read late (.data bs) :: h)).map some = (frames c s.pubs).flatten ++ rest := by
          intro c
          obtain ⟨rest, hr⟩ := hi.prefix_ c
          rw [received]
          split
          · exact ⟨rest ++ bs.map some, by simp [hr]⟩
          · exact ⟨rest, hr⟩
        have hrec : (received (nConn h) (.read late (.data bs) :: h)).map some =
            (frames (nConn h) s.pubs).flatten ++ (put s.bread done bs).take (done + bs.length) := by
          rw [received, if_pos rfl, List.map_append, hd, put_take _ _ _ hle, List.append_assoc]
        cases late with
        | false => exact inv_loop N (.read false (.data bs) :: h) { s with phase := _, bread := put s.bread done bs } _ hi.conn hpos ((put_length _ _ _ hle).trans hb) hbs.2 hfut hi.len hpre fun _ => hrec
        | true => exact inv_loop N (.read true (.data bs) :: h) { s with connected := false, phase := _, bread := put s.bread done bs } _ hi.conn hpos ((put_length _ _ _ hle).trans hb) hbs.2 hfut hi.len hpre nofun
      · cases hs
  | clear =>
    unfold step at hs
    cases hp : s.phase <;> rw [hp] at hs <;> simp only at hs <;> cases hs
    have hpos := hi.started (by rw [hp]; exact nofun)
    have hfr : ∀ c, frames c (s.pubs ++ [(s.conn, false, List.replicate N (some 0))]) = frames c s.pubs := by
      intro c; simp [frames_append]
    refine ⟨hi.conn, ?_, ?_, ?_, ?_, ?_⟩
    · intro c hc; rw [hfr]; exact hi.future c hc
    · intro c; rw [hfr]; exact hi.len c
    · intro c; rw [hfr]; exact hi.prefix_ c
    · unfold PhaseOk
      simp only
      cases s.running with
      | true => exact fun _ => trivial
      | false => exact ⟨hpos, trivial⟩
    · intro _; exact hpos

theorem inv_run (N : Nat) (h : List Event) (s : State) (hs : run N h.reverse (init N) = some s) : Inv N h s := by
  induction h generalizing s with
  | nil =>
    cases hs
    exact ⟨rfl, fun _ _ => ⟨rfl, rfl⟩, fun _ _ h => (nomatch h), fun _ => ⟨[], rfl⟩, fun h => absurd h (Nat.lt_irrefl _), fun h => absurd rfl h⟩
  | cons e h ih =>
    rw [List.reverse_cons, run_append] at hs
    cases hr : run N h.reverse (init N) with
    | none => rw [hr] at hs; cases hs
    | some t =>
      rw [hr] at hs
      simp only [Option.bind_some, run, Option.bind_eq_bind] at hs
      cases ht : step N e t with
      | none => rw [ht] at hs; cases hs
      | some u =>
        rw [ht] at hs
        cases hs
        exact inv_step N h t _ e (ih t hr) ht

theorem chunk {α : Type} (N : Nat) (fs : List (List α)) (hl : ∀ f ∈ fs, f.length = N) (rest : List α) (k : Nat) (f : List α) (hf : fs[k]? = some f) :
    (((fs.flatten ++ rest).drop (k * N)).take N) = f := by
  induction fs generalizing k with
  | nil => cases hf
  | cons g fs ih =>
    have hg := hl g (List.mem_cons_self ..)
    cases k with
    | zero =>
      cases hf
      simp [← hg]
    | succ k =>
      rw [List.getElem?_cons_succ] at hf
      rw [← ih (fun x hx => hl x (List.mem_cons_of_mem _ hx)) k hf, List.flatten_cons, List.append_assoc, Nat.succ_mul, Nat.add_comm, ← List.drop_drop]
      congr 2
      rw [← hg, List.drop_left]

/-- **C55 (partial)** Whatever happens, and however the bytes are chunked: the `k`-th buffer published in a connection while it was alive consists of exactly the `k`-th frame of `N` bytes received in
that connection.
Missing: buffers published when the connection is lost, see `mixture`, and callers who read while the buffer is written, see `torn`. -/
theorem framing_partial (N : Nat) (h : List Event) (s : State) (hs : run N h.reverse (init N) = some s) (c k : Nat) (f : Buf) (hf : (frames c s.pubs)[k]? = some f) :
    f = (((received c h).drop (k * N)).take N).map some ∧ f.length = N := by
  have hi := inv_run N h s hs
  obtain ⟨rest, hr⟩ := hi.prefix_ c
  refine ⟨?_, hi.len c f (List.mem_of_getElem? hf)⟩
  rw [List.map_take, List.map_drop, hr]
  exact (chunk N _ (hi.len c) rest k f hf).symm

/-- **C55** No frame is lost: while the connection is alive all complete frames which were received have been published. -/
theorem complete (N : Nat) (hN : 0 < N) (h : List Event) (s : State) (hs : run N h.reverse (init N) = some s) (hw : s.phase = .writing ∨ ∃ done, s.phase = .reading done) :
    (frames s.conn s.pubs).length = (received s.conn h).length / N := by
  have hi := inv_run N h s hs
  have hph := hi.phase
  rw [← hi.conn] at hph
  have hlen : ((frames s.conn s.pubs).flatten).length = (frames s.conn s.pubs).length * N := by
    have := hi.len s.conn
    generalize frames s.conn s.pubs = fs at this ⊢
    induction fs with
    | nil => simp
    | cons f fs ih =>
      rw [List.flatten_cons, List.length_append, this f (List.mem_cons_self ..), ih fun x hx => this x (List.mem_cons_of_mem _ hx), List.length_cons, Nat.succ_mul, Nat.add_comm]
  unfold PhaseOk at hph
  rcases hw with hw | ⟨done, hw⟩ <;> rw [hw] at hph
  · have := congrArg List.length hph.2.2
    rw [List.length_map, hlen] at this
    rw [this, Nat.mul_div_cancel _ hN]
  · have := congrArg List.length hph.2.2.2
    rw [List.length_map, List.length_append, hlen, List.length_take, hph.2.1, Nat.min_eq_left (Nat.le_of_lt hph.2.2.1)] at this
    rw [this, Nat.mul_comm, Nat.mul_add_div hN, Nat.div_eq_of_lt hph.2.2.1, Nat.add_zero]

/-- **C55** After a lost connection the buffer contains zeros, until the next connection publishes something. -/
theorem zeros (N : Nat) (h : List Event) (s : State) (hs : run N h.reverse (init N) = some s) (hc : 0 < s.conn) (hp : s.phase = .connecting ∨ s.phase = .ended) :
    s.rxBuf = List.replicate N (some 0) := by
  have hi := (inv_run N h s hs).phase
  unfold PhaseOk at hi
  rcases hp with hp | hp <;> rw [hp] at hi
  · exact hi hc
  · exact hi.2

/-- **C55 violated**: if the connection fails when `bs`, a part of the next frame, was received, the user gets a buffer with these bytes followed by the rest of the previous frame `old`. -/
theorem mixture (N : Nat) (s : State) (old : Buf) (bs : List Byte) (hp : s.phase = .writing) (hc : s.connected = true) (ho : s.bread = old) (hb : bs ≠ []) (hl : bs.length < N) :
    (run N [.write true, .read false (.data bs), .read false .error] s).map (fun t => (t.rxBuf, t.pubs)) =
      some (bs.map some ++ old.drop bs.length, s.pubs ++ [(s.conn, false, bs.map some ++ old.drop bs.length)]) := by
  have h0 : ¬ (0 = N) := by omega
  have h1 : ¬ (bs.length = N) := by omega
  simp [run, step, hp, loopTest, hc, h0, hb, Nat.le_of_lt hl, h1, publish, put, ho]


/-- One byte of a frame of two arrives, then the connection breaks: it is published together with an old byte. -/
example : (run 2 [.connect, .write true, .read false (.data [1, 2]), .write true, .read false (.data [9]), .read false .error] (init 2)).map (fun s => s.pubs.getLast?) =
    some (some (1, false, [some 9, some 2])) := by decide

/-- **C55 violated**: two frames of two bytes are sent, the connection is lost in the middle of the second one: the second buffer which is published is neither of them. -/
theorem mixture_reached : (run 2 [.connect, .write true, .read false (.data [1, 2]), .write true, .read false (.data [3]), .read false .error] (init 2)).map State.pubs =
    some [(1, true, [some 1, some 2]), (1, false, [some 3, some 2])] := by
  decide

/-- **C55 violated**: if the first `write` of a connection fails the user gets a buffer which was never initialised. -/
theorem uninitialised_reached (N : Nat) : (run N [.connect, .write false] (init N)).map State.pubs = some [(1, false, List.replicate N none)] := by
  simp [run, step, init, loopTest, publish]

/-- Non-vacuity of `framing_partial`: two frames in three chunks. -/
example : (run 2 [.connect, .write true, .read false (.data [1]), .read false (.data [2]), .write true, .read false .eof, .read false (.data [3, 4])] (init 2)).map
    (fun s => frames 1 s.pubs) = some [[some 1, some 2], [some 3, some 4]] := by
  decide

/-! ### Stopping -/

/-- Events of a partner which keeps the connection alive: no error, no timeout. -/
def alive : Event → Bool
  | .write ok => ok
  | .read late r => !late && (r != .error)
  | _ => true

/-- The thread is serving a connection. -/
def Serving (s : State) : Prop := s.connected = true ∧ (s.phase = .writing ∨ ∃ done, s.phase = .reading done)

theorem serving_loop (N done : Nat) (s : State) (h : s.connected = true) : Serving (loopTest N done s) := by
  unfold loopTest
  split
  · exact ⟨h, .inr ⟨done, rfl⟩⟩
  · simp [Serving, publish, h]

theorem serving_step (N : Nat) (e : Event) (s s' : State) (ha : alive e = true) (hS : Serving s) (hs : step N e s = some s') : Serving s' := by
  obtain ⟨hc, hp⟩ := hS
  cases e with
  | stop => unfold step at hs; cases hs; exact ⟨hc, hp⟩
  | connect => rcases hp with hp | ⟨d, hp⟩ <;> simp [step, hp] at hs
  | connectFailed => rcases hp with hp | ⟨d, hp⟩ <;> simp [step, hp] at hs
  | clear => rcases hp with hp | ⟨d, hp⟩ <;> simp [step, hp] at hs
  | write ok =>
    rcases hp with hp | ⟨d, hp⟩ <;> simp only [step, hp] at hs
    · cases hs
      simp only [alive] at ha
      rw [ha]
      exact serving_loop N 0 s hc
    · cases hs
  | read late r =>
    rcases hp with hp | ⟨d, hp⟩ <;> simp only [step, hp] at hs
    · cases hs
    · cases late with
      | true => simp [alive] at ha
      | false =>
        cases r with
        | error => simp [alive] at ha
        | eof => cases hs; exact serving_loop N d s hc
        | data bs =>
          simp only at hs
          split at hs
          · cases hs; exact serving_loop N _ _ hc
          · cases hs

/-- **C56 violated**: a thread which serves a connection does not end, whenever and how often `stop` is called, as long as the partner keeps the connection alive. -/
theorem never_ends (N : Nat) (es : List Event) (s s' : State) (ha : ∀ e ∈ es, alive e = true) (hS : Serving s) (hs : run N es s = some s') : Serving s' := by
  induction es generalizing s with
  | nil => cases hs; exact hS
  | cons e es ih =>
    simp only [run, Option.bind_eq_bind] at hs
    cases ht : step N e s with
    | none => rw [ht] at hs; cases hs
    | some t =>
      rw [ht] at hs
      exact ih t (fun x hx => ha x (List.mem_cons_of_mem _ hx)) (serving_step N e s t (ha e (List.mem_cons_self ..)) hS ht) hs

example : ∃ s', run 2 [.connect, .write true, .stop, .read false (.data [1, 2]), .write true] (init 2) = some s' ∧ s'.phase ≠ .ended := by
  exact ⟨_, rfl, by decide⟩

/-- **C56 violated**: after `stop` there is no bound on the number of cycles: for every `n` the thread can publish `n` further frames. -/
theorem stop_ignored (N : Nat) (hN : 0 < N) (n : Nat) (f : List Byte) (hf : f.length = N) (s : State) (hp : s.phase = .writing) (hc : s.connected = true) (hb : s.bread.length = N) :
    ∃ s', run N (.stop :: (List.replicate n [Event.write true, .read false (.data f)]).flatten) s = some s' ∧ s'.running = false ∧ s'.phase = .writing ∧
      s'.pubs = s.pubs ++ List.replicate n (s.conn, true, f.map some) := by
  have key : ∀ n (s : State), s.phase = .writing → s.connected = true → s.bread.length = N → s.running = false →
      ∃ s', run N ((List.replicate n [Event.write true, .read false (.data f)]).flatten) s = some s' ∧ s'.running = false ∧ s'.phase = .writing ∧
        s'.pubs = s.pubs ++ List.replicate n (s.conn, true, f.map some) := by
    intro n
    induction n with
    | zero => intro s hp _ _ hr; exact ⟨s, rfl, hr, hp, by simp⟩
    | succ n ih =>
      intro s hp hc hb hr
      have h0 : ¬ (0 = N) := by omega
      have hne : f ≠ [] := by intro e; rw [e] at hf; simp at hf; omega
      have h1 : run N [.write true, .read false (.data f)] s = some { s with rxBuf := f.map some, bread := f.map some, phase := .writing, pubs := s.pubs ++ [(s.conn, true, f.map some)] } := by
        simp [run, step, hp, loopTest, hc, h0, hne, hf, publish, put, List.drop_eq_nil_of_le (Nat.le_of_eq hb)]
      obtain ⟨s', h2, h3, h4, h5⟩ := ih { s with rxBuf := f.map some, bread := f.map some, phase := .writing, pubs := s.pubs ++ [(s.conn, true, f.map some)] }
        rfl hc (by simp [hf]) hr
      refine ⟨s', ?_, h3, h4, ?_⟩
      · rw [List.replicate_succ, List.flatten_cons, run_append, h1]
        exact h2
      · rw [h5, List.replicate_succ, List.append_assoc]
        rfl
  obtain ⟨s', h1, h2, h3, h4⟩ := key n { s with running := false } hp hc hb rfl
  exact ⟨s', h1, h2, h3, h4⟩

/-- **C56 violated**: a client which is stopped while it waits for its server tries to connect for ever if there is no server. -/
theorem stop_ignored_connecting (N n : Nat) (s : State) (hp : s.phase = .connecting) :
    run N (.stop :: List.replicate n .connectFailed) s = some { s with running := false } := by
  simp only [run, step, Option.bind_eq_bind, Option.bind_some]
  induction n with
  | zero => rfl
  | succ n ih =>
    rw [List.replicate_succ, run]
    have : step N .connectFailed { s with running := false } = some { s with running := false } := by simp [step, hp]
    rw [this]
    exact ih

/-- A connection which is lost: an event after which the connection is no longer served. -/
theorem lost_of_not_serving (N : Nat) (e : Event) (s s' : State) (hS : Serving s) (hs : step N e s = some s') (hn : ¬ Serving s') : s'.phase = .lost ∧ s'.running = s.running := by
  obtain ⟨hc, hp⟩ := hS
  have hl : ∀ done (t : State), ¬ Serving (loopTest N done t) → (loopTest N done t).phase = .lost ∧ (loopTest N done t).running = t.running := by
    intro done t hn
    cases ht : t.connected with
    | true => exact absurd (serving_loop N done t ht) hn
    | false => simp [loopTest, ht, publish]
  cases e with
  | stop => unfold step at hs; cases hs; exact absurd ⟨hc, hp⟩ hn
  | connect => rcases hp with hp | ⟨d, hp⟩ <;> simp [step, hp] at hs
  | connectFailed => rcases hp with hp | ⟨d, hp⟩ <;> simp [step, hp] at hs
  | clear => rcases hp with hp | ⟨d, hp⟩ <;> simp [step, hp] at hs
  | write ok =>
    rcases hp with hp | ⟨d, hp⟩ <;> simp only [step, hp] at hs
    · cases hs
      have := hl 0 _ hn
      refine ⟨this.1, this.2.trans ?_⟩
      split <;> rfl
    · cases hs
  | read late r =>
    rcases hp with hp | ⟨d, hp⟩ <;> simp only [step, hp] at hs
    · cases hs
    · cases r with
      | error => cases hs; cases late <;> exact ⟨rfl, rfl⟩
      | eof =>
        cases hs
        have := hl d _ hn
        refine ⟨this.1, this.2.trans ?_⟩
        split <;> rfl
      | data bs =>
        simp only at hs
        split at hs
        · cases hs
          have := hl _ _ hn
          refine ⟨this.1, this.2.trans ?_⟩
          cases late <;> rfl
        · cases hs

/-- **C56 (partial)** If `stop` was called the thread ends as soon as the connection is lost: the event after which the connection is no longer served is followed by clearing the buffer, and
that is the last thing the thread does.
Missing: the claim wants it without losing the connection, see `never_ends`. -/
theorem stop_partial (N : Nat) (e : Event) (s s' : State) (hr : s.running = false) (hS : Serving s) (hs : step N e s = some s') (hn : ¬ Serving s') :
    (∃ t, step N .clear s' = some t ∧ t.phase = .ended) ∧ ∀ e' t, e' ≠ .clear → step N e' s' = some t → e' = .stop ∧ t.phase = .lost := by
  obtain ⟨hl, hrun⟩ := lost_of_not_serving N e s s' hS hs hn
  rw [hr] at hrun
  constructor
  · simp [step, hl, hrun]
  · intro e' t hne ht
    cases e' with
    | stop => unfold step at ht; cases ht; exact ⟨rfl, hl⟩
    | clear => exact absurd rfl hne
    | connect => simp [step, hl] at ht
    | connectFailed => simp [step, hl] at ht
    | write _ => simp [step, hl] at ht
    | read _ _ => simp [step, hl] at ht

/-- Non-vacuity: a connection is served, stopped, and lost. -/
example : (run 1 [.connect, .write true, .read false (.data [7]), .stop, .write true, .read false .eof, .read true .eof, .clear] (init 1)).map (fun s => (s.phase, s.rxBuf)) =
    some (.ended, [some 0]) := by
  decide

/-! ### Reading by reference -/

theorem refRun_append {α : Type} (new : List α) (a b : List Bool) (s : Ref α) : refRun new (a ++ b) s = (refRun new a s).bind (refRun new b) := by
  induction a generalizing s with
  | nil => rfl
  | cons e a ih =>
    simp only [List.cons_append, refRun, Option.bind_eq_bind]
    cases refStep new e s with
    | none => rfl
    | some t => exact ih t

theorem ref_write {α : Type} (new : List α) (s : Ref α) (hn : new.length = s.buf.length) (hw : s.w = 0) :
    refRun new (List.replicate new.length true) s = some { s with buf := new, w := new.length } := by
  have key : ∀ k, k ≤ new.length → refRun new (List.replicate k true) s = some { s with buf := new.take k ++ s.buf.drop k, w := k } := by
    intro k
    induction k with
    | zero =>
      intro _
      show some s = some { s with buf := s.buf, w := 0 }
      rw [← hw]
    | succ k ih =>
      intro hk
      have hlt : k < new.length := hk
      rw [List.replicate_succ', refRun_append, ih (Nat.le_of_lt hlt)]
      simp only [Option.bind_some, refRun, refStep, if_true, List.getElem?_eq_getElem hlt, Option.bind_eq_bind]
      congr 2
      rw [List.set_append_right _ _ (by rw [List.length_take]; omega), List.length_take, Nat.min_eq_left (Nat.le_of_lt hlt), Nat.sub_self,
        List.drop_eq_getElem_cons (by omega : k < s.buf.length), List.set_cons_zero, List.take_succ_eq_append_getElem hlt, List.append_assoc]
      rfl
  have := key new.length (Nat.le_refl _)
  rw [this, List.take_length, List.drop_eq_nil_of_le (by omega), List.append_nil]

theorem ref_read {α : Type} (new : List α) (k : Nat) (s : Ref α) (hk : s.got.length + k ≤ s.buf.length) :
    refRun new (List.replicate k false) s = some { s with got := s.got ++ (s.buf.drop s.got.length).take k } := by
  induction k generalizing s with
  | zero => simp [refRun]
  | succ k ih =>
    have hlt : s.got.length < s.buf.length := by omega
    simp only [List.replicate_succ, refRun, refStep, Bool.false_eq_true, if_false, List.getElem?_eq_getElem hlt, Option.bind_eq_bind, Option.bind_some]
    rw [ih _ (by simp; omega)]
    congr 2
    simp only [List.length_append, List.length_singleton]
    rw [List.drop_eq_getElem_cons hlt, List.take_succ_cons, List.append_assoc]
    rfl

/-- **C55 violated**: for every `k` a caller who reads the buffer through the reference can get the first `k` elements of the old frame followed by the rest of the new one. -/
theorem torn {α : Type} (old new : List α) (hl : new.length = old.length) (k : Nat) (hk : k ≤ old.length) :
    (refRun new (List.replicate k false ++ (List.replicate new.length true ++ List.replicate (old.length - k) false)) ⟨old, 0, []⟩).map Ref.got = some (old.take k ++ new.drop k) := by
  rw [refRun_append, ref_read _ _ _ (by simpa using hk)]
  simp only [Option.bind_some, refRun_append]
  rw [ref_write _ _ (by simpa using hl) rfl]
  simp only [Option.bind_some]
  rw [ref_read _ _ _ (by simp; omega)]
  simp [hl, Nat.min_eq_left hk]
  rw [List.take_of_length_le (by simp; omega)]


example : (refRun [5, 6, 7] (List.replicate 1 false ++ (List.replicate 3 true ++ List.replicate (3 - 1) false)) ⟨[1, 2, 3], 0, []⟩).map Ref.got = some [1, 6, 7] :=
  torn [1, 2, 3] [5, 6, 7] rfl 1 (by decide)

/-- If the thread does not write meanwhile the caller gets the frame in the buffer. -/
theorem not_torn {α : Type} (frame new : List α) : (refRun new (List.replicate frame.length false) ⟨frame, 0, []⟩).map Ref.got = some frame := by
  rw [ref_read _ _ _ (by simp)]
  simp

example : (refRun [5, 6, 7] (List.replicate 3 false) ⟨[1, 2, 3], 0, []⟩).map Ref.got = some [1, 2, 3] := not_torn [1, 2, 3] [5, 6, 7]

end Verif.Sockets
