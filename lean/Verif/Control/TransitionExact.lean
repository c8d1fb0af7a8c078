import Verif.Control.TransitionProps
/-!
C33, C270: what the receiving side of a `Transition` publishes, for every interleaving of both sides (model: `Control/Transition.lean`,
includes/eeros/control/Transition.hpp).
-/
namespace Verif.Control.Transition
variable {K : Type} [Field K] [LinearOrder K] [IsStrictOrderedRing K] [FloorRing K]

/-! ### From fast to slow -/

/-- Specification: the sample delivered for the time `time` out of the samples collected since the last reception: the last one of those
at the beginning which are older, or the first one if that is not older. -/
def delivered (time : Nat) : List (Sig K) → Option (Sig K)
  | [] => none
  | [x] => some x
  | x :: y :: l => if x.ts < time ∧ y.ts < time then delivered time (y :: l) else some x

/-- Specification of all receptions: `none` once a reception finds no sample. -/
def downSpec : List (Sig K) → List (Op K) → Option (List (Sig K))
  | _, [] => some []
  | l, .inp x :: ops => downSpec (l ++ [x]) ops
  | l, .out t :: ops => match delivered t l with
    | none => none
    | some x => (downSpec [] ops).map (x :: ·)

omit [Field K] [LinearOrder K] [IsStrictOrderedRing K] [FloorRing K] in
theorem pick_delivered (time : Nat) (l : List (Sig K)) : l[pick time l]? = delivered time l := by
  induction l with
  | nil => rfl
  | cons x l ih =>
    cases l with
    | nil => by_cases h : x.ts < time <;> simp [pick, delivered, h]
    | cons y l =>
      simp only [delivered]
      by_cases hx : x.ts < time
      · by_cases hy : y.ts < time
        · rw [if_pos ⟨hx, hy⟩, ← ih]
          simp [pick, hx, hy]
        · rw [if_neg (by tauto)]
          simp [pick, hx, hy]
      · rw [if_neg (by tauto)]
        simp [pick, hx]

theorem down_run (s : St K) (hst : s.steady = false) (hup : s.up = false) (time : Nat) :
    runOut s time = (delivered time s.buf).map (fun x => ({ s with buf := [] }, x)) := by
  rw [← pick_delivered]
  simp only [runOut, hst, hup, Bool.false_eq_true, if_false]
  cases s.buf[pick time s.buf]? <;> rfl

theorem down_from (s : St K) (hst : s.steady = false) (hup : s.up = false) (ops : List (Op K)) : (exec s ops).map (·.2) = downSpec s.buf ops := by
  induction ops generalizing s with
  | nil => rfl
  | cons o ops ih =>
    cases o with
    | inp x =>
      have hr : runIn s x = { s with buf := s.buf ++ [x] } := by simp [runIn, hst, hup]
      simp only [exec, downSpec, hr]
      exact ih { s with buf := s.buf ++ [x] } hst hup
    | out t =>
      simp only [exec, downSpec, down_run s hst hup t]
      cases delivered t s.buf with
      | none => rfl
      | some x =>
        have h := ih { s with buf := [] } hst hup
        simp only [Option.map_some, Option.map_map] at h ⊢
        rw [← h, Option.map_map]
        rfl

/-- **C270, fast to slow.** For every ratio below one, every memory content and every interleaving of sending and receiving, the published signals are
those of `downSpec`: undefined as soon as nothing was sent since the reception before, and else the choice `delivered`. -/
theorem down_exact (ratio : K) (h : ratio < 1) (raw : Raw K) (ops : List (Op K)) : (exec (new ratio false raw) ops).map (·.2) = downSpec [] ops :=
  down_from (new ratio false raw) rfl (by simp [St.up, new, not_le.2 h]) ops

example : (exec (new (1/3 : ℚ) false) [.inp ⟨some 1, 10⟩, .inp ⟨some 2, 20⟩, .inp ⟨some 3, 30⟩, .out 25, .inp ⟨some 4, 40⟩, .out 35]).map (·.2) =
    some [⟨some 2, 20⟩, ⟨some 4, 40⟩] ∧
    downSpec [] [.inp ⟨some (1 : ℚ), 10⟩, .inp ⟨some 2, 20⟩, .inp ⟨some 3, 30⟩, .out 25, .inp ⟨some 4, 40⟩, .out 35] = some [⟨some 2, 20⟩, ⟨some 4, 40⟩] := by
  decide +kernel

/-- **C33 violated**, for every state: with the newest of the collected samples taken exactly at the requested time, an older one is delivered. -/
theorem equal_time_skipped_violated (s : St K) (hst : s.steady = false) (hup : s.up = false) (time : Nat) (l : List (Sig K)) (x y : Sig K)
    (hb : s.buf = l ++ [x, y]) (hl : ∀ z ∈ l, z.ts < time) (hx : x.ts < time) (hy : y.ts = time) : (runOut s time).map (·.2) = some x := by
  rw [down_run s hst hup, hb]
  clear hb
  have h : delivered time (l ++ [x, y]) = some x := by
    induction l with
    | nil => simp [delivered, hy]
    | cons z l ih =>
      have hz := hl z (by simp)
      have hi := ih fun w hw => hl w (by simp [hw])
      cases l with
      | nil => simpa [delivered, hz, hx] using hi
      | cons w l =>
        have hw := hl w (by simp)
        simpa [delivered, hz, hw] using hi
  rw [h]
  rfl

example : (runOut { (new (1/2 : ℚ) false) with buf := [⟨some 1, 10⟩] ++ [⟨some 2, 20⟩, ⟨some 3, 30⟩] } 30).map (·.2) = some ⟨some 2, 20⟩ :=
  equal_time_skipped_violated _ rfl (by decide +kernel) 30 [⟨some 1, 10⟩] _ _ rfl (by simp) (by decide) rfl

/-- **C33 violated**, for every state: with nothing collected which is older than the requested time, the first sample is delivered though it is newer. -/
theorem newer_sample_violated (s : St K) (hst : s.steady = false) (hup : s.up = false) (time : Nat) (x : Sig K) (l : List (Sig K))
    (hb : s.buf = x :: l) (hx : time ≤ x.ts) : (runOut s time).map (·.2) = some x := by
  rw [down_run s hst hup, hb]
  cases l with
  | nil => rfl
  | cons y l => simp [delivered, not_lt.2 hx]

example : (runOut { (new (1/2 : ℚ) false) with buf := [⟨some 1, 10⟩, ⟨some 2, 20⟩] } 5).map (·.2) = some ⟨some 1, 10⟩ :=
  newer_sample_violated _ rfl (by decide +kernel) 5 _ _ rfl (by decide)

/-- **C33 violated**, for every history: a reception is undefined exactly if nothing was sent since the reception before. -/
theorem empty_buffer_violated (s : St K) (hst : s.steady = false) (hup : s.up = false) (time : Nat) : runOut s time = none ↔ s.buf = [] := by
  rw [down_run s hst hup, Option.map_eq_none_iff]
  have h : ∀ l : List (Sig K), delivered time l = none ↔ l = [] := by
    intro l
    induction l with
    | nil => simp [delivered]
    | cons x l ih =>
      cases l with
      | nil => simp [delivered]
      | cons y l =>
        simp only [delivered]
        split
        · simpa using ih
        · simp
  exact h s.buf

example : runOut (new (1/2 : ℚ) false) 7 = none := (empty_buffer_violated _ rfl (by decide +kernel) 7).2 rfl

/-! ### From slow to fast -/

/-- Specification: the `k`-th signal published (counted from 0) after the samples `sent` (newest first): the straight line from the last but one sample
to the last one, divided into `ratio` steps.  Without two samples the value is not a number. -/
def onLine (ratio : K) (raw : Raw K) (k : Nat) : List (Sig K) → Sig K
  | [] => ⟨none, (⌊(k : K) * raw.dTime⌋).toNat⟩
  | [b] => ⟨none, (⌊(k : K) * ((b.ts : K) / ratio)⌋).toNat⟩
  | b :: a :: _ => ⟨(match b.val, a.val with | some y, some x => some (x + (y - x) / ratio * k) | _, _ => none),
      (⌊(a.ts : K) + (k : K) * (((b.ts - a.ts : Nat) : K) / ratio)⌋).toNat⟩

/-- Specification of everything published. -/
def upSpec (ratio : K) (raw : Raw K) : List (Sig K) → Nat → List (Op K) → List (Sig K)
  | _, _, [] => []
  | sent, _, .inp x :: ops => upSpec ratio raw (x :: sent) 0 ops
  | sent, k, .out _ :: ops => onLine ratio raw k sent :: upSpec ratio raw sent (k + 1) ops

/-- The state after the samples `sent` (newest first) and `k` receptions. -/
def Knows (ratio : K) (raw : Raw K) (sent : List (Sig K)) (k : Nat) (s : St K) : Prop :=
  s.steady = false ∧ s.up = true ∧ s.ratio = ratio ∧ s.cin = sent.headD cleared ∧ s.cprev = sent.tail.headD cleared ∧
    (s.refresh = true → k = 0 ∧ sent ≠ []) ∧
    (s.refresh = false → s.count = k ∧ ∀ j, (publish { s with count := j }).2 = onLine ratio raw j sent)

omit [IsStrictOrderedRing K] in
theorem knows_in {ratio : K} {raw : Raw K} {sent : List (Sig K)} {k : Nat} {s : St K} (h : Knows ratio raw sent k s) (x : Sig K) :
    Knows ratio raw (x :: sent) 0 (runIn s x) := by
  obtain ⟨h1, h2, h3, h4, h5, h6, h7⟩ := h
  have hr : runIn s x = { s with cprev := s.cin, cin := x, refresh := true } := by simp [runIn, h1, h2]
  rw [hr]
  refine ⟨h1, h2, h3, rfl, h4, fun _ => ⟨rfl, by simp⟩, ?_⟩
  intro h
  simp at h

theorem knows_out {ratio : K} {raw : Raw K} {sent : List (Sig K)} {k : Nat} {s : St K} (h : Knows ratio raw sent k s) (t : Nat) :
    ∃ s', runOut s t = some (s', onLine ratio raw k sent) ∧ Knows ratio raw sent (k + 1) s' := by
  obtain ⟨h1, h2, h3, h4, h5, h6, h7⟩ := h
  have hr : runOut s t = some (publish (takeRefresh s)) := by simp [runOut, h1, h2]
  rw [hr]
  cases hf : s.refresh with
  | false =>
    have ht : takeRefresh s = s := by simp [takeRefresh, hf]
    obtain ⟨hc, hp⟩ := h7 hf
    rw [ht]
    refine ⟨{ s with count := s.count + 1 }, ?_, h1, h2, h3, h4, h5, ?_, ?_⟩
    · have := hp k
      rw [← this, ← hc]
      rfl
    · intro hh; rw [show ({ s with count := s.count + 1 } : St K).refresh = s.refresh from rfl, hf] at hh; simp at hh
    · intro _
      exact ⟨by simp [hc], fun j => hp j⟩
  | true =>
    obtain ⟨rfl, hne⟩ := h6 hf
    have key : ∀ j, (publish { takeRefresh s with count := j }).2 = onLine ratio raw j sent := by
      intro j
      simp only [publish, takeRefresh, hf, if_true, h4, h5, h3]
      match sent, hne with
      | [b], _ =>
        simp only [List.headD_cons, List.tail_cons, List.headD_nil, onLine, cleared]
        simp
      | b :: a :: l, _ =>
        simp only [List.headD_cons, List.tail_cons, onLine]
        cases hb : b.val <;> cases ha : a.val <;> simp
    have hc0 : (takeRefresh s).count = 0 := by simp [takeRefresh, hf]
    refine ⟨{ takeRefresh s with count := 1 }, ?_, ?_⟩
    · have := key 0
      rw [← this]
      simp only [publish, hc0]
    · have hfr : (takeRefresh s).refresh = false := by simp [takeRefresh, hf]
      refine ⟨?_, ?_, ?_, ?_, ?_, ?_, ?_⟩
      · simpa [takeRefresh, hf] using h1
      · simpa [takeRefresh, hf, St.up] using h2
      · simpa [takeRefresh, hf] using h3
      · simpa [takeRefresh, hf] using h4
      · simpa [takeRefresh, hf] using h5
      · intro hh; rw [show ({ takeRefresh s with count := 1 } : St K).refresh = (takeRefresh s).refresh from rfl, hfr] at hh; simp at hh
      · intro _
        exact ⟨rfl, fun j => key j⟩

/-- **C270, slow to fast.** For every ratio of at least one and every interleaving of sending and receiving, the published signals are those of `upSpec`:
the `k`-th reception since the last sending lies at `k / ratio` of the way from the last but one sample to the last one. -/
theorem up_exact (ratio : K) (h : 1 ≤ ratio) (raw : Raw K) (ops : List (Op K)) :
    (exec (new ratio false raw) ops).map (·.2) = some (upSpec ratio raw [] 0 ops) := by
  have H : ∀ (ops : List (Op K)) (sent : List (Sig K)) (k : Nat) (s : St K), Knows ratio raw sent k s →
      (exec s ops).map (·.2) = some (upSpec ratio raw sent k ops) := by
    intro ops
    induction ops with
    | nil => intro sent k s _; rfl
    | cons o ops ih =>
      intro sent k s hs
      cases o with
      | inp x => exact ih _ _ _ (knows_in hs x)
      | out t =>
        obtain ⟨s', hr, hs'⟩ := knows_out hs t
        have := ih _ _ _ hs'
        simp only [exec, hr, upSpec, Option.map_map]
        cases he : exec s' ops with
        | none => rw [he] at this; simp at this
        | some r => rw [he] at this; simpa using this
  refine H ops [] 0 _ ⟨rfl, by simp [St.up, new, h], rfl, by simp [new, h], rfl, by simp [new], ?_⟩
  intro _
  refine ⟨rfl, fun j => ?_⟩
  simp [publish, new, cleared, onLine]

example : (exec (new (2 : ℚ) false) [.out 0, .inp ⟨some 10, 100⟩, .out 0, .inp ⟨some 20, 200⟩, .out 0, .out 0, .out 0, .inp ⟨some 0, 300⟩, .out 0]).map (·.2) =
    some [⟨none, 0⟩, ⟨none, 0⟩, ⟨some 10, 100⟩, ⟨some 15, 150⟩, ⟨some 20, 200⟩, ⟨some 20, 200⟩] := by decide +kernel

/-- **C33 violated**, for every sequence of samples: with equal periods (ratio one) and one reception after each sending, the receiving side gets the last but one
sample. -/
theorem ratio_one_lags_violated (raw : Raw K) (x : Sig K) (xs : List (Sig K)) (hv : ∀ y ∈ x :: xs, y.val ≠ none) :
    (exec (new (1 : K) false raw) ((x :: xs).flatMap fun y => [.inp y, .out 0])).map (·.2) = some (⟨none, 0⟩ :: (x :: xs).dropLast) := by
  rw [show (exec (new (1 : K) false raw) ((x :: xs).flatMap fun y => [.inp y, .out 0])).map (·.2) = _ from up_exact 1 (le_refl _) raw _]
  have H : ∀ (xs : List (Sig K)) (x : Sig K) (l : List (Sig K)) (k : Nat), (∀ y ∈ x :: xs, y.val ≠ none) →
      upSpec 1 raw (x :: l) k (xs.flatMap fun y => [.inp y, .out 0]) = (x :: xs).dropLast := by
    intro xs
    induction xs with
    | nil => intro x l k _; rfl
    | cons y ys ih =>
      intro x l k hv
      have hx := hv x (by simp)
      have hy := hv y (by simp)
      obtain ⟨a, ha⟩ := Option.ne_none_iff_exists'.1 hx
      obtain ⟨b, hb⟩ := Option.ne_none_iff_exists'.1 hy
      have h0 : onLine 1 raw 0 (y :: x :: l) = x := by
        cases x
        simp only at ha
        simp [onLine, ha, hb]
      simp only [List.flatMap_cons, List.cons_append, List.nil_append, upSpec, h0, List.dropLast_cons_cons]
      rw [ih y (x :: l) 1 fun z hz => hv z (by simp [List.mem_cons.1 hz])]
  have := H xs x [] 1 hv
  simp only [List.flatMap_cons, List.cons_append, List.nil_append, upSpec, this]
  congr 2
  simp [onLine]

example : (exec (new (1 : ℚ) false) (([⟨some 10, 100⟩, ⟨some 20, 200⟩, ⟨some 30, 300⟩] : List (Sig ℚ)).flatMap fun y => [.inp y, .out 0])).map (·.2) =
    some [⟨none, 0⟩, ⟨some 10, 100⟩, ⟨some 20, 200⟩] :=
  ratio_one_lags_violated _ _ _ (by simp)

end Verif.Control.Transition
