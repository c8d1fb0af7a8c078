/-
C40 (exclusive reservation of HAL signals), C41 (unknown names) and C68 (failed construction of
peripheral blocks).
-/
import Verif.Hal.Registry
import Mathlib.Tactic.ByContra

namespace Verif.Hal

/-- `o` is a request (through a getter or a peripheral block) with the given exclusiveness. -/
def Op.requests : Op → Option Bool
  | .get _ _ e => some e
  | .peripheral _ _ e => some e
  | _ => none

/-- Every entry of the map is stored under the id of its object. -/
def Inv (w : World) (s : St) : Prop := ∀ n p, s.reg n = some (some p) → w.idOf p = n

theorem lookup_reg {s : St} {n : Name} : (lookup s n).2.reg = s.reg ∨
    (s.reg n = none ∧ (lookup s n).2.reg = upd s.reg n (some none)) := by
  unfold lookup
  split
  · exact Or.inl rfl
  · rename_i h; exact Or.inr ⟨h, rfl⟩

theorem lookup_excl {s : St} {n : Name} : (lookup s n).2.excl = s.excl := by
  unfold lookup; split <;> rfl

theorem lookup_nonExcl {s : St} {n : Name} : (lookup s n).2.nonExcl = s.nonExcl := by
  unfold lookup; split <;> rfl

theorem lookup_some {s : St} {n : Name} {p : Sig} :
    (lookup s n).1 = some p ↔ s.reg n = some (some p) := by
  unfold lookup
  split <;> rename_i h
  · simp only [h, Option.some.injEq]
  · simp [h]

theorem lookup_inv {w : World} {s : St} (h : Inv w s) (n : Name) : Inv w (lookup s n).2 := by
  intro m p hm
  rcases lookup_reg (s := s) (n := n) with h1 | ⟨_, h1⟩
  · rw [h1] at hm; exact h m p hm
  · rw [h1] at hm
    unfold upd at hm
    split at hm
    · simp at hm
    · exact h m p hm

theorem get_reg (w : World) (k : Want) (n : Name) (e : Bool) (s : St) :
    (get w k n e s).2.reg = (lookup s n).2.reg := by
  simp only [get]
  split
  · rfl
  · split
    · rfl
    · split
      · split <;> rfl
      · rfl

theorem peripheral_state (w : World) (b : Bool) (n : Name) (e : Bool) (s : St) :
    (peripheral w b n e s).2 = (get w .any n e s).2 := by
  unfold peripheral
  split <;> rename_i h <;> try (rw [h])
  split <;> rfl

theorem release_reg (n : Name) (s : St) : (release n s).2.reg = (lookup s n).2.reg := by
  simp only [release]
  split <;> split <;> rfl

theorem inv_of_reg {w : World} {s t : St} (h : Inv w s) (e : t.reg = s.reg) : Inv w t := by
  intro n p hp; rw [e] at hp; exact h n p hp

theorem step_inv {w : World} {s : St} (h : Inv w s) (o : Op) : Inv w (step w o s).2 := by
  cases o with
  | add p =>
    simp only [step, add]
    cases p with
    | none => exact h
    | some q =>
      simp only
      split
      · exact h
      · intro n p hp
        simp only [upd] at hp
        split at hp
        · rename_i e
          simp only [Option.some.injEq] at hp
          rw [← hp, e]
        · exact h n p hp
  | get k n e =>
    have : (step w (.get k n e) s).2 = (get w k n e s).2 := by
      simp only [step]
      split <;> rename_i h <;> rw [h]
    rw [this]
    exact inv_of_reg (lookup_inv h n) (get_reg w k n e s)
  | release n => exact inv_of_reg (lookup_inv h n) (release_reg n s)
  | peripheral b n e =>
    have : (step w (.peripheral b n e) s).2 = (get w .any n e s).2 := by
      rw [← peripheral_state w b]
      simp only [step]
      split <;> rename_i h <;> rw [h]
    rw [this]
    exact inv_of_reg (lookup_inv h n) (get_reg w .any n e s)

theorem run_inv {w : World} : ∀ (os : List Op) {s : St}, Inv w s → Inv w (run w os s).2
  | [], _, h => h
  | o :: os, _, h => run_inv os (step_inv h o)

theorem init_inv (w : World) : Inv w init := by intro n p h; simp [init] at h

/-- What `get` does, in one place. -/
theorem get_cases (w : World) (k : Want) (n : Name) (e : Bool) (s : St) :
    ((get w k n e s).1 = none ∧ (get w k n e s).2 = (lookup s n).2) ∨
    (∃ p, (lookup s n).1 = p ∧ castOk w k p = true ∧ s.excl p = false ∧
      (e = true → s.nonExcl p = false) ∧ (get w k n e s).1 = some p ∧
      (get w k n e s).2.excl = (if e then upd s.excl p true else s.excl) ∧
      (get w k n e s).2.nonExcl = (if e then s.nonExcl else upd s.nonExcl p true)) := by
  simp only [get]
  by_cases hc : castOk w k (lookup s n).1 = true
  · by_cases hx : s.excl (lookup s n).1 = true
    · left; simp [hc, lookup_excl, hx]
    · cases e with
      | false =>
        right
        refine ⟨_, rfl, hc, by simpa using hx, by simp, ?_⟩
        simp [hc, lookup_excl, lookup_nonExcl, hx]
      | true =>
        by_cases hn : s.nonExcl (lookup s n).1 = true
        · left; simp [hc, lookup_excl, lookup_nonExcl, hx, hn]
        · right
          refine ⟨_, rfl, hc, by simpa using hx, by simpa using hn, ?_⟩
          simp [hc, lookup_excl, lookup_nonExcl, hx, hn]
  · left; simp [hc]

/-- Results and states of the two kinds of requests. -/
theorem step_get (w : World) (k : Want) (n : Name) (e : Bool) (s : St) :
    (step w (.get k n e) s).2 = (get w k n e s).2 ∧
    ∀ p, (step w (.get k n e) s).1 = .ptr p ↔ (get w k n e s).1 = some p := by
  constructor
  · simp only [step]; split <;> rename_i h <;> rw [h]
  · intro p
    simp only [step]
    split <;> rename_i h <;> simp [h]

theorem step_peripheral (w : World) (b : Bool) (n : Name) (e : Bool) (s : St) :
    (step w (.peripheral b n e) s).2 = (get w .any n e s).2 ∧
    ∀ p, (step w (.peripheral b n e) s).1 = .ptr (some p) → (get w .any n e s).1 = some (some p) := by
  constructor
  · rw [← peripheral_state w b]
    simp only [step]
    split <;> rename_i h <;> rw [h]
  · intro p
    simp only [step, peripheral]
    split <;> rename_i h
    · simp
    · intro hp
      split at h <;> try (simp at h)
      rename_i hg
      split at h <;> simp at h
      rw [hg]
      simp only [Res.ptr.injEq, Option.some.injEq] at hp
      rw [h.1, hp]

/-- A claim of `p` survives everything except a release under `p`'s own name. -/
theorem claim_kept {w : World} {s : St} (hi : Inv w s) (p : Sig) (o : Op)
    (ho : o ≠ .release (w.idOf p)) :
    (s.excl (some p) = true → (step w o s).2.excl (some p) = true) ∧
    (s.nonExcl (some p) = true → (step w o s).2.nonExcl (some p) = true) := by
  have hget : ∀ k n e, (s.excl (some p) = true → (get w k n e s).2.excl (some p) = true) ∧
      (s.nonExcl (some p) = true → (get w k n e s).2.nonExcl (some p) = true) := by
    intro k n e
    rcases get_cases w k n e s with ⟨_, h⟩ | ⟨q, _, _, _, _, _, h1, h2⟩
    · rw [h, lookup_excl, lookup_nonExcl]; exact ⟨id, id⟩
    · rw [h1, h2]
      constructor
      · intro hp; split
        · unfold upd; split <;> simp [hp]
        · exact hp
      · intro hp; split
        · exact hp
        · unfold upd; split <;> simp [hp]
  cases o with
  | add q =>
    simp only [step, add]
    cases q with
    | none => exact ⟨id, id⟩
    | some q => simp only; split <;> exact ⟨id, id⟩
  | get k n e => rw [(step_get w k n e s).1]; exact hget k n e
  | peripheral b n e => rw [(step_peripheral w b n e s).1]; exact hget .any n e
  | release n =>
    have hne : (lookup s n).1 ≠ some p := by
      intro h
      rw [lookup_some] at h
      apply ho
      rw [hi n p h]
    have hne' : ¬ (some p = (lookup s n).1) := fun h => hne h.symm
    simp only [step, release]
    constructor <;> intro hp <;> (repeat' split) <;>
      simp_all [upd, lookup_excl, lookup_nonExcl]

theorem claim_kept_run {w : World} (p : Sig) : ∀ (os : List Op) {s : St}, Inv w s →
    Op.release (w.idOf p) ∉ os →
    (s.excl (some p) = true → (run w os s).2.excl (some p) = true) ∧
    (s.nonExcl (some p) = true → (run w os s).2.nonExcl (some p) = true)
  | [], _, _, _ => ⟨id, id⟩
  | o :: os, s, hi, hr => by
    have h1 := claim_kept hi p o (fun h => hr (by rw [h]; exact List.mem_cons_self ..))
    have h2 := claim_kept_run p os (step_inv hi o) (fun h => hr (List.mem_cons_of_mem _ h))
    exact ⟨fun h => h2.1 (h1.1 h), fun h => h2.2 (h1.2 h)⟩

/-- Handing out records the claim, and needs that nobody else holds an incompatible claim. -/
theorem handed_out {w : World} {s : St} {o : Op} {e : Bool} {p : Sig}
    (ho : o.requests = some e) (hr : (step w o s).1 = .ptr (some p)) :
    s.excl (some p) = false ∧ (e = true → s.nonExcl (some p) = false) ∧
    (if e then (step w o s).2.excl (some p) = true else (step w o s).2.nonExcl (some p) = true) := by
  have hget : ∀ k n, (get w k n e s).1 = some (some p) →
      s.excl (some p) = false ∧ (e = true → s.nonExcl (some p) = false) ∧
      (if e then (get w k n e s).2.excl (some p) = true
        else (get w k n e s).2.nonExcl (some p) = true) := by
    intro k n h
    rcases get_cases w k n e s with ⟨h1, _⟩ | ⟨q, _, _, h1, h2, h3, h4, h5⟩
    · rw [h1] at h; simp at h
    · rw [h3] at h
      simp only [Option.some.injEq] at h
      subst h
      refine ⟨h1, h2, ?_⟩
      rw [h4, h5]
      cases e <;> simp [upd]
  cases o with
  | add q => simp [Op.requests] at ho
  | release n => simp [Op.requests] at ho
  | get k n e' =>
    simp only [Op.requests, Option.some.injEq] at ho
    subst ho
    rw [(step_get w k n _ s).1]
    exact hget k n (((step_get w k n _ s).2 _).1 hr)
  | peripheral b n e' =>
    simp only [Op.requests, Option.some.injEq] at ho
    subst ho
    rw [(step_peripheral w b n _ s).1]
    exact hget .any n ((step_peripheral w b n _ s).2 p hr)

theorem step_requests {w : World} {s : St} {o : Op} {p : Option Sig}
    (h : (step w o s).1 = .ptr p) : ∃ e, o.requests = some e := by
  cases o with
  | add q => simp only [step] at h; split at h <;> simp at h
  | release n => simp only [step] at h; split at h <;> simp at h
  | get k n e => exact ⟨e, rfl⟩
  | peripheral b n e => exact ⟨e, rfl⟩

/-- **C40** A signal handed out exclusively is handed out to nobody, exclusively or not, through
any getter and any name, until `release` is called with its name. -/
theorem exclusive_until_release (w : World) (before between : List Op) (o₁ o₂ : Op) (p : Sig)
    (hreq : o₁.requests = some true)
    (hout : (step w o₁ (run w before init).2).1 = .ptr (some p))
    (hrel : Op.release (w.idOf p) ∉ between) :
    (step w o₂ (run w between (step w o₁ (run w before init).2).2).2).1 ≠ .ptr (some p) := by
  intro h
  have hi := run_inv before (init_inv w)
  have h1 := (handed_out hreq hout).2.2
  simp only [if_true] at h1
  have h2 := (claim_kept_run p between (step_inv hi o₁) hrel).1 h1
  obtain ⟨e, he⟩ := step_requests h
  rw [(handed_out he h).1] at h2
  exact Bool.noConfusion h2

/-- **C40** (true part of the second half) A signal handed out non-exclusively is not handed out
exclusively until *some* release with its name.  The full statement, "until all holders have
released it", is refuted by `one_release_clears_all_holders`. -/
theorem shared_until_release_partial (w : World) (before between : List Op) (o₁ o₂ : Op) (p : Sig)
    (hreq : o₁.requests = some false)
    (hout : (step w o₁ (run w before init).2).1 = .ptr (some p))
    (hrel : Op.release (w.idOf p) ∉ between) (hreq₂ : o₂.requests = some true) :
    (step w o₂ (run w between (step w o₁ (run w before init).2).2).2).1 ≠ .ptr (some p) := by
  intro h
  have hi := run_inv before (init_inv w)
  have h1 := (handed_out hreq hout).2.2
  simp only [Bool.false_eq_true, if_false] at h1
  have h2 := (claim_kept_run p between (step_inv hi o₁) hrel).2 h1
  rw [(handed_out hreq₂ h).2.1 rfl] at h2
  exact Bool.noConfusion h2

/-- **C40** Nothing is handed out that was not added, and only under its own name. -/
theorem handed_out_registered (w : World) (before : List Op) (k : Want) (n : Name) (e : Bool)
    (p : Sig) (h : (step w (.get k n e) (run w before init).2).1 = .ptr (some p)) :
    w.idOf p = n ∧ (k = .logic → w.kindOf p = .logic) ∧ (k = .scalable → w.kindOf p = .scalable) := by
  have hi := run_inv before (init_inv w)
  rw [(step_get w k n e _).2] at h
  rcases get_cases w k n e (run w before init).2 with ⟨h1, _⟩ | ⟨q, h0, hc, _, _, h1, _⟩
  · rw [h1] at h; simp at h
  · rw [h1] at h
    simp only [Option.some.injEq] at h
    rw [h] at h0 hc
    refine ⟨hi n p (lookup_some.1 h0), ?_, ?_⟩
    · intro hk; rw [hk] at hc; simpa [castOk] using hc
    · intro hk; rw [hk] at hc; simpa [castOk] using hc

/-! A world with two signals, `0` = logic signal "a", `1` = scalable signal "b". -/

def wEx : World := ⟨fun p => if p = 0 then "a" else "b", fun p => if p = 0 then .logic else .scalable⟩

/-- **C40 violated**: two blocks share a signal, one of them releases it, and the signal is then
handed out exclusively although the other block still holds it. -/
theorem one_release_clears_all_holders :
    (run wEx [.add (some 0), .get .any "a" false, .get .any "a" false, .release "a",
      .get .any "a" true] init).1 =
    [.done, .ptr (some 0), .ptr (some 0), .done, .ptr (some 0)] := by decide +kernel

/-- Non-vacuity of `exclusive_until_release`: the claim happens, other operations follow, and the
signal is available again after the release. -/
example :
    (run wEx [.add (some 0), .add (some 1), .get .logic "a" true, .get .any "b" false, .release "b",
      .get .any "a" false, .get .any "a" true, .release "a", .get .any "a" false] init).1 =
    [.done, .done, .ptr (some 0), .ptr (some 1), .done, .fault, .fault, .done, .ptr (some 0)] := by
  decide +kernel

/-- Non-vacuity of `shared_until_release_partial`. -/
example :
    (run wEx [.add (some 0), .get .any "a" false, .get .logic "a" false, .get .any "a" true] init).1 =
    [.done, .ptr (some 0), .ptr (some 0), .fault] := by decide +kernel

/-! ### Availability: the exact condition under which a request succeeds -/

/-- Specification: who holds signal `p` after a history of getter and release calls, computed
from the calls and their results only. -/
inductive Held where
  | nobody
  | shared
  | exclusive
  deriving DecidableEq, Repr

/-- Effect of one call with its result on the holder of `p`. -/
def Held.after (w : World) (p : Sig) (h : Held) : Op × Res → Held
  | (.get _ _ true, .ptr (some q)) => if q = p then .exclusive else h
  | (.get _ _ false, .ptr (some q)) => if q = p then .shared else h
  | (.release n, .done) => if n = w.idOf p then .nobody else h
  | _ => h

/-- `Held` after a list of calls with results. -/
def heldAfter (w : World) (p : Sig) (h : List (Op × Res)) : Held := h.foldl (Held.after w p) .nobody

def heldSt (s : St) (p : Sig) (h : Held) : Prop :=
  (s.excl (some p) = true ↔ h = .exclusive) ∧ (s.nonExcl (some p) = true ↔ h = .shared)

/-- Histories without peripheral constructors (those may leave a claim behind, see C68). -/
def Plain (os : List Op) : Prop := ∀ b n e, Op.peripheral b n e ∉ os

/-- If `p` is claimed then `p` is registered under its name. -/
def ClaimReg (w : World) (s : St) : Prop :=
  ∀ p, (s.excl (some p) = true ∨ s.nonExcl (some p) = true) → s.reg (w.idOf p) = some (some p)

theorem reg_kept {w : World} {s : St} (o : Op) {n : Name} {q : Option Sig}
    (h : s.reg n = some q) : (step w o s).2.reg n = some q := by
  have hl : ∀ m, (lookup s m).2.reg n = some q := by
    intro m
    rcases lookup_reg (s := s) (n := m) with h1 | ⟨h0, h1⟩
    · rw [h1]; exact h
    · rw [h1]
      unfold upd
      split
      · rename_i e; subst e; rw [h0] at h; simp at h
      · exact h
  cases o with
  | add p =>
    simp only [step, add]
    cases p with
    | none => exact h
    | some r =>
      simp only
      split
      · exact h
      · rename_i hn
        simp only [upd]
        split
        · rename_i e; subst e; simp [h] at hn
        · exact h
  | get k m e => rw [(step_get w k m e s).1, get_reg]; exact hl m
  | peripheral b m e => rw [(step_peripheral w b m e s).1, get_reg]; exact hl m
  | release m =>
    have : (step w (.release m) s).2 = (release m s).2 := rfl
    rw [this, release_reg]; exact hl m

theorem lookup_of_reg {s : St} {n : Name} {q : Option Sig} (h : s.reg n = some q) :
    lookup s n = (q, s) := by
  unfold lookup; rw [h]

theorem held_step {w : World} {s : St} (hi : Inv w s) (hc : ClaimReg w s) (p : Sig) (h : Held)
    (hh : heldSt s p h) (o : Op) (ho : ∀ b n e, o ≠ .peripheral b n e) :
    heldSt (step w o s).2 p (Held.after w p h (o, (step w o s).1)) ∧ ClaimReg w (step w o s).2 := by
  cases o with
  | peripheral b n e => exact absurd rfl (ho b n e)
  | add q =>
    have hs : (step w (.add q) s).2.excl = s.excl ∧ (step w (.add q) s).2.nonExcl = s.nonExcl := by
      simp only [step, add]
      cases q with
      | none => exact ⟨rfl, rfl⟩
      | some r => simp only; split <;> exact ⟨rfl, rfl⟩
    have ha : Held.after w p h (.add q, (step w (.add q) s).1) = h := by
      simp [Held.after]
    refine ⟨?_, ?_⟩
    · rw [ha]; unfold heldSt; rw [hs.1, hs.2]; exact hh
    · intro r hr
      rw [hs.1, hs.2] at hr
      exact reg_kept _ (hc r hr)
  | get k n e =>
    have hst := (step_get w k n e s).1
    have hres := (step_get w k n e s).2
    rcases get_cases w k n e s with ⟨h1, h2⟩ | ⟨q, h0, _, hx, hn, h1, h2, h3⟩
    · have hf : (step w (.get k n e) s).1 = .fault := by
        simp only [step]; split <;> rename_i h <;> simp_all
      refine ⟨?_, ?_⟩
      · rw [hf, hst, h2]
        have : Held.after w p h (.get k n e, .fault) = h := by cases e <;> rfl
        rw [this]
        unfold heldSt
        rw [lookup_excl, lookup_nonExcl]; exact hh
      · intro r hr
        rw [hst, h2, lookup_excl, lookup_nonExcl] at hr
        exact reg_kept _ (hc r hr)
    · have hf : (step w (.get k n e) s).1 = .ptr q := (hres q).2 h1
      refine ⟨?_, ?_⟩
      · rw [hf, hst]
        unfold heldSt
        rw [h2, h3]
        cases q with
        | none =>
          have : Held.after w p h (.get k n e, .ptr none) = h := by cases e <;> rfl
          rw [this]
          cases e <;> simpa [upd, heldSt] using hh
        | some r =>
          by_cases hrp : r = p
          · subst hrp
            cases e with
            | true => simp [upd, Held.after, hn rfl]
            | false => simp [upd, Held.after, hx]
          · have hne : ¬ (p = r) := fun h => hrp h.symm
            cases e <;> simpa [upd, Held.after, hrp, hne, heldSt] using hh
      · intro r hr
        rw [hst, h2, h3] at hr
        by_cases hq : some r = q
        · subst hq
          have h0' := lookup_some.1 h0
          rw [hi n r h0']
          exact reg_kept _ h0'
        · apply reg_kept
          apply hc r
          cases e <;> simpa [upd, hq] using hr
  | release n =>
    have hkeep : ∀ r, r ≠ (lookup s n).1 →
        (step w (.release n) s).2.excl r = s.excl r ∧
        (step w (.release n) s).2.nonExcl r = s.nonExcl r := by
      intro r hr
      simp only [step, release]
      (repeat' split) <;> simp_all [upd, lookup_excl, lookup_nonExcl]
    have hclear : (step w (.release n) s).2.excl (lookup s n).1 = false ∧
        (step w (.release n) s).2.nonExcl (lookup s n).1 = false := by
      simp only [step, release]
      (repeat' split) <;> simp_all [upd, lookup_excl, lookup_nonExcl]
    have hdone : (step w (.release n) s).1 =
        if s.nonExcl (lookup s n).1 || s.excl (lookup s n).1 then .done else .fault := by
      simp only [step, release]
      (repeat' split) <;> simp_all [lookup_excl, lookup_nonExcl]
    refine ⟨?_, ?_⟩
    · by_cases hp : (lookup s n).1 = some p
      · have hreg := lookup_some.1 hp
        have hid := hi n p hreg
        rw [hp] at hclear hdone
        unfold heldSt
        rw [hclear.1, hclear.2, hdone]
        split
        · simp [Held.after, hid]
        · rename_i hno
          simp only [Bool.or_eq_true, not_or, Bool.not_eq_true] at hno
          simp only [Held.after]
          unfold heldSt at hh
          rw [hno.1, hno.2] at hh
          exact hh
      · have hk := hkeep (some p) (fun h => hp h.symm)
        unfold heldSt
        rw [hk.1, hk.2]
        have : Held.after w p h (.release n, (step w (.release n) s).1) = h := by
          rw [hdone]
          split
          · simp only [Held.after]
            split
            · rename_i hid
              -- `p` is not registered under its name, hence not held
              have hnr : ¬ (s.excl (some p) = true ∨ s.nonExcl (some p) = true) := by
                intro hcl
                apply hp
                rw [lookup_some, hid]
                exact hc p hcl
              rw [not_or] at hnr
              cases h with
              | nobody => rfl
              | shared => exact absurd (hh.2.2 rfl) hnr.2
              | exclusive => exact absurd (hh.1.2 rfl) hnr.1
            · rfl
          · rfl
        rw [this]; exact hh
    · intro r hr
      apply reg_kept
      apply hc
      by_cases hq : some r = (lookup s n).1
      · rw [hq, hclear.1, hclear.2] at hr; simp at hr
      · have hk := hkeep (some r) hq
        rw [hk.1, hk.2] at hr; exact hr

theorem held_run {w : World} (p : Sig) : ∀ (os : List Op) {s : St} {h : Held}, Inv w s →
    ClaimReg w s → heldSt s p h → Plain os →
    heldSt (run w os s).2 p ((os.zip (run w os s).1).foldl (Held.after w p) h)
  | [], _, _, _, _, hh, _ => hh
  | o :: os, s, h, hi, hc, hh, hp => by
    have h1 := held_step hi hc p h hh o (fun b n e he => hp b n e (by rw [he]; exact List.mem_cons_self ..))
    exact held_run p os (step_inv hi o) h1.2 h1.1 (fun b n e he => hp b n e (List.mem_cons_of_mem _ he))

/-- **C40** (exact condition) After any history of add, get and release calls a request for a
registered signal of the right type succeeds exactly when nobody holds it, or when it is held by
sharing holders and the request is not exclusive.  `heldAfter` is computed from the visible
results of the history only. -/
theorem request_succeeds_iff (w : World) (os : List Op) (hos : Plain os) (k : Want) (n : Name)
    (e : Bool) (p : Sig) (hreg : (run w os init).2.reg n = some (some p))
    (hk : castOk w k (some p) = true) :
    (step w (.get k n e) (run w os init).2).1 = .ptr (some p) ↔
      heldAfter w p (os.zip (run w os init).1) = .nobody ∨
      (e = false ∧ heldAfter w p (os.zip (run w os init).1) = .shared) := by
  have hh := held_run p os (init_inv w) (by intro q hq; simp [init] at hq)
    (h := .nobody) (by simp [heldSt, init]) hos
  change heldSt (run w os init).2 p (heldAfter w p (os.zip (run w os init).1)) at hh
  rw [(step_get w k n e _).2]
  generalize run w os init = rs at hreg hh ⊢
  generalize heldAfter w p (os.zip rs.1) = hd at hh ⊢
  unfold heldSt at hh
  simp only [get, lookup_of_reg hreg, hk]
  cases hd <;> cases e <;> simp_all

example : (run wEx [.add (some 0), .get .any "a" false] init).2.reg "a" = some (some 0) := by
  decide +kernel
example : heldAfter wEx 0 ([.add (some 0), .get .any "a" false].zip
    (run wEx [.add (some 0), .get .any "a" false] init).1) = .shared := by decide +kernel

/-! ### C41: unknown names -/

/-- **C41 violated**: asking for an unknown signal leaves a null entry behind, and the signal can
no longer be added under that name. -/
theorem unknown_lookup_poisons_name :
    (run wEx [.get .logic "a" true, .add (some 0)] init).1 = [.fault, .fault] ∧
    (run wEx [.add (some 0)] init).1 = [.done] := by decide +kernel

/-- **C41 violated**: releasing an unknown signal also blocks its name. -/
theorem unknown_release_poisons_name :
    (run wEx [.release "a", .add (some 0)] init).1 = [.fault, .fault] := by decide +kernel

/-- **C41 violated**: the untyped getter does not fail for an unknown name but returns a null
pointer, reserving it, so that the next request for another unknown name fails as "reserved". -/
theorem unknown_get_returns_null :
    (run wEx [.get .any "x" true, .get .any "y" true] init).1 = [.ptr none, .fault] := by
  decide +kernel

/-- **C41** (true part) A typed request for a name under which nothing was added throws; the
untyped one never returns a signal; and no request or release for such a name changes the entry or
the claims of any signal which was added. What is missing is the second half of the claim, that a
signal with this name can be added afterwards (`unknown_lookup_poisons_name`). -/
theorem unknown_name_keeps_signals_partial (w : World) (before : List Op) (n : Name) (o : Op)
    (ho : (∃ k e, o = .get k n e) ∨ (∃ b e, o = .peripheral b n e) ∨ o = .release n)
    (hun : ∀ p, (run w before init).2.reg n ≠ some (some p)) :
    (∀ p, (step w o (run w before init).2).1 ≠ .ptr (some p)) ∧
    ((∃ k e, o = .get k n e ∧ k ≠ .any) → (step w o (run w before init).2).1 = .fault) ∧
    (∀ m q, (run w before init).2.reg m = some (some q) →
      (step w o (run w before init).2).2.reg m = some (some q)) ∧
    (∀ q, (step w o (run w before init).2).2.excl (some q) = (run w before init).2.excl (some q) ∧
      (step w o (run w before init).2).2.nonExcl (some q) =
        (run w before init).2.nonExcl (some q)) := by
  generalize (run w before init).2 = s at hun ⊢
  have hl : (lookup s n).1 = none := by
    rcases h : (lookup s n).1 with _ | p
    · rfl
    · exact absurd (lookup_some.1 h) (hun p)
  have hget : ∀ k e, (∀ p, (get w k n e s).1 ≠ some (some p)) ∧
      (k ≠ .any → (get w k n e s).1 = none) ∧
      ∀ q, (get w k n e s).2.excl (some q) = s.excl (some q) ∧
        (get w k n e s).2.nonExcl (some q) = s.nonExcl (some q) := by
    intro k e
    rcases get_cases w k n e s with ⟨h1, h2⟩ | ⟨q, h0, hc, _, _, h1, h2, h3⟩
    · rw [h1, h2, lookup_excl, lookup_nonExcl]; simp
    · rw [hl] at h0
      subst h0
      rw [h1, h2, h3]
      refine ⟨by simp, ?_, ?_⟩
      · intro hk; cases k <;> simp [castOk] at hc hk
      · intro q; cases e <;> simp [upd]
  refine ⟨?_, ?_, fun m q h => reg_kept o h, ?_⟩
  · intro p hp
    rcases ho with ⟨k, e, rfl⟩ | ⟨b, e, rfl⟩ | rfl
    · exact (hget k e).1 p (((step_get w k n e s).2 _).1 hp)
    · exact (hget .any e).1 p ((step_peripheral w b n e s).2 p hp)
    · obtain ⟨e, he⟩ := step_requests hp
      simp [Op.requests] at he
  · rintro ⟨k, e, rfl, hk⟩
    have := (hget k e).2.1 hk
    simp only [step]; split <;> rename_i h <;> simp_all
  · intro q
    rcases ho with ⟨k, e, rfl⟩ | ⟨b, e, rfl⟩ | rfl
    · rw [(step_get w k n e s).1]; exact (hget k e).2.2 q
    · rw [(step_peripheral w b n e s).1]; exact (hget .any e).2.2 q
    · have hne : ¬ (some q = (lookup s n).1) := by rw [hl]; simp
      simp only [step, release]
      (repeat' split) <;> simp_all [upd, lookup_excl, lookup_nonExcl]

/-- Non-vacuity: an unknown name next to a claimed signal. -/
example : ∀ p, (run wEx [.add (some 0), .get .any "a" true] init).2.reg "zz" ≠ some (some p) := by
  intro p
  have : (run wEx [.add (some 0), .get .any "a" true] init).2.reg "zz" = none := by decide +kernel
  rw [this]; simp

/-- **C41** Adding a signal under a name which occurs in no earlier call succeeds. -/
theorem add_fresh_name (w : World) (before : List Op) (p : Sig)
    (hfresh : ∀ o ∈ before, o ≠ .release (w.idOf p) ∧ (∀ k e, o ≠ .get k (w.idOf p) e) ∧
      (∀ b e, o ≠ .peripheral b (w.idOf p) e) ∧ ∀ q, o = .add (some q) → w.idOf q ≠ w.idOf p) :
    (step w (.add (some p)) (run w before init).2).1 = .done := by
  have hreg : ∀ (os : List Op) (s : St), s.reg (w.idOf p) = none →
      (∀ o ∈ os, o ≠ .release (w.idOf p) ∧ (∀ k e, o ≠ .get k (w.idOf p) e) ∧
        (∀ b e, o ≠ .peripheral b (w.idOf p) e) ∧ ∀ q, o = .add (some q) → w.idOf q ≠ w.idOf p) →
      (run w os s).2.reg (w.idOf p) = none := by
    intro os
    induction os with
    | nil => intro s h _; exact h
    | cons o os ih =>
      intro s h ho
      change (run w os (step w o s).2).2.reg _ = none
      refine ih (step w o s).2 ?_ (fun o' h' => ho o' (List.mem_cons_of_mem _ h'))
      obtain ⟨h1, h2, h3, h4⟩ := ho o (List.mem_cons_self ..)
      have hl : ∀ m, m ≠ w.idOf p → (lookup s m).2.reg (w.idOf p) = none := by
        intro m hm
        rcases lookup_reg (s := s) (n := m) with e | ⟨_, e⟩
        · rw [e]; exact h
        · rw [e]; unfold upd; rw [if_neg (fun h => hm h.symm)]; exact h
      cases o with
      | add q =>
        simp only [step, add]
        cases q with
        | none => exact h
        | some r =>
          simp only
          split
          · exact h
          · have := h4 r rfl
            simp only [upd]
            rw [if_neg (fun h => this h.symm)]; exact h
      | get k m e =>
        rw [(step_get w k m e s).1, get_reg]
        exact hl m (fun hm => h2 k e (by rw [hm]))
      | peripheral b m e =>
        rw [(step_peripheral w b m e s).1, get_reg]
        exact hl m (fun hm => h3 b e (by rw [hm]))
      | release m =>
        have : (step w (.release m) s).2 = (release m s).2 := rfl
        rw [this, release_reg]
        exact hl m (fun hm => h1 (by rw [hm]))
  have := hreg before init rfl hfresh
  simp [step, add, this]

/-! ### C68: a peripheral block whose construction fails -/

/-- **C68 violated**: constructing a `PeripheralInput<double>` on a logic signal throws, but the
signal stays reserved and the correct block cannot be created any more. -/
theorem failed_construction_keeps_claim :
    (run wEx [.add (some 0), .peripheral false "a" true, .peripheral true "a" true] init).1 =
      [.done, .fault, .fault] ∧
    (run wEx [.add (some 0), .peripheral true "a" true] init).1 = [.done, .ptr (some 0)] := by
  decide +kernel

/-- **C68** (true part) If construction fails because the signal is not available, all claims on
existing signals are unchanged; it can only leave a claim behind on a signal of the wrong type.
Missing: the case of a wrong type, see `failed_construction_keeps_claim`. -/
theorem failed_construction_partial (w : World) (before : List Op) (b : Bool) (n : Name) (e : Bool)
    (hf : (step w (.peripheral b n e) (run w before init).2).1 = .fault) (q : Sig)
    (hq : w.idOf q ≠ n ∨ (w.kindOf q = .logic ↔ b = true)) :
    (step w (.peripheral b n e) (run w before init).2).2.excl (some q) =
      (run w before init).2.excl (some q) ∧
    (step w (.peripheral b n e) (run w before init).2).2.nonExcl (some q) =
      (run w before init).2.nonExcl (some q) := by
  have hi := run_inv before (init_inv w)
  generalize (run w before init).2 = s at hf hi ⊢
  rw [(step_peripheral w b n e s).1]
  rcases get_cases w .any n e s with ⟨h1, h2⟩ | ⟨r, h0, hc, _, _, h1, h2, h3⟩
  · rw [h2, lookup_excl, lookup_nonExcl]; exact ⟨rfl, rfl⟩
  · have hne : some q ≠ r := by
      intro hr
      subst hr
      have hid := hi n q (lookup_some.1 h0)
      rcases hq with hq | hq
      · exact hq hid
      · have hp : peripheral w b n e s = (some q, (get w .any n e s).2) := by
          unfold peripheral
          split <;> rename_i h
          · rw [h] at h1; simp at h1
          · rw [h] at h1; simp at h1
          · rw [h] at h1
            simp only [Option.some.injEq] at h1
            subst h1
            rw [if_pos (propext hq), h]
        simp only [step, hp] at hf
        exact Res.noConfusion hf
    rw [h2, h3]
    cases e <;> simp [upd, hne]

example : (step wEx (.peripheral true "a" true)
    (run wEx [.add (some 0), .get .any "a" true] init).2).1 = .fault ∧
    (wEx.kindOf 0 = .logic ↔ true = true) := by decide +kernel

/-- Case of `exclusive_until_release`. -/
example : (step wEx (.get .any "a" false) (run wEx [.release "b", .get .any "b" true] (step wEx (.get .logic "a" true) (run wEx [.add (some 0), .add (some 1)] init).2).2).2).1 ≠
    .ptr (some 0) :=
  exclusive_until_release wEx [.add (some 0), .add (some 1)] [.release "b", .get .any "b" true] (.get .logic "a" true) (.get .any "a" false) 0 rfl (by decide +kernel) (by decide +kernel)

end Verif.Hal
