/-
C40, C41, C68, C268: the exact rules of the signal registry of the HAL, for all worlds and histories (model: `Hal/Registry.lean`).
-/
import Verif.Hal.RegistryProps

namespace Verif.Hal

/-- Specification: the call mentions the name `n`, as argument or as the id of the signal to be added. -/
def Mentions (w : World) (n : Name) : Op → Prop
  | .add (some q) => w.idOf q = n
  | .add none => False
  | .get _ m _ => m = n
  | .release m => m = n
  | .peripheral _ m _ => m = n

theorem lookup_isSome (s : St) (n m : Name) : ((lookup s m).2.reg n).isSome = true ↔ (s.reg n).isSome = true ∨ m = n := by
  rcases lookup_reg (s := s) (n := m) with e | ⟨h0, e⟩
  · rw [e]
    constructor
    · exact Or.inl
    · rintro (h | rfl)
      · exact h
      · by_contra hn
        have h0 : s.reg m = none := by simpa using hn
        have : (lookup s m).2.reg m = some none := by simp [lookup, h0, upd]
        rw [e, h0] at this
        simp at this
  · rw [e]
    by_cases h : n = m
    · subst h; simp [upd]
    · simp only [upd, if_neg h]
      exact ⟨Or.inl, fun h' => h'.elim id (fun h' => absurd h'.symm h)⟩

theorem step_isSome (w : World) (s : St) (n : Name) (o : Op) :
    (((step w o s).2.reg n).isSome = true) ↔ (s.reg n).isSome = true ∨ Mentions w n o := by
  cases o with
  | add q =>
    cases q with
    | none => simp [step, add, Mentions]
    | some q =>
      simp only [step, add, Mentions]
      split
      · rename_i h
        constructor
        · exact Or.inl
        · rintro (h' | rfl)
          · exact h'
          · exact h
      · by_cases h : n = w.idOf q
        · subst h; simp [upd]
        · simp only [upd, if_neg h]
          exact ⟨Or.inl, fun h' => h'.elim id (fun h' => absurd h'.symm h)⟩
  | get k m e => rw [(step_get w k m e s).1, get_reg, lookup_isSome]; rfl
  | peripheral b m e => rw [(step_peripheral w b m e s).1, get_reg, lookup_isSome]; rfl
  | release m =>
    have : (step w (.release m) s).2 = (release m s).2 := rfl
    rw [this, release_reg, lookup_isSome]; rfl

theorem run_isSome (w : World) (n : Name) : ∀ (os : List Op) (s : St),
    ((run w os s).2.reg n).isSome = true ↔ (s.reg n).isSome = true ∨ ∃ o ∈ os, Mentions w n o
  | [], s => by simp [run]
  | o :: os, s => by
    change ((run w os (step w o s).2).2.reg n).isSome = true ↔ _
    rw [run_isSome w n os, step_isSome]
    simp [or_assoc]

/-- **C268** A signal can be added exactly if no earlier call of any kind, successful or not, mentioned its name. -/
theorem add_succeeds_iff (w : World) (before : List Op) (p : Sig) :
    (step w (.add (some p)) (run w before init).2).1 = .done ↔ ∀ o ∈ before, ¬ Mentions w (w.idOf p) o := by
  have h := run_isSome w (w.idOf p) before init
  have h0 : (init.reg (w.idOf p)).isSome = false := rfl
  rw [h0] at h
  simp only [Bool.false_eq_true, false_or] at h
  simp only [step, add]
  by_cases hs : ((run w before init).2.reg (w.idOf p)).isSome = true
  · simp only [hs, if_true]
    obtain ⟨o, ho, hm⟩ := h.1 hs
    simp only [Bool.false_eq_true, if_false, reduceCtorEq, false_iff]
    exact fun h' => h' o ho hm
  · simp only [hs]
    simp only [Bool.false_eq_true, if_false, if_true, true_iff]
    exact fun o ho hm => hs (h.2 ⟨o, ho, hm⟩)

example : (∀ o ∈ ([.add (some 1), .get .any "b" true, .add none] : List Op), ¬ Mentions wEx (wEx.idOf 0) o) ∧
    (step wEx (.add (some 0)) (run wEx [.add (some 1), .get .any "b" true, .add none] init).2).1 = .done := by
  constructor
  · intro o ho; simp only [List.mem_cons, List.not_mem_nil, or_false] at ho
    rcases ho with rfl | rfl | rfl <;> simp [Mentions, wEx]
  · decide +kernel

/-- **C41 violated**, for every name and every history: after one request or release of a name under which nothing was added, whether it fails or not,
every attempt to add a signal with this name fails for ever. -/
theorem unknown_name_blocked_violated (w : World) (before between : List Op) (o : Op) (p : Sig)
    (ho : (∃ k e, o = .get k (w.idOf p) e) ∨ (∃ b e, o = .peripheral b (w.idOf p) e) ∨ o = .release (w.idOf p)) :
    (step w (.add (some p)) (run w (before ++ o :: between) init).2).1 = .fault := by
  have hm : Mentions w (w.idOf p) o := by rcases ho with ⟨k, e, rfl⟩ | ⟨b, e, rfl⟩ | rfl <;> rfl
  have h := (add_succeeds_iff w (before ++ o :: between) p).not.2 (fun h => h o (by simp) hm)
  simp only [step] at h ⊢
  cases h1 : (add w (some p) (run w (before ++ o :: between) init).2).1 <;> simp_all

example : (step wEx (.add (some 0)) (run wEx ([.add (some 1)] ++ .get .logic "a" false :: [.release "b"]) init).2).1 = .fault :=
  unknown_name_blocked_violated wEx _ _ _ 0 (Or.inl ⟨_, _, rfl⟩)

/-- **C41 violated**: the untyped request for a name under which nothing was added succeeds with a null pointer, exactly as long as no earlier null pointer
handed out stands in the way. -/
theorem unknown_get_null_violated (w : World) (before : List Op) (n : Name) (e : Bool) (hun : ∀ p, (run w before init).2.reg n ≠ some (some p)) :
    (step w (.get .any n e) (run w before init).2).1 = .ptr none ↔
      (run w before init).2.excl none = false ∧ (e = true → (run w before init).2.nonExcl none = false) := by
  generalize (run w before init).2 = s at hun ⊢
  have hl : (lookup s n).1 = none := by
    rcases h : (lookup s n).1 with _ | p
    · rfl
    · exact absurd (lookup_some.1 h) (hun p)
  rw [(step_get w .any n e s).2]
  simp only [get, hl, castOk, lookup_excl, lookup_nonExcl]
  cases s.excl none <;> cases s.nonExcl none <;> cases e <;> simp

example : (step wEx (.get .any "x" true) (run wEx [.add (some 0)] init).2).1 = .ptr none ∧
    (step wEx (.get .any "y" true) (run wEx [.add (some 0), .get .any "x" true] init).2).1 = .fault := by decide +kernel

/-- **C40 violated**, for every signal and every history: after one release every request succeeds, however many holders shared the signal before. -/
theorem release_clears_all_violated (w : World) (before : List Op) (k : Want) (n : Name) (e : Bool) (p : Sig)
    (hreg : (run w before init).2.reg n = some (some p)) (hk : castOk w k (some p) = true) :
    (step w (.get k n e) (step w (.release n) (run w before init).2).2).1 = .ptr (some p) := by
  generalize (run w before init).2 = s at hreg ⊢
  have hl : lookup s n = (some p, s) := by simp [lookup, hreg]
  have hs : (step w (.release n) s).2 = (release n s).2 := rfl
  rw [hs, (step_get w k n e _).2]
  have hr : (release n s).2.reg n = some (some p) := by rw [release_reg, hl]; exact hreg
  have hl' : lookup (release n s).2 n = (some p, (release n s).2) := by simp [lookup, hr]
  have h1 : (release n s).2.excl (some p) = false := by
    simp only [release, hl]; (repeat' split) <;> simp_all [upd]
  have h2 : (release n s).2.nonExcl (some p) = false := by
    simp only [release, hl]; (repeat' split) <;> simp_all [upd]
  simp only [get, hl', hk, h1, h2]
  cases e <;> simp

example : (run wEx [.add (some 0), .get .any "a" false, .get .any "a" false, .get .logic "a" false] init).2.reg "a" = some (some 0) ∧
    castOk wEx .logic (some 0) = true := by decide +kernel

/-- **C68 violated**, for every free signal: constructing a peripheral block of the wrong type throws and the signal stays claimed, so that nobody gets it
exclusively, and nobody at all if the block asked for exclusive use. -/
theorem wrong_type_claims_violated (w : World) (before : List Op) (b : Bool) (n : Name) (e : Bool) (p : Sig)
    (hreg : (run w before init).2.reg n = some (some p)) (hk : ¬ (w.kindOf p = .logic ↔ b = true))
    (hx : (run w before init).2.excl (some p) = false) (hn : (run w before init).2.nonExcl (some p) = false) :
    (step w (.peripheral b n e) (run w before init).2).1 = .fault ∧
    ∀ o e', o.requests = some e' → (e = true ∨ e' = true) →
      (step w o (step w (.peripheral b n e) (run w before init).2).2).1 ≠ .ptr (some p) := by
  generalize (run w before init).2 = s at hreg hx hn ⊢
  have hl : lookup s n = (some p, s) := by simp [lookup, hreg]
  have hg : get w .any n e s = (some (some p), if e then { s with excl := upd s.excl (some p) true }
      else { s with nonExcl := upd s.nonExcl (some p) true }) := by
    simp only [get, hl, castOk, hx, hn]; cases e <;> simp
  have hp : peripheral w b n e s = (none, (get w .any n e s).2) := by
    unfold peripheral
    rw [hg]
    simp only
    rw [if_neg (fun h => hk (by rw [h]))]
  constructor
  · simp only [step, hp]
  · intro o e' ho hee hr
    have h := handed_out ho hr
    rw [(step_peripheral w b n e s).1, hg] at h
    cases e with
    | true => simp [upd] at h
    | false =>
      simp only [Bool.false_eq_true, false_or] at hee
      simp [upd, hee] at h

example : (run wEx [.add (some 0)] init).2.reg "a" = some (some 0) ∧ ¬ (wEx.kindOf 0 = .logic ↔ false = true) ∧
    (run wEx [.add (some 0)] init).2.excl (some 0) = false ∧ (run wEx [.add (some 0)] init).2.nonExcl (some 0) = false := by decide +kernel

end Verif.Hal
