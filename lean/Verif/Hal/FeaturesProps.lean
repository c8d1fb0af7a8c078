/-
C123: features of inputs and outputs.
-/
import Verif.Hal.Features

namespace Verif.Hal.Features

/-- **C123 (partial)** An object of a library which defines the function (before any other of this name) with these arguments: this function is called with the object.
Missing: other arguments, see `types_violated`; objects of the framework, see `null_handle_violated`. -/
theorem called_partial (p : Proc) (o : Obj) (h : Nat) (ho : o.handle = some h) (f : Fn) (a b : List Fn) (hl : p.lib h = a ++ f :: b) (ha : ∀ g ∈ a, g.name ≠ f.name) :
    call p o f.name f.args = .called f o := by
  have : dlsym p o.handle f.name = some f := by
    unfold dlsym
    rw [ho]
    simp only
    rw [hl, List.find?_append, List.find?_eq_none.2 fun g hg => by simpa using ha g hg]
    simp
  rw [call, this]
  simp

/-- A library with three features. -/
example : call ⟨fun _ => [⟨"arm", [], 3⟩, ⟨"reset", [], 3⟩, ⟨"setFrequency", [.double], 3⟩], []⟩ ⟨0, some 3⟩ "setFrequency" [.double] = .called ⟨"setFrequency", [.double], 3⟩ ⟨0, some 3⟩ :=
  called_partial _ _ 3 rfl ⟨"setFrequency", [.double], 3⟩ [⟨"arm", [], 3⟩, ⟨"reset", [], 3⟩] [] rfl (by decide)

/-- **C123** A library without the function: a fault, and nothing is called. -/
theorem missing_fault (p : Proc) (o : Obj) (h : Nat) (ho : o.handle = some h) (name : String) (hn : ∀ f ∈ p.lib h, f.name ≠ name) (args : List Ty) : call p o name args = .fault := by
  have : dlsym p o.handle name = none := by
    unfold dlsym
    rw [ho]
    exact List.find?_eq_none.2 fun g hg => by simpa using hn g hg
  rw [call, this]

example : call ⟨fun _ => [⟨"arm", [], 3⟩], [⟨"reset", [], 9⟩]⟩ ⟨0, some 3⟩ "reset" [] = .fault := missing_fault _ _ 3 rfl _ (by decide) _

/-- **C123** Only a function of the given name is ever called, with the object and the arguments of the caller; for an object of a library it is one of the library (or of those it depends on). -/
theorem only_named (p : Proc) (o q : Obj) (name : String) (args : List Ty) (f : Fn) (h : call p o name args = .called f q) :
    q = o ∧ f.name = name ∧ f.args = args ∧ ∀ k, o.handle = some k → f ∈ p.lib k := by
  unfold call at h
  cases hd : dlsym p o.handle name with
  | none => rw [hd] at h; cases h
  | some g =>
    rw [hd] at h
    simp only at h
    split at h
    · rename_i hg
      cases h
      refine ⟨rfl, ?_, hg, ?_⟩
      · unfold dlsym at hd
        split at hd <;> exact (by simpa using List.find?_some hd)
      · intro k hk
        unfold dlsym at hd
        rw [hk] at hd
        exact List.mem_of_find?_eq_some hd
    · cases h

example (p : Proc) (f : Fn) (q : Obj) (h : call p ⟨0, some 3⟩ "reset" [] = .called f q) : f ∈ p.lib 3 := (only_named p _ q _ _ f h).2.2.2 3 rfl

/-- **C123 violated**: the types of the arguments are not checked: a call with any others than those of the function is undefined (an `int` for a `double`, say). -/
theorem types_violated (p : Proc) (o : Obj) (h : Nat) (ho : o.handle = some h) (f : Fn) (a b : List Fn) (hl : p.lib h = a ++ f :: b) (ha : ∀ g ∈ a, g.name ≠ f.name) (args : List Ty)
    (hne : args ≠ f.args) : call p o f.name args = .undefined := by
  have : dlsym p o.handle f.name = some f := by
    unfold dlsym
    rw [ho]
    simp only
    rw [hl, List.find?_append, List.find?_eq_none.2 fun g hg => by simpa using ha g hg]
    simp
  rw [call, this]
  exact if_neg fun e => hne e.symm

example : call ⟨fun _ => [⟨"setFrequency", [.double], 3⟩], []⟩ ⟨0, some 3⟩ "setFrequency" [.int] = .undefined :=
  types_violated _ _ 3 rfl ⟨"setFrequency", [.double], 3⟩ [] [] rfl (by simp) _ (by decide)

/-- **C123 violated**: an input of the framework itself has no library; instead of a fault, the first function of this name in the whole program is called with the input. -/
theorem null_handle_violated (p : Proc) (o : Obj) (ho : o.handle = none) (f : Fn) (a b : List Fn) (hl : p.globals = a ++ f :: b) (ha : ∀ g ∈ a, g.name ≠ f.name) :
    call p o f.name f.args = .called f o := by
  have : dlsym p o.handle f.name = some f := by
    unfold dlsym
    rw [ho]
    simp only
    rw [hl, List.find?_append, List.find?_eq_none.2 fun g hg => by simpa using ha g hg]
    simp
  rw [call, this]
  simp

/-- A mouse button and a function `reset` of another library of the program. -/
example : call ⟨fun _ => [], [⟨"main", [], 0⟩, ⟨"reset", [], 7⟩]⟩ ⟨0, none⟩ "reset" [] = .called ⟨"reset", [], 7⟩ ⟨0, none⟩ :=
  null_handle_violated _ _ rfl ⟨"reset", [], 7⟩ [⟨"main", [], 0⟩] [] rfl (by decide)

/-- **C123** A watchdog of a library with the two functions: every run resets the timer, and only `arm` arms it. -/
theorem watchdog_partial (p : Proc) (wdt : Obj) (h : Nat) (ho : wdt.handle = some h) (r a : Fn) (hr : r.name = "reset" ∧ r.args = []) (ha : a.name = "arm" ∧ a.args = [])
    (hrm : r ∈ p.lib h) (ham : a ∈ p.lib h) (hu : ∀ f ∈ p.lib h, ∀ g ∈ p.lib h, f.name = g.name → f = g) (ws : List Wd) :
    ws.map (watchdog p wdt) = ws.map fun w => .called (match w with | .run => r | .arm => a) wdt := by
  have key : ∀ f ∈ p.lib h, call p wdt f.name f.args = .called f wdt := by
    intro f hf
    obtain ⟨l, l', hl⟩ := List.append_of_mem hf
    cases hc : call p wdt f.name f.args with
    | called g q =>
      obtain ⟨h1, h2, -, h4⟩ := only_named p wdt q _ _ g hc
      rw [hu g (h4 h ho) f hf h2, h1]
    | fault =>
      unfold call dlsym at hc
      rw [ho] at hc
      simp only at hc
      cases hfd : (p.lib h).find? fun g => g.name == f.name with
      | none => exact absurd (List.find?_eq_none.1 hfd f hf) (by simp)
      | some g => rw [hfd] at hc; simp only at hc; split at hc <;> cases hc
    | undefined =>
      unfold call dlsym at hc
      rw [ho] at hc
      simp only at hc
      cases hfd : (p.lib h).find? fun g => g.name == f.name with
      | none => rw [hfd] at hc; cases hc
      | some g =>
        have hg : g = f := hu g (List.mem_of_find?_eq_some hfd) f hf (by simpa using List.find?_some hfd)
        rw [hfd, hg] at hc
        simp at hc
  apply List.map_congr_left
  intro w _
  cases w
  · have := key r hrm
    rw [hr.1, hr.2] at this
    exact this
  · have := key a ham
    rw [ha.1, ha.2] at this
    exact this

example : [Wd.arm, .run, .run].map (watchdog ⟨fun _ => [⟨"arm", [], 3⟩, ⟨"reset", [], 3⟩], []⟩ ⟨0, some 3⟩) =
    [.called ⟨"arm", [], 3⟩ ⟨0, some 3⟩, .called ⟨"reset", [], 3⟩ ⟨0, some 3⟩, .called ⟨"reset", [], 3⟩ ⟨0, some 3⟩] :=
  watchdog_partial _ _ 3 rfl ⟨"reset", [], 3⟩ ⟨"arm", [], 3⟩ ⟨rfl, rfl⟩ ⟨rfl, rfl⟩ (by decide) (by decide) (by decide) _

end Verif.Hal.Features
