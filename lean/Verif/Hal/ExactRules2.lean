/-
C289-C291: exact rules behind the partial claims C123 (features), C128 (distance sensor) and C132, C134 (USB protocol of the ODrive).
No new model; the definitions are those of `Features.lean`, `BaumerData.lean` and `External/ODriveEP.lean`.
-/
import Verif.Hal.FeaturesProps
import Verif.Hal.BaumerDataProps
import Verif.External.ODriveEPProps

namespace Verif.Hal.Features

/-- Specification: the functions among which is searched. -/
def searched (p : Proc) (o : Obj) : List Fn := match o.handle with | some h => p.lib h | none => p.globals

/-- Specification: `f` is the first function with this name. -/
def FirstNamed (l : List Fn) (name : String) (f : Fn) : Prop := ∃ a b, l = a ++ f :: b ∧ f.name = name ∧ ∀ g ∈ a, g.name ≠ name

theorem find_iff (l : List Fn) (name : String) (f : Fn) : (l.find? fun f => f.name == name) = some f ↔ FirstNamed l name f := by
  rw [List.find?_eq_some_iff_append]
  simp only [beq_iff_eq, Bool.not_eq_true', beq_eq_false_iff_ne]
  constructor
  · rintro ⟨h, a, b, e, ha⟩; exact ⟨a, b, e, h, ha⟩
  · rintro ⟨a, b, e, h, ha⟩; exact ⟨h, a, b, e, ha⟩

theorem dlsym_eq (p : Proc) (o : Obj) (name : String) : dlsym p o.handle name = (searched p o).find? fun f => f.name == name := by
  unfold dlsym searched; cases o.handle <;> rfl

/-- **C289** The outcome of every call of a feature: the function is called (with this object) exactly if the first function with this name has the types of the arguments given; a fault is raised
exactly if no function has this name; the call is undefined exactly if the first function with this name has other types. -/
theorem call_exact (p : Proc) (o : Obj) (name : String) (args : List Ty) :
    (∀ f o', call p o name args = .called f o' ↔ o' = o ∧ FirstNamed (searched p o) name f ∧ f.args = args) ∧
    (call p o name args = .fault ↔ ∀ f ∈ searched p o, f.name ≠ name) ∧
    (call p o name args = .undefined ↔ ∃ f, FirstNamed (searched p o) name f ∧ f.args ≠ args) := by
  unfold call
  rw [dlsym_eq]
  have hfind := find_iff (searched p o) name
  cases h : (searched p o).find? fun f => f.name == name with
  | none =>
    have hn : ∀ f, ¬ FirstNamed (searched p o) name f := fun f hf => by rw [← hfind, h] at hf; cases hf
    have hall : ∀ f ∈ searched p o, f.name ≠ name := by simpa using List.find?_eq_none.1 h
    refine ⟨fun f o' => by simp [hn f], by simp only [true_iff]; exact hall, by simp [hn]⟩
  | some f =>
    have hf := (hfind f).1 h
    have hu : ∀ g, FirstNamed (searched p o) name g → g = f := fun g hg => by
      rw [← hfind, h] at hg; exact (Option.some.inj hg).symm
    have hm : f ∈ searched p o ∧ f.name = name := by
      obtain ⟨a, b, e, h1, -⟩ := hf
      exact ⟨by rw [e]; simp, h1⟩
    by_cases ha : f.args = args
    · simp only [ha, if_true]
      refine ⟨fun g o' => ?_, ?_, ?_⟩
      · constructor
        · intro e; cases e; exact ⟨rfl, hf, ha⟩
        · rintro ⟨rfl, h1, -⟩; rw [hu g h1]
      · simp only [reduceCtorEq, false_iff]; exact fun hall => hall f hm.1 hm.2
      · simp only [reduceCtorEq, false_iff]; rintro ⟨g, hg, hne⟩; rw [hu g hg] at hne; exact hne ha
    · simp only [ha, if_false]
      refine ⟨fun g o' => ?_, ?_, ?_⟩
      · simp only [reduceCtorEq, false_iff]; rintro ⟨-, h1, h2⟩; rw [hu g h1] at h2; exact ha h2
      · simp only [reduceCtorEq, false_iff]; exact fun hall => hall f hm.1 hm.2
      · simp only [true_iff]; exact ⟨f, hf, ha⟩

/-- The library has its own `reset` with a number. -/
example : let p : Proc := ⟨fun _ => [⟨"arm", [], 1⟩, ⟨"reset", [.int], 1⟩, ⟨"reset", [], 2⟩], []⟩
    watchdog p ⟨0, some 1⟩ .run = .undefined ∧ watchdog p ⟨0, some 1⟩ .arm = .called ⟨"arm", [], 1⟩ ⟨0, some 1⟩ ∧ watchdog p ⟨0, none⟩ .arm = .fault := by decide

end Verif.Hal.Features

namespace Verif.Hal.BaumerData

/-- **C290** For all sequences of replies: the block puts out the distance of the last read which was good, and an indeterminate value exactly if there was none. -/
theorem block_exact (replies : List (Option (Nat → Nat))) (t : Nat) :
    block (loop init replies) t = ((replies.filterMap id).getLast?.map fun r => milli (toFloat (r 3 + 65536 * r 4)), t) := by
  have key : (loop init replies).tabReg 3 = (replies.filterMap id).getLast?.map (· 3) ∧ (loop init replies).tabReg 4 = (replies.filterMap id).getLast?.map (· 4) ∧
      (loop init replies).distance = (replies.filterMap id).getLast?.map fun r => milli (toFloat (r 3 + 65536 * r 4)) := by
    induction replies using List.reverseRecOn with
    | nil => exact ⟨rfl, rfl, rfl⟩
    | append_singleton rs r ih =>
      have hl : loop init (rs ++ [r]) = getMeasurements (loop init rs) r := by unfold loop; rw [List.foldl_append]; rfl
      rw [hl]
      obtain ⟨h1, h2, h3⟩ := ih
      cases r with
      | some r => simp [getMeasurements]
      | none =>
        have hn : (rs ++ [none]).filterMap id = rs.filterMap id := by rw [List.filterMap_append]; exact List.append_nil _
        rw [hn]
        generalize (rs.filterMap id).getLast? = g at h1 h2 h3
        cases g with
        | none => simp only [Option.map_none] at h1 h2; simp [getMeasurements, h1, h2]
        | some q => simp only [Option.map_some] at h1 h2; simp [getMeasurements, h1, h2]
  show ((loop init replies).distance, t) = _
  rw [key.2.2]

example (q r : Nat → Nat) : (block (loop init [none, some q, none, some r, none]) 9).1 = some (milli (toFloat (r 3 + 65536 * r 4))) := by
  rw [block_exact]; rfl

end Verif.Hal.BaumerData

namespace Verif.External.ODriveEP

/-- **C291** What a caller of `getData` gets, for every variable with at least one byte and everything the USB does: success with the value `v` exactly if both transfers succeed and either the answer has
no data and `v` is the old value, or there are enough data and `v` are the first of them. -/
theorem get_value_iff (e : Ep) (u : Usb) (old v : List Nat) (hold : old ≠ []) :
    (∃ e', getData e u old = .ret 0 v e') ↔ u.sent = 0 ∧ u.got = 0 ∧
      ((u.bytes.length = 2 ∧ v = old) ∨ (2 + old.length ≤ u.bytes.length ∧ v = (u.bytes.drop 2).take old.length)) := by
  have hpos : 0 < old.length := List.length_pos_iff.2 hold
  by_cases hf : u.sent ≠ 0 ∨ u.got ≠ 0
  · obtain ⟨c, e', h, hc⟩ := get_failed e u old hf
    rw [h]
    constructor
    · rintro ⟨e'', h'⟩
      injection h' with h1
      exact absurd h1 hc
    · rintro ⟨h1, h2, -⟩
      exact absurd hf (by simp [h1, h2])
  · push Not at hf
    unfold getData request
    simp only [hf.1, hf.2, ne_eq, not_true_eq_false, if_false, if_true, true_and]
    match u.bytes with
    | [] => simp [decode]
    | [_] => simp [decode]; omega
    | b0 :: b1 :: rest =>
      simp only [decode, Option.getD_some, List.length_cons, not_true_eq_false, if_false, List.drop_succ_cons, List.drop_zero]
      by_cases h0 : rest.length > 0
      · rw [if_pos h0]
        by_cases h1 : rest.length < old.length
        · rw [if_pos h1]
          constructor
          · rintro ⟨_, h⟩; cases h
          · rintro (⟨h, -⟩ | ⟨h, -⟩) <;> omega
        · rw [if_neg h1]
          constructor
          · rintro ⟨_, h⟩; injection h with _ h; exact .inr ⟨by omega, h.symm⟩
          · rintro (⟨h, -⟩ | ⟨-, h⟩)
            · omega
            · exact ⟨_, by rw [h]⟩
      · rw [if_neg h0]
        constructor
        · rintro ⟨_, h⟩; injection h with _ h; exact .inl ⟨by omega, h.symm⟩
        · rintro (⟨-, h⟩ | ⟨h, -⟩)
          · exact ⟨_, by rw [h]⟩
          · omega

example : ∃ e', getData {} ⟨0, 0, [9, 9, 1, 2, 3]⟩ [0, 0] = .ret 0 [1, 2] e' := (get_value_iff _ _ _ _ (by simp)).2 (by decide)

/-- **C291** An error is reported exactly if a transfer fails, with the code of the transfer, and the variable keeps its value. -/
theorem get_error_iff (e : Ep) (u : Usb) (old v : List Nat) (c : Int) (hc : c ≠ 0) :
    (∃ e', getData e u old = .ret c v e') ↔ v = old ∧ (u.sent = c ∨ u.sent = 0 ∧ u.got = c) := by
  by_cases h1 : u.sent ≠ 0
  · have : getData e u old = .ret u.sent old ⟨nextSeq e.seq, false⟩ := by simp [getData, request, h1]
    rw [this]
    constructor
    · rintro ⟨e', h⟩; injection h with h2 h3; exact ⟨h3.symm, .inl h2⟩
    · rintro ⟨rfl, h2 | h2⟩
      · exact ⟨_, by rw [h2]⟩
      · exact absurd h2.1 h1
  · rw [ne_eq, not_not] at h1
    by_cases h2 : u.got ≠ 0
    · have : getData e u old = .ret u.got old ⟨nextSeq e.seq, false⟩ := by simp [getData, request, h1, h2]
      rw [this]
      constructor
      · rintro ⟨e', h⟩; injection h with h2 h3; exact ⟨h3.symm, .inr ⟨h1, h2⟩⟩
      · rintro ⟨rfl, h3 | h3⟩
        · exact absurd (h1.symm.trans h3) hc.symm
        · exact ⟨_, by rw [h3.2]⟩
    · rw [ne_eq, not_not] at h2
      constructor
      · rintro ⟨e', h⟩
        unfold getData request at h
        simp only [h1, h2, ne_eq, not_true_eq_false, if_false, if_true] at h
        cases hd : decode u.bytes with
        | none => rw [hd] at h; cases h
        | some x =>
          rw [hd] at h
          simp only [not_true_eq_false, if_false] at h
          split at h
          · split at h
            · cases h
            · injection h with h3; exact absurd h3.symm hc
          · injection h with h3; exact absurd h3.symm hc
      · rintro ⟨-, h3 | h3⟩
        · exact absurd (h1.symm.trans h3).symm hc
        · exact absurd (h2.symm.trans h3.2).symm hc

example : ∃ e', getData {} ⟨0, -7, []⟩ [1] = .ret (-7) [1] e' := (get_error_iff _ _ _ _ _ (by decide)).2 (by decide)

/-- **C291** `init` of a new object, for all results of `libusb_init` and all lists of devices: 0 is returned exactly if libusb was initialised and there is no device at all or one which can be used; there is a
handle exactly in the second case; the list of devices is kept exactly in the first case. -/
theorem init_exact (nr : Nat) (code : Int) (ds : List Dev) :
    ((init nr code ds {}).1 = 0 ↔ code = 0 ∧ (ds = [] ∨ ∃ d ∈ ds, Usable nr d)) ∧
    ((init nr code ds {}).2.handle ≠ none ↔ code = 0 ∧ ∃ d ∈ ds, Usable nr d) ∧
    ((init nr code ds {}).2.list = true ↔ code = 0 ∧ ds = []) := by
  by_cases hc : code = 0
  · subst hc
    by_cases hne : ds = []
    · subst hne
      rw [no_device_violated]
      simp
    · rcases init_partial nr ds hne with ⟨h1, h2⟩ | ⟨k, d, h1, h2, -, h4⟩
      · rw [h2]
        have : ¬ ∃ d ∈ ds, Usable nr d := fun ⟨d, hd, hu⟩ => h1 d hd hu
        simp [hne, this]
      · rw [h4]
        have : ∃ d ∈ ds, Usable nr d := ⟨d, List.mem_of_getElem? h1, h2⟩
        simp [hne, this]
  · have : init nr code ds {} = (code, {}) := by simp [init, hc]
    rw [this]
    simp [hc]

/-- **C291** After `init` and the destructor an interface stays claimed exactly if a device was used. -/
theorem released_iff (nr : Nat) (code : Int) (ds : List Dev) :
    (destroy (init nr code ds {}).2).claimed = [] ↔ ¬ (code = 0 ∧ ∃ d ∈ ds, Usable nr d) := by
  rw [← (init_exact nr code ds).2.1]
  by_cases hc : code = 0
  · subst hc
    by_cases hne : ds = []
    · subst hne
      rw [no_device_violated]
      simp [destroy]
    · rcases init_partial nr ds hne with ⟨h1, h2⟩ | ⟨k, d, h1, h2, -, h4⟩
      · rw [h2]; simp [destroy]
      · rw [h4]; simp [destroy, Lib.release, Lib.close]
  · have : init nr code ds {} = (code, {}) := by simp [init, hc]
    rw [this]
    simp [destroy]

example : Usable 5 ⟨true, true, true, true, true, true, "5".toList⟩ := by
  refine ⟨rfl, rfl, rfl, .inl rfl, rfl, by decide, ?_⟩
  have : Hal.ODriveUsb.hex 5 = "5".toList := by simp [Hal.ODriveUsb.hex, Hal.ODriveUsb.digits, Hal.ODriveUsb.digit]
  rw [this]
  exact List.prefix_refl _

end Verif.External.ODriveEP
