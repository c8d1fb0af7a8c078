/-
C293: exact rule behind the partial claim C108 (which ODrive is used).
No new model; the definitions are those of `ODriveUsb.lean`.
-/
import Verif.Hal.ODriveUsbProps

namespace Verif.Hal.ODriveUsb

/-- Specification: a drive whose serial number is a non-empty prefix of the number asked for. -/
def Accepted (nr : Nat) (d : Device) : Prop := d.product = true ∧ ∃ buf, d.serial = some buf ∧ buf ≠ [] ∧ buf <+: hex nr

/-- **C293** For every list of devices: the device used is the first one which is accepted; there is none exactly if none is accepted; an error is reported exactly if there are devices and none is accepted. -/
theorem selects_exact (nr : Nat) (ds : List Device) :
    (∀ i, (init nr ds).handle = some i ↔ ∃ d, ds[i]? = some d ∧ Accepted nr d ∧ ∀ e ∈ ds.take i, ¬ Accepted nr e) ∧
    ((init nr ds).handle = none ↔ ∀ d ∈ ds, ¬ Accepted nr d) ∧
    (reported (init nr ds) = true ↔ ds ≠ [] ∧ ∀ d ∈ ds, ¬ Accepted nr d) := by
  have key : ∀ (ds : List Device) (k i : Nat), scan nr k ds = some i ↔ ∃ j d, i = k + j ∧ ds[j]? = some d ∧ Accepted nr d ∧ ∀ e ∈ ds.take j, ¬ Accepted nr e := by
    intro ds
    induction ds with
    | nil => intro k i; simp [scan]
    | cons d ds ih =>
      intro k i
      by_cases ha : attaches nr d = true
      · have hacc : Accepted nr d := (attaches_iff nr d).1 ha
        rw [scan, if_pos ha, Option.some.injEq]
        constructor
        · rintro rfl
          exact ⟨0, d, rfl, rfl, hacc, by simp⟩
        · rintro ⟨j, d', rfl, -, -, h⟩
          cases j with
          | zero => rfl
          | succ j => exact absurd hacc (h d (by simp))
      · have hacc : ¬ Accepted nr d := fun h => ha ((attaches_iff nr d).2 h)
        rw [scan, if_neg ha, ih]
        constructor
        · rintro ⟨j, d', rfl, h1, h2, h3⟩
          refine ⟨j + 1, d', by omega, by simpa using h1, h2, ?_⟩
          intro e he
          rw [List.take_succ_cons, List.mem_cons] at he
          rcases he with rfl | he
          · exact hacc
          · exact h3 e he
        · rintro ⟨j, d', rfl, h1, h2, h3⟩
          cases j with
          | zero => simp only [List.getElem?_cons_zero, Option.some.injEq] at h1; rw [← h1] at h2; exact absurd h2 hacc
          | succ j => exact ⟨j, d', by omega, by simpa using h1, h2, fun e he => h3 e (by rw [List.take_succ_cons]; exact List.mem_cons_of_mem _ he)⟩
  have hnone : ∀ ds : List Device, ∀ k, scan nr k ds = none ↔ ∀ d ∈ ds, ¬ Accepted nr d := by
    intro ds
    induction ds with
    | nil => intro k; simp [scan]
    | cons d ds ih =>
      intro k
      by_cases ha : attaches nr d = true
      · have hacc : Accepted nr d := (attaches_iff nr d).1 ha
        rw [scan, if_pos ha]
        simp only [reduceCtorEq, false_iff]
        exact fun h => h d (by simp) hacc
      · have hacc : ¬ Accepted nr d := fun h => ha ((attaches_iff nr d).2 h)
        rw [scan, if_neg ha, ih]
        simp [hacc]
  by_cases hne : ds = []
  · subst hne
    simp [init, reported]
  · have hinit : (init nr ds).handle = scan nr 0 ds ∧ (reported (init nr ds) = true ↔ scan nr 0 ds = none) := by
      cases hs : scan nr 0 ds <;> simp [init, hne, hs, reported]
    refine ⟨fun i => ?_, ?_, ?_⟩
    · rw [hinit.1, key]
      constructor
      · rintro ⟨j, d, rfl, h⟩
        exact ⟨d, by simpa using h⟩
      · rintro ⟨d, h⟩
        exact ⟨i, d, by omega, h⟩
    · rw [hinit.1, hnone]
    · rw [hinit.2, hnone]
      simp [hne]

/-- **C293** Another drive than the one asked for is used exactly if the first accepted one has a shorter number. -/
theorem wrong_drive_iff (nr : Nat) (ds : List Device) (i : Nat) (d : Device) (hi : (init nr ds).handle = some i) (hd : ds[i]? = some d) :
    d.serial ≠ some (hex nr) ↔ ∃ buf, d.serial = some buf ∧ buf.length < (hex nr).length := by
  obtain ⟨d', h1, ⟨-, buf, h2, -, h3⟩, -⟩ := ((selects_exact nr ds).1 i).1 hi
  rw [hd] at h1
  cases h1
  rw [h2]
  constructor
  · intro hne
    refine ⟨buf, rfl, ?_⟩
    rcases Nat.lt_or_ge buf.length (hex nr).length with h | h
    · exact h
    · exact absurd (by rw [h3.eq_of_length_le h]) hne
  · rintro ⟨b, hb, hl⟩ he
    cases hb
    cases he
    exact Nat.lt_irrefl _ hl

/-- The drive 207 is used though 207A was asked for. -/
example : init 0x207A [⟨true, none⟩, ⟨true, some "207".toList⟩, ⟨true, some "207A".toList⟩] = ⟨0, some 1⟩ := by
  simp [init, scan, attaches, same, hex, digits, digit]

end Verif.Hal.ODriveUsb
