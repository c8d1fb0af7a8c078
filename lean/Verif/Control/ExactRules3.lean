/-
C294: exact rule behind the partial claims C105, C107 and C129 (subscribers of ROS topics): when a message can be received.
No new model; the definitions are those of `RosBlocks.lean` and `RosData.lean`.
-/
import Verif.Control.RosBlocksProps
import Verif.Control.RosDataProps

namespace Verif.Control.RosBlocks.Analog
variable {K : Type}

/-- **C294** Analog and digital signals: the output of size `size` after a message is the first part of the message, and it is read behind its end exactly if the message is shorter than the output. -/
theorem parse_exact (size : Nat) (val out : List K) :
    (parse size val = some out ↔ size ≤ val.length ∧ out = val.take size) ∧ (parse size val = none ↔ val.length < size) := by
  rcases Nat.lt_or_ge val.length size with h | h
  · rw [shorter_undefined size val h]
    simp only [reduceCtorEq, false_iff, true_iff, not_and]
    exact ⟨fun h' => by omega, h⟩
  · rw [longer_cut size val h]
    simp only [Option.some.injEq, reduceCtorEq, false_iff, Nat.not_lt]
    exact ⟨⟨fun e => ⟨h, e.symm⟩, fun e => e.2.symm⟩, h⟩

example : parse 2 [1, 2, 3] = some [1, 2] ∧ parse 2 [1] = none := by decide

end Verif.Control.RosBlocks.Analog

namespace Verif.Control.RosBlocks.Laser
variable {K : Type}

/-- **C294** Laser scans: what is received, for all messages. -/
theorem receive_exact (n m : Nat) (x : Msg K) (o : Out K) :
    receive n m x = some o ↔ n ≤ x.ranges.length ∧ m ≤ x.intensities.length ∧ o = ⟨x.scalars, x.ranges.take n, x.intensities.take m⟩ := by
  have hcol : ∀ (k : Nat) (l : List K), setCol k l = if k ≤ l.length then some (l.take k) else none := by
    intro k l
    rfl
  unfold receive
  rw [hcol, hcol]
  by_cases h1 : n ≤ x.ranges.length <;> by_cases h2 : m ≤ x.intensities.length <;> simp [h1, h2, eq_comm]

example : receive 2 1 (⟨fun _ => 0, [1, 2, 3], [4]⟩ : Msg Nat) = some ⟨fun _ => 0, [1, 2], [4]⟩ := (receive_exact _ _ _ _).2 ⟨by decide, by decide, rfl⟩

/-- **C294** From publisher to subscriber, with all inputs connected: the message can be received by outputs with `n` ranges and `m` intensities exactly if there are as many ranges; and the intensities which arrive are those of the
input exactly if their first `m` values are the first `m` ranges. -/
theorem roundtrip_iff (s : Pub K) (sc : Fin 7 → K) (r x : List K) (n m : Nat) :
    ((receive n m (setRosMsg s ⟨fun k => some (sc k), some r, some x⟩).msg).isSome ↔ n ≤ r.length ∧ m ≤ r.length) ∧
    ∀ o, receive n m (setRosMsg s ⟨fun k => some (sc k), some r, some x⟩).msg = some o →
      o.scalars = sc ∧ o.ranges = r.take n ∧ (o.intensities = x.take m ↔ r.take m = x.take m) := by
  constructor
  · rw [receive_iff]
    simp [setRosMsg]
  · intro o ho
    rw [receive_exact] at ho
    obtain ⟨-, -, rfl⟩ := ho
    simp [setRosMsg]

example : (receive 2 2 (setRosMsg ⟨⟨fun _ => 0, [], []⟩, [], []⟩ ⟨fun _ => some 1, some [1, 2], some [3, 4]⟩ : Pub Nat).msg).isSome :=
  (roundtrip_iff _ _ _ _ _ _).1.2 ⟨by decide, by decide⟩

end Verif.Control.RosBlocks.Laser

namespace Verif.Control.RosData
variable {T : Type}

/-- **C294** Arrays: the whole output after a message, and when the message is read behind its end. -/
theorem receive_exact {M N : Nat} (val : Mat M (N + 1) T) (t : Nat) (data : List T) :
    (∀ v t', arrayReceive val t (data.map some) = some (v, t') ↔ M ≤ data.length ∧ t' = t ∧ ∀ (m : Fin M) k, v m k = if k = 0 then data[m.val]? else val m k) ∧
    (arrayReceive val t (data.map some) = none ↔ data.length < M) := by
  rcases Nat.lt_or_ge data.length M with h | h
  · rw [short_violated val t _ (by simpa using h)]
    refine ⟨fun v t' => ?_, by simpa using h⟩
    simp only [reduceCtorEq, false_iff]
    rintro ⟨h', -⟩
    omega
  · obtain ⟨w, hw, h0⟩ := received val t data h
    have hk := (columns_violated val val (fun _ => rfl) []).2 val t (data.map some) w hw
    rw [hw]
    have hall : ∀ (m : Fin M) k, w m k = if k = 0 then data[m.val]? else val m k := by
      intro m k
      by_cases hz : k = 0
      · rw [if_pos hz, hz]; exact h0 m
      · rw [if_neg hz]; exact hk m k hz
    refine ⟨fun v t' => ?_, by simp; omega⟩
    simp only [Option.some.injEq, Prod.mk.injEq]
    constructor
    · rintro ⟨rfl, rfl⟩; exact ⟨h, rfl, hall⟩
    · rintro ⟨-, rfl, hv⟩
      refine ⟨?_, rfl⟩
      funext m k
      rw [hall, hv]

example : ∃ v : Mat 2 2 Nat, arrayReceive (N := 1) (fun _ _ => some 5) 4 ([7, 8, 9].map some) = some (v, 4) ∧ v 1 0 = some 8 ∧ v 1 1 = some 5 :=
  ⟨fun m k => if k = 0 then [7, 8, 9][m.val]? else some 5, ((receive_exact _ 4 [7, 8, 9]).1 _ _).2 ⟨by decide, rfl, fun _ _ => rfl⟩, by decide, by decide⟩

end Verif.Control.RosData
