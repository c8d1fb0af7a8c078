/-
C129: arrays, twists and odometry in ROS messages.
-/
import Verif.Control.RosData

namespace Verif.Control.RosData

variable {T : Type}

theorem getColVector_get {M N : Nat} (a : Mat M N T) (n : Fin N) (m : Fin M) : (getColVector a n)[m.val]? = some (a m n) := by
  unfold getColVector
  rw [List.getElem?_map]
  simp

/-- **C129 (partial)** A column vector which is published arrives unchanged at a subscriber with the same number of rows, with the time of the reception.
Missing: matrices with more columns and vectors of other lengths, see `columns_violated` and `short_violated`. -/
theorem array_partial {M : Nat} (a : Mat M 1 T) (old : List (Option T)) (val : Mat M 1 T) (t : Nat) :
    arrayReceive (N := 0) val t (arrayMsg (N := 0) old (some a)) = some (a, t) := by
  have hl : (getColVector a 0).length = M := by simp [getColVector]
  show (setCol val 0 (getColVector a 0)).map _ = _
  unfold setCol
  rw [if_pos (by rw [hl]; exact Nat.le_refl _)]
  simp only [Option.map_some, Option.some.injEq, Prod.mk.injEq, and_true]
  funext m k
  have hk : k = 0 := Subsingleton.elim _ _
  subst hk
  rw [if_pos rfl, getColVector_get]
  rfl

example : (arrayReceive (M := 2) (N := 0) (fun _ _ => none) 9 (arrayMsg (M := 2) (N := 0) [] (some fun m _ => some m.val))).map (fun r => (r.1 1 0, r.2)) = some (some 1, 9) := by
  rw [array_partial]
  rfl

/-- **C129** The subscriber takes the first elements of the message, in order, and ignores the others, whenever there are enough. -/
theorem received {M N : Nat} (val : Mat M (N + 1) T) (t : Nat) (data : List T) (h : M ≤ data.length) :
    ∃ v, arrayReceive val t (data.map some) = some (v, t) ∧ ∀ m : Fin M, v m 0 = data[m.val]? := by
  unfold arrayReceive setCol
  rw [if_pos (by simpa using h)]
  refine ⟨_, rfl, fun m => ?_⟩
  show (if (0 : Fin (N + 1)) = 0 then _ else _) = _
  rw [if_pos rfl, List.getElem?_map]
  cases hd : data[m.val]? with
  | none =>
    rw [List.getElem?_eq_none_iff] at hd
    have := m.isLt
    omega
  | some x => rfl

example : ∃ v : Mat 2 1 Nat, arrayReceive (N := 0) (fun _ _ => none) 4 ([7, 8, 9].map some) = some (v, 4) ∧ ∀ m : Fin 2, v m 0 = [7, 8, 9][m.val]? :=
  received _ 4 [7, 8, 9] (by decide)

/-- **C129 violated**: a message which is too short makes the subscriber read behind the end of the vector. -/
theorem short_violated {M N : Nat} (val : Mat M (N + 1) T) (t : Nat) (data : List (Option T)) (h : data.length < M) : arrayReceive val t data = none := by
  unfold arrayReceive setCol
  rw [if_neg (by omega)]
  rfl

/-- An empty message. -/
example (val : Mat 3 1 Nat) : arrayReceive (N := 0) val 0 [] = none := short_violated val 0 [] (by decide)

/-- **C129 violated**: all columns but the first are lost: matrices with the same first column give the same message, and a subscriber keeps in the other columns what it had before (nothing, at the beginning). -/
theorem columns_violated {M N : Nat} (a b : Mat M (N + 1) T) (h : ∀ m, a m 0 = b m 0) (old : List (Option T)) :
    arrayMsg old (some a) = arrayMsg old (some b) ∧
      ∀ (val : Mat M (N + 1) T) t data v, arrayReceive val t data = some (v, t) → ∀ m k, k ≠ 0 → v m k = val m k := by
  constructor
  · simp only [arrayMsg, getColVector, h]
  · intro val t data v hr m k hk
    unfold arrayReceive setCol at hr
    split at hr
    · cases hr
      show (if k = 0 then _ else _) = _
      rw [if_neg hk]
    · cases hr

/-- Two different matrices with two columns. -/
example : arrayMsg (M := 1) (N := 1) [] (some fun _ k => some k.val) = arrayMsg (M := 1) (N := 1) [] (some fun _ _ => some 0) :=
  (columns_violated (M := 1) (N := 1) (fun _ k => some k.val) (fun _ _ => some 0) (fun _ => rfl) []).1

/-- **C129** Without a connected input the message keeps its content (an empty array, if there was none before), and it is published nevertheless if there was a master at the construction; without a master nothing is ever published. -/
theorem unconnected {M N : Nat} (running : Bool) (old : List (Option T)) :
    publish running (arrayMsg (M := M) (N := N) old none) = if running then [old] else [] := rfl

example : publish true (arrayMsg (T := Nat) (M := 3) (N := 0) [] none) = [[]] := unconnected true []

/-- **C129** Linear and angular velocity of a twist are on their own output, in the order x, y, z; two different twists give different outputs. -/
theorem twist_spec (l a : Vec3 T) :
    parseTwist ⟨l, a⟩ = [[l.x, l.y, l.z], [a.x, a.y, a.z]] ∧ ∀ w, parseTwist ⟨l, a⟩ = parseTwist w → w = ⟨l, a⟩ := by
  refine ⟨rfl, fun w h => ?_⟩
  obtain ⟨⟨a1, a2, a3⟩, b1, b2, b3⟩ := w
  obtain ⟨l1, l2, l3⟩ := l
  obtain ⟨c1, c2, c3⟩ := a
  simp only [parseTwist, List.cons.injEq, and_true] at h
  obtain ⟨⟨rfl, rfl, rfl⟩, rfl, rfl, rfl⟩ := h
  rfl

example : parseTwist (⟨⟨1, 2, 3⟩, ⟨4, 5, 6⟩⟩ : Twist Nat) = [[1, 2, 3], [4, 5, 6]] := (twist_spec ⟨1, 2, 3⟩ ⟨4, 5, 6⟩).1

/-- **C129** With all inputs connected, every field of the odometry message has the value of its input: position from the first, orientation from the second (by `setRPY` with roll, pitch, yaw in this order), linear and angular velocity from the third and fourth,
and the covariances from theirs; the velocities arrive at a twist subscriber in the same order. -/
theorem odometry_spec (rpy : T → T → T → Quat T) (f c : String) (now : Nat) (p r l a : Vec3 T) (cp ct : List T) :
    ∃ m, odomMsg rpy f c now ⟨fun i => match i with | 0 => some [p.x, p.y, p.z] | 1 => some [r.x, r.y, r.z] | 2 => some [l.x, l.y, l.z] | _ => some [a.x, a.y, a.z], some cp, some ct⟩ = some m ∧
      m.position = p ∧ m.orientation = rpy r.x r.y r.z ∧ m.covPose = cp ∧ m.covTwist = ct ∧ m.frame = f ∧ m.child = c ∧ m.stamp = now ∧
      parseTwist m.twist = [[l.x, l.y, l.z], [a.x, a.y, a.z]] :=
  ⟨_, rfl, rfl, rfl, rfl, rfl, rfl, rfl, rfl, rfl⟩

example : (odomMsg (fun r p y => ⟨r, p, y, 1⟩) "odom" "base" 5 ⟨fun i => some [3 * i, 3 * i + 1, 3 * i + 2], some [], some []⟩).map (fun m => (m.position.y, m.orientation.z, m.twist.angular.x)) = some (1, 5, 9) := by decide

/-- **C129** The message is only published if all six inputs are connected. -/
theorem odometry_all (rpy : T → T → T → Quat T) (f c : String) (now : Nat) (i : OdomIn T)
    (h : i.vec 0 = none ∨ i.vec 1 = none ∨ i.vec 2 = none ∨ i.vec 3 = none ∨ i.covPose = none ∨ i.covTwist = none) : odomMsg rpy f c now i = none := by
  unfold odomMsg
  generalize hp : vec3 (i.vec 0) = p
  generalize hr : vec3 (i.vec 1) = r
  generalize hl : vec3 (i.vec 2) = l
  generalize ha : vec3 (i.vec 3) = a
  have h' : p = none ∨ r = none ∨ l = none ∨ a = none ∨ i.covPose = none ∨ i.covTwist = none := by
    rcases h with h | h | h | h | h
    · left; rw [← hp, h]; rfl
    · right; left; rw [← hr, h]; rfl
    · right; right; left; rw [← hl, h]; rfl
    · right; right; right; left; rw [← ha, h]; rfl
    · right; right; right; right; exact h
  clear hp hr hl ha h
  generalize i.covPose = cp at *
  generalize i.covTwist = ct at *
  cases p <;> cases r <;> cases l <;> cases a <;> cases cp <;> cases ct <;> first | rfl | (exfalso; simp at h')

example : odomMsg (fun r p y => ⟨r, p, y, 1⟩) "odom" "base" 5 ⟨fun i => some [i, i, i], some [], none⟩ = none :=
  odometry_all _ _ _ _ _ (by simp)

end Verif.Control.RosData
