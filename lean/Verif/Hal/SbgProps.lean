import Verif.Hal.Sbg
/-!
Theorems about the outputs of the inertial sensor.
-/
namespace Verif.Hal.Sbg
variable {V : Type}

/-- Specification: what a message says about the four quantities, with its time stamp. -/
def eulerOf : Msg V → Option (V × UInt32)
  | .euler _ v t => some (v, t)
  | _ => none
def quatOf : Msg V → Option (V × UInt32)
  | .quat _ v t => some (v, t)
  | _ => none
def accOf : Msg V → Option (V × UInt32)
  | .imu _ a _ t => some (a, t)
  | .fastImu _ a _ t => some (a, t)
  | _ => none
def gyroOf : Msg V → Option (V × UInt32)
  | .imu _ _ g t => some (g, t)
  | .fastImu _ _ g t => some (g, t)
  | _ => none

/-- The device of a message. -/
def Msg.dev : Msg V → Nat
  | .euler d _ _ | .quat d _ _ | .imu d _ _ _ | .fastImu d _ _ _ | .other d => d

/-- Specification: the last message which says something, otherwise the initial value. -/
def latest (f : Msg V → Option (V × UInt32)) (d : V × UInt32) (ms : List (Msg V)) : V × UInt32 := (ms.filterMap f).getLastD d

theorem latest_cons (f : Msg V → Option (V × UInt32)) (d : V × UInt32) (m : Msg V) (ms : List (Msg V)) :
    latest f d (m :: ms) = latest f ((f m).getD d) ms := by
  simp only [latest, List.filterMap_cons]
  cases h : f m with
  | none => rfl
  | some p => exact List.getLastD_cons

theorem run_values (ms : List (Msg V)) (s : St V) :
    ((run s ms).euler, (run s ms).tsEuler) = latest eulerOf (s.euler, s.tsEuler) ms ∧
    ((run s ms).quat, (run s ms).tsQuat) = latest quatOf (s.quat, s.tsQuat) ms ∧
    ((run s ms).acc, (run s ms).tsAcc) = latest accOf (s.acc, s.tsAcc) ms ∧
    ((run s ms).gyro, (run s ms).tsGyro) = latest gyroOf (s.gyro, s.tsGyro) ms := by
  induction ms generalizing s with
  | nil => exact ⟨rfl, rfl, rfl, rfl⟩
  | cons m ms ih =>
    have := ih (received s m)
    simp only [latest_cons]
    cases m <;> exact this

/-- For every sequence of messages the block shows for every quantity the value which was received last, and as `timestamp` the time of the last message
with Euler angles; all five signals carry the time of the run. -/
theorem outputs_latest (s : St V) (ms : List (Msg V)) (now : Nat) :
    let o := block (run s ms) now
    (o.euler, o.timestamp) = latest eulerOf (s.euler, s.tsEuler) ms ∧ o.quat = (latest quatOf (s.quat, s.tsQuat) ms).1 ∧
    o.acc = (latest accOf (s.acc, s.tsAcc) ms).1 ∧ o.gyro = (latest gyroOf (s.gyro, s.tsGyro) ms).1 ∧ o.stamp = now := by
  obtain ⟨h1, h2, h3, h4⟩ := run_values ms s
  exact ⟨h1, by rw [← h2]; rfl, by rw [← h3]; rfl, by rw [← h4]; rfl, rfl⟩

/-- Two messages with Euler angles, one with inertial data. -/
example : latest eulerOf (0, 0) [.euler 1 10 100, .imu 1 20 30 105, .euler 1 11 110, .quat 1 7 115] = ((11 : Nat), 110) := by decide

/-- Accelerations and angular velocities always belong to the same message if they did so initially. -/
theorem acc_gyro_same_time (s : St V) (ms : List (Msg V)) (h : s.tsAcc = s.tsGyro) : (run s ms).tsAcc = (run s ms).tsGyro := by
  induction ms generalizing s with
  | nil => exact h
  | cons m ms ih => exact ih (received s m) (by cases m <;> first | exact h | rfl)

/-- Every message is counted once, modulo 2^32; the logs of the fast mode are counted in `count` only. -/
theorem counted (s : St V) (ms : List (Msg V)) (fast : Msg V → Bool) (hf : ∀ m, fast m = true ↔ ∃ d a g t, m = .fastImu d a g t)
    (h : s.count = s.count0 + s.countEuler + s.countQuat + s.countImu) :
    (run s ms).count = (run s ms).count0 + (run s ms).countEuler + (run s ms).countQuat + (run s ms).countImu + UInt32.ofNat (ms.countP fast) ∧
    (run s ms).count = s.count + UInt32.ofNat ms.length := by
  suffices ∀ (ms : List (Msg V)) (s : St V) (k : UInt32), s.count = s.count0 + s.countEuler + s.countQuat + s.countImu + k →
      (run s ms).count = (run s ms).count0 + (run s ms).countEuler + (run s ms).countQuat + (run s ms).countImu + (k + UInt32.ofNat (ms.countP fast)) ∧
      (run s ms).count = s.count + UInt32.ofNat ms.length by
    have := this ms s 0 (by rw [h]; simp)
    simpa using this
  clear h s ms
  intro ms
  induction ms with
  | nil => intro s k h; simpa [run] using h
  | cons m ms ih =>
    intro s k h
    have hlen : ∀ n : Nat, s.count + UInt32.ofNat (n + 1) = s.count + 1 + UInt32.ofNat n := by
      intro n; rw [UInt32.ofNat_add]; simp only [UInt32.add_assoc]; congr 1; rw [UInt32.add_comm]; rfl
    by_cases hm : fast m = true
    · obtain ⟨d, a, g, t, rfl⟩ := (hf m).1 hm
      have := ih (received s (.fastImu d a g t)) (k + 1) (by
        simp only [received]; rw [h]; simp only [UInt32.add_assoc])
      refine ⟨?_, ?_⟩
      · rw [List.countP_cons_of_pos hm]
        have e : k + UInt32.ofNat (ms.countP fast + 1) = k + 1 + UInt32.ofNat (ms.countP fast) := by
          rw [UInt32.ofNat_add]; simp only [UInt32.add_assoc]; congr 1; rw [UInt32.add_comm]; rfl
        rw [e]; exact this.1
      · rw [List.length_cons, hlen]; exact this.2
    · have h' : (received s m).count = (received s m).count0 + (received s m).countEuler + (received s m).countQuat + (received s m).countImu + k := by
        cases m with
        | fastImu d a g t => exact absurd ((hf _).2 ⟨d, a, g, t, rfl⟩) hm
        | euler => simp only [received]; rw [h]; ac_rfl
        | quat => simp only [received]; rw [h]; ac_rfl
        | imu => simp only [received]; rw [h]; ac_rfl
        | other => simp only [received]; rw [h]; ac_rfl
      have := ih (received s m) k h'
      refine ⟨?_, ?_⟩
      · rw [List.countP_cons_of_neg hm]; exact this.1
      · rw [List.length_cons, hlen, show (run s (m :: ms)).count = (run (received s m) ms).count from rfl, this.2]
        congr 1; cases m <;> rfl

/-- Violation: `timestamp` is not the time of the other quantities: after every message with inertial data the output `acc` belongs to this message while
`timestamp` still is the time of an older one. -/
theorem timestamp_violated (s : St V) (ms : List (Msg V)) (d : Nat) (a g : V) (ts : UInt32) (now : Nat) (h : (run s ms).tsEuler ≠ ts) :
    (block (run s (ms ++ [.imu d a g ts])) now).acc = a ∧ (block (run s (ms ++ [.imu d a g ts])) now).timestamp ≠ ts := by
  have : run s (ms ++ [.imu d a g ts]) = received (run s ms) (.imu d a g ts) := by simp [run]
  rw [this]
  exact ⟨rfl, h⟩

example : (run (⟨0, 0, 0, 0, 0, 0, 0, 0, 0, 0, 0, 0, 0⟩ : St Nat) [.euler 1 10 100]).tsEuler ≠ 105 := by decide

/-- Violation: the blocks of two devices are not separate: what the block of the device 1 shows after a message of the device 2 is the value of the
device 2, whatever the device 1 has sent before. -/
theorem devices_violated (s : St V) (ms : List (Msg V)) (v : V) (ts : UInt32) (now : Nat) :
    (∀ m ∈ ms, m.dev = 1) → (block (run s (ms ++ [.euler 2 v ts])) now).euler = v := by
  intro _
  simp [run, received, block]

/-- With one device every value comes from this device. -/
theorem one_device_partial (s : St V) (ms : List (Msg V)) (d : Nat) (hd : ∀ m ∈ ms, m.dev = d) (now : Nat) (v : V) (hv : v ≠ s.euler)
    (h : (block (run s ms) now).euler = v) : ∃ ts, Msg.euler d v ts ∈ ms := by
  induction ms generalizing s with
  | nil => exact absurd h.symm hv
  | cons m ms ih =>
    have hm := hd m List.mem_cons_self
    have ht : ∀ m ∈ ms, m.dev = d := fun x hx => hd x (List.mem_cons_of_mem _ hx)
    by_cases he : ∃ ts, m = .euler d v ts
    · obtain ⟨ts, rfl⟩ := he; exact ⟨ts, List.mem_cons_self⟩
    · have hs : v ≠ (received s m).euler := by
        cases m with
        | euler d' v' ts => intro e; exact he ⟨ts, by simp only [Msg.dev] at hm; rw [hm, e]; rfl⟩
        | quat => exact hv
        | imu => exact hv
        | fastImu => exact hv
        | other => exact hv
      obtain ⟨ts, hts⟩ := ih (received s m) ht hs h
      exact ⟨ts, List.mem_cons_of_mem _ hts⟩

example : (block (run (⟨0, 0, 0, 0, 0, 0, 0, 0, 0, 0, 0, 0, 0⟩ : St Nat) [.euler 1 10 100, .imu 1 20 30 105]) 5).euler = 10 ∧
    ∀ m ∈ ([.euler 1 10 100, .imu 1 20 30 105] : List (Msg Nat)), m.dev = 1 := by decide

end Verif.Hal.Sbg
