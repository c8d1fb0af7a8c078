import Verif.Core.Executor
import Mathlib.Algebra.Order.Floor.Ring
import Mathlib.Algebra.Order.Archimedean.Basic
import Mathlib.Data.Rat.Floor
import Mathlib.Tactic.Linarith
import Mathlib.Tactic.FieldSimp
import Mathlib.Tactic.Ring
import Mathlib.Tactic.NormNum
namespace Verif.Core.Executor
variable {K : Type} [Field K] [LinearOrder K] [IsStrictOrderedRing K] [FloorRing K]

/-! ### C17 -/

/-- **C17, soundness.** For positive periods: if a task is accepted under its base task, its divisor `k` is at least 1 and the
realised period deviates by at most one percent. -/
theorem accepted_period (t base : Task K) (ht : 0 < t.period) (hb : 0 < base.period) (k : Int)
    (h : divisor t base = .ok k) :
    1 ≤ k ∧ |t.period - k * base.period| ≤ t.period / 100 := by
  unfold divisor at h
  simp only at h
  split at h
  · simp at h
  · split at h
    · simp at h
    · split at h
      · simp at h
      · rename_i h1 h2 h3
        simp at h
        rw [h] at h2
        have hdev : |t.period - (k:K) * base.period| ≤ t.period / 100 := by
          by_contra hc
          apply h2
          refine ⟨ht.ne', ?_⟩
          rw [gt_iff_lt, lt_div_iff₀ ht]
          push Not at hc
          linarith
        refine ⟨?_, hdev⟩
        by_contra hk
        push Not at hk
        have hk0 : (k : K) ≤ 0 := by
          have : k ≤ 0 := by omega
          exact_mod_cast this
        have : (k:K) * base.period ≤ 0 := mul_nonpos_of_nonpos_of_nonneg hk0 hb.le
        have h4 : t.period ≤ |t.period - (k:K) * base.period| :=
          le_trans (by linarith) (le_abs_self _)
        linarith

/-- A task of 3 ms below a base task of 1 ms, accepted with divisor 3. -/
example : divisor (Task.mk 1 (3/1000 : ℚ) true 1 [] []) (Task.mk 0 (1/1000) true 1 [] []) = .ok 3 → |(3/1000 : ℚ) - 3 * (1/1000)| ≤ 3/1000/100 := fun h => by
  have := (accepted_period (Task.mk 1 (3/1000 : ℚ) true 1 [] []) (Task.mk 0 (1/1000) true 1 [] []) (by norm_num [Task.period]) (by norm_num [Task.period]) 3 h).2
  simpa [Task.period] using this

/-- **C17, completeness.** Every exact integer multiple of the base period (below the `int` range) is accepted with exactly
this multiple as divisor, if a realtime task has its priority assigned. -/
theorem multiple_accepted (t base : Task K) (n : Nat) (hn : 1 ≤ n) (hmax : n ≤ 2147483647)
    (hb : 0 < base.period) (hp : t.period = n * base.period)
    (hprio : t.realtime = true → 0 < t.nice) : divisor t base = .ok n := by
  have hq : t.period / base.period = ((n : Int) : K) := by
    rw [hp]; field_simp; simp
  have hk : trunc (t.period / base.period) = (n : Int) := by
    rw [hq]; unfold trunc
    rw [if_pos (by positivity), Int.floor_intCast]
  unfold divisor
  simp only [hk]
  rw [if_neg (by omega), if_neg, if_neg]
  · rintro ⟨h1, h2⟩
    have := hprio h1
    omega
  · rintro ⟨-, h2⟩
    rw [hp] at h2
    simp at h2
    norm_num at h2

/-- **C17, the decision.** For positive periods a task is accepted with divisor `k` exactly when `k` is the largest multiple of the base period which
is not longer than the wanted period, it misses the wanted period by at most one percent, it fits into `int`, and a realtime task has a priority. -/
theorem accepted_iff (t base : Task K) (ht : 0 < t.period) (hb : 0 < base.period) (k : Int) :
    divisor t base = .ok k ↔
      k * base.period ≤ t.period ∧ t.period < (k + 1) * base.period ∧ t.period - k * base.period ≤ t.period / 100 ∧
      k ≤ 2147483647 ∧ (t.realtime = true → 0 < t.nice) := by
  have hq : 0 ≤ t.period / base.period := by positivity
  have hfl : trunc (t.period / base.period) = k ↔ k * base.period ≤ t.period ∧ t.period < (k + 1) * base.period := by
    unfold trunc
    rw [if_pos hq, Int.floor_eq_iff, le_div_iff₀ hb, div_lt_iff₀ hb]
  constructor
  · intro h
    have hk := accepted_period t base ht hb k h
    unfold divisor at h
    simp only at h
    split at h
    · simp at h
    rename_i h1
    split at h
    · simp at h
    split at h
    · simp at h
    rename_i h3
    simp only [Except.ok.injEq] at h
    have h5 := hfl.1 h
    refine ⟨h5.1, h5.2, le_trans (le_abs_self _) hk.2, ?_, ?_⟩
    · rw [h] at h1; omega
    · intro hr
      by_contra hc
      exact h3 ⟨hr, by omega⟩
  · rintro ⟨h1, h2, h3, h4, h5⟩
    have hk := hfl.2 ⟨h1, h2⟩
    have hk0 : -1 < k := by
      by_contra hc
      have : (k : K) + 1 ≤ 0 := by
        have : k + 1 ≤ 0 := by omega
        exact_mod_cast this
      have := mul_nonpos_of_nonpos_of_nonneg this hb.le
      linarith
    unfold divisor
    simp only [hk]
    rw [if_neg (by omega), if_neg, if_neg]
    · rintro ⟨h6, h7⟩
      have := h5 h6
      omega
    · rintro ⟨-, h6⟩
      rw [gt_iff_lt, lt_div_iff₀ ht, abs_of_nonneg (by linarith)] at h6
      linarith

/-- **C62.** What remains true: positive periods which are shorter than the base period are refused.  Missing: periods which are zero or negative, see
`nonpositive_always_accepted`. -/
theorem short_period_rejected_partial (t base : Task K) (ht : 0 < t.period) (hb : t.period < base.period) :
    divisor t base = .error .deviation := by
  have hb0 : 0 < base.period := ht.trans hb
  have hk : trunc (t.period / base.period) = 0 := by
    unfold trunc
    rw [if_pos (by positivity), Int.floor_eq_iff]
    exact ⟨by simpa using (div_pos ht hb0).le, by rw [div_lt_iff₀ hb0]; simpa using hb⟩
  unfold divisor
  simp only [hk]
  rw [if_neg (by omega), if_pos]
  refine ⟨ht.ne', ?_⟩
  simp only [Int.cast_zero, zero_mul, sub_zero]
  rw [abs_of_pos ht, div_self ht.ne']
  norm_num

/-- **C62 is violated for every such period.** Whatever the base period: a task with zero or negative period passes the test of the deviation; it is accepted with a
divisor which is not positive, unless the divisor does not fit into `int` or a realtime task has no priority. -/
theorem nonpositive_always_accepted (t base : Task K) (ht : t.period ≤ 0) (hb : 0 < base.period)
    (hmin : -(2147483648 * base.period) ≤ t.period) (hprio : t.realtime = true → 0 < t.nice) :
    ∃ k ≤ 0, divisor t base = .ok k := by
  have hq : t.period / base.period ≤ 0 := div_nonpos_of_nonpos_of_nonneg ht hb.le
  have hk : trunc (t.period / base.period) ≤ 0 ∧ -2147483648 ≤ trunc (t.period / base.period) := by
    unfold trunc
    split
    · rename_i h
      have : t.period / base.period = 0 := le_antisymm hq h
      rw [this]; simp
    · have h1 : (0 : Int) ≤ ⌊-(t.period / base.period)⌋ := Int.floor_nonneg.2 (by linarith)
      have h2 : ⌊-(t.period / base.period)⌋ ≤ 2147483648 := by
        have h3 : -(t.period / base.period) ≤ 2147483648 := by
          rw [← neg_div, div_le_iff₀ hb]; linarith
        have h4 := (Int.floor_le (-(t.period / base.period))).trans h3
        exact_mod_cast h4
      omega
  refine ⟨trunc (t.period / base.period), hk.1, ?_⟩
  unfold divisor
  simp only
  rw [if_neg (by omega), if_neg, if_neg]
  · rintro ⟨h6, h7⟩
    have := hprio h6
    omega
  · rintro ⟨-, h6⟩
    have : |t.period - (trunc (t.period / base.period) : K) * base.period| / t.period ≤ 0 := div_nonpos_of_nonneg_of_nonpos (abs_nonneg _) ht
    have h7 : (0 : K) < 1 / 100 := by norm_num
    linarith

/-- C17 needs positive periods: a task with a zero or negative period is accepted and runs in every cycle of its base
(divisor 0), although no such period can be realised. -/
theorem nonpositive_period_accepted :
    divisor (Task.mk 1 (0 : ℚ) false (-1) [] []) (Task.mk 0 1 true 1 [] []) = .ok 0 ∧
    divisor (Task.mk 1 (-1/2 : ℚ) false (-1) [] []) (Task.mk 0 1 true 1 [] []) = .ok 0 := by
  constructor
  · simp [divisor, Task.period, trunc, Task.realtime]
  · have : trunc (-1/2 / 1 : ℚ) = 0 := by
      unfold trunc
      rw [if_neg (by norm_num)]
      norm_num
    simp only [divisor, Task.period, this, Task.realtime]
    rw [if_neg (by omega), if_neg, if_neg (by simp)]
    rintro ⟨-, h⟩
    rw [abs_of_neg (by norm_num)] at h
    norm_num at h

/-- Non-vacuity: 3 ms on a 1 ms base is accepted with divisor 3; 2.9 ms is refused. -/
example : divisor (Task.mk 1 (3/1000 : ℚ) true 1 [] []) (Task.mk 0 (1/1000) true 1 [] []) = .ok 3 :=
  multiple_accepted _ _ 3 (by decide) (by decide) (by simp [Task.period])
    (by simp [Task.period]; norm_num) (by simp [Task.nice])
example : divisor (Task.mk 1 (29/10000 : ℚ) true 1 [] []) (Task.mk 0 (1/1000) true 1 [] []) = .error .deviation := by
  have : trunc (29/10000 / (1/1000) : ℚ) = 2 := by
    unfold trunc; rw [if_pos (by norm_num), Int.floor_eq_iff]; norm_num
  simp only [divisor, Task.period, this]
  rw [if_neg (by omega), if_pos]
  refine ⟨by norm_num, ?_⟩
  rw [abs_of_pos (by norm_num)]; norm_num

/-- The hypotheses of the general theorems are met by these tasks. -/
example : divisor (Task.mk 1 (3/1000 : ℚ) true 1 [] []) (Task.mk 0 (1/1000) true 1 [] []) = .ok 3 :=
  (accepted_iff _ _ (by simp only [Task.period]; norm_num) (by simp [Task.period]) 3).2
    ⟨by simp only [Task.period]; norm_num, by simp only [Task.period]; norm_num, by simp only [Task.period]; norm_num, by norm_num, by simp [Task.nice]⟩
example : divisor (Task.mk 1 (1/2000 : ℚ) false 0 [] []) (Task.mk 0 (1/1000) true 1 [] []) = .error .deviation :=
  short_period_rejected_partial _ _ (by simp [Task.period]) (by simp only [Task.period]; norm_num)
example : ∃ k ≤ 0, divisor (Task.mk 1 (-5/2 : ℚ) false 0 [] []) (Task.mk 0 1 true 1 [] []) = .ok k :=
  nonpositive_always_accepted _ _ (by simp only [Task.period]; norm_num) (by simp [Task.period]) (by simp only [Task.period]; norm_num)
    (by simp [Task.realtime])

/-! ### C18 -/

/-- The divisor an entry for `t` below `base` must have. -/
def kOf (base t : Task K) : Int := trunc (t.period / base.period)

/-- The thread a task must get: its task list runs first the `before` tasks, then itself, then the `after` tasks, in order. -/
def expectedThread (base t : Task K) : Thread K :=
  ⟨t.id, (kOf base t : K) * base.period,
   t.before.map (fun b => Entry.async b.id (kOf t b)) ++ [.own t.id] ++
   t.after.map (fun a => Entry.async a.id (kOf t a))⟩

mutual
/-- All tasks of a tree together with the task they are based on. -/
def withBase (base : Task K) : Task K → List (Task K × Task K)
  | .mk id period realtime nice before after =>
    let t := Task.mk id period realtime nice before after
    (base, t) :: (withBaseAll t before ++ withBaseAll t after)
def withBaseAll (base : Task K) : List (Task K) → List (Task K × Task K)
  | [] => []
  | t :: ts => withBase base t ++ withBaseAll base ts
end

theorem divisor_ok_k {t base : Task K} {k : Int} (h : divisor t base = .ok k) : k = kOf base t := by
  unfold divisor at h
  simp only at h
  split at h
  · simp at h
  · split at h
    · simp at h
    · split at h
      · simp at h
      · simp at h; exact h.symm

mutual
theorem createThread_spec (base t : Task K) (r : List (Thread K) × Entry)
    (h : createThread base t = .ok r) :
    r.1.Perm ((withBase base t).map fun x => expectedThread x.1 x.2) ∧
      r.2 = .async t.id (kOf base t) := by
  match t with
  | .mk id period realtime nice before after =>
    unfold createThread at h
    simp only [bind, Except.bind, pure, Except.pure] at h
    split at h
    · simp at h
    · rename_i x1 h1
      split at h
      · simp at h
      · rename_i x2 h2
        split at h
        · simp at h
        · rename_i k hk
          obtain ⟨p1, e1⟩ := createThreads_spec _ before x1 h1
          obtain ⟨p2, e2⟩ := createThreads_spec _ after x2 h2
          have hk' := divisor_ok_k hk
          simp at h
          subst h
          refine ⟨?_, by simp [hk', Task.id]⟩
          simp only [withBase, List.map_cons, List.map_append]
          have hth : (⟨id, (k : K) * base.period, x1.2 ++ Entry.own id :: x2.2⟩ : Thread K) =
              expectedThread base (.mk id period realtime nice before after) := by
            simp [expectedThread, hk', e1, e2, Task.id, Task.before, Task.after]
          rw [hth]
          rw [← List.append_assoc]
          refine (List.perm_append_comm).trans ?_
          exact List.Perm.cons _ (p1.append p2)

theorem createThreads_spec (base : Task K) (ts : List (Task K)) (r : List (Thread K) × List Entry)
    (h : createThreads base ts = .ok r) :
    r.1.Perm ((withBaseAll base ts).map fun x => expectedThread x.1 x.2) ∧
      r.2 = ts.map (fun t => .async t.id (kOf base t)) := by
  match ts with
  | [] => unfold createThreads at h; simp at h; subst h; simp [withBaseAll]
  | t :: ts =>
    unfold createThreads at h
    simp only [bind, Except.bind, pure, Except.pure] at h
    split at h
    · simp at h
    · rename_i x1 h1
      split at h
      · simp at h
      · rename_i x2 h2
        obtain ⟨p1, e1⟩ := createThread_spec base t x1 h1
        obtain ⟨p2, e2⟩ := createThreads_spec base ts x2 h2
        simp at h
        subst h
        simp only [withBaseAll, List.map_append, List.map_cons, e1, e2, and_true]
        exact p1.append p2
end

mutual
theorem withBase_snd (base t : Task K) : (withBase base t).map Prod.snd = flat t := by
  match t with
  | .mk id period realtime nice before after =>
    simp only [withBase, flat, List.map_cons, List.map_append, withBaseAll_snd _ before, withBaseAll_snd _ after]
theorem withBaseAll_snd (base : Task K) (ts : List (Task K)) :
    (withBaseAll base ts).map Prod.snd = flatAll ts := by
  match ts with
  | [] => simp [withBaseAll, flatAll]
  | t :: ts => simp only [withBaseAll, flatAll, List.map_append, withBase_snd base t, withBaseAll_snd base ts]
end

/-- **C18.** If the executor accepts a forest of tasks below its base task, then exactly one thread is created per task of the forest (whatever the
depth), and each thread's task list consists of the triggers of its `before` tasks, the task itself, and the
triggers of its `after` tasks, in the order in which they were added; the executor's own list triggers the top level tasks in order. -/
theorem every_task_once_in_order (base : Task K) (ts : List (Task K)) (threads : List (Thread K))
    (out : List Entry) (h : createThreads base ts = .ok (threads, out)) :
    threads.Perm ((withBaseAll base ts).map fun x => expectedThread x.1 x.2) ∧
    (threads.map Thread.id).Perm ((flatAll ts).map Task.id) ∧
    out = ts.map (fun t => .async t.id (kOf base t)) := by
  obtain ⟨p, e⟩ := createThreads_spec base ts _ h
  refine ⟨p, ?_, e⟩
  have := p.map Thread.id
  refine this.trans (List.Perm.of_eq ?_)
  rw [← withBaseAll_snd base ts, List.map_map, List.map_map]
  rfl

/-- Non-vacuity: a task with one task before and one after it. -/
example : ∃ threads, createThreads (Task.mk 0 (1 : ℚ) true 1 [] [])
      [.mk 1 2 true 1 [.mk 2 2 true 2 [] []] [.mk 3 4 false (-1) [] []]] = .ok (threads, [.async 1 2]) ∧
    threads.map Thread.id = [2, 3, 1] ∧
    threads.map Thread.list = [[.own 2], [.own 3], [.async 2 1, .own 1, .async 3 2]] := by
  have d1 : divisor (Task.mk 2 (2:ℚ) true 2 [] []) (.mk 1 2 true 1 [.mk 2 2 true 2 [] []] [.mk 3 4 false (-1) [] []]) = .ok 1 :=
    multiple_accepted _ _ 1 (by decide) (by decide) (by simp [Task.period]) (by simp [Task.period]) (by simp [Task.nice])
  have d2 : divisor (Task.mk 3 (4:ℚ) false (-1) [] []) (.mk 1 2 true 1 [.mk 2 2 true 2 [] []] [.mk 3 4 false (-1) [] []]) = .ok 2 :=
    multiple_accepted _ _ 2 (by decide) (by decide) (by simp [Task.period]) (by simp [Task.period]; norm_num) (by simp [Task.realtime])
  have d3 : divisor (.mk 1 2 true 1 [.mk 2 2 true 2 [] []] [.mk 3 4 false (-1) [] []]) (Task.mk 0 (1 : ℚ) true 1 [] []) = .ok 2 :=
    multiple_accepted _ _ 2 (by decide) (by decide) (by simp [Task.period]) (by simp [Task.period]) (by simp [Task.nice])
  refine ⟨_, by simp [createThreads, createThread, d1, d2, d3, bind, Except.bind, pure, Except.pure]; rfl, ?_, ?_⟩
  · simp
  · simp

/-! ### C19 -/

/-- What `std::sort` guarantees for the list of all tasks. -/
def SortedTasks (ts l : List (Task K)) : Prop :=
  l.Perm (flatAll ts) ∧ l.Pairwise (fun a b => ¬ before? b a)

theorem assignNice_fst (n : Int) (l : List (Task K)) : (assignNice n l).map Prod.fst = l := by
  induction l generalizing n with
  | nil => rfl
  | cons t l ih => simp only [assignNice]; split <;> simp [ih]

theorem assignNice_bounds (n : Int) (l : List (Task K)) : ∀ x ∈ assignNice n l, x.1.realtime = true →
    n ≤ x.2 ∧ x.2 < n + l.countP Task.realtime := by
  induction l generalizing n with
  | nil => simp [assignNice]
  | cons t l ih =>
    intro x hx hr
    simp only [assignNice] at hx
    split at hx
    · rename_i ht
      rw [List.countP_cons_of_pos ht]
      rcases List.mem_cons.1 hx with rfl | hx
      · simp
      · have := ih (n+1) x hx hr
        push_cast; omega
    · rename_i ht
      rw [List.countP_cons_of_neg (by simpa using ht)]
      rcases List.mem_cons.1 hx with rfl | hx
      · simp at ht hr; simp [ht] at hr
      · exact ih n x hx hr

theorem assignNice_pairwise (n : Int) (l : List (Task K)) :
    (assignNice n l).Pairwise (fun x y => x.1.realtime = true → y.1.realtime = true → x.2 < y.2) := by
  induction l generalizing n with
  | nil => simp [assignNice]
  | cons t l ih =>
    simp only [assignNice]
    split
    · rw [List.pairwise_cons]
      refine ⟨?_, ih _⟩
      intro y hy _ hyr
      have := assignNice_bounds (n+1) l y hy hyr
      simp only; omega
    · rename_i ht
      rw [List.pairwise_cons]
      refine ⟨?_, ih _⟩
      intro y _ hx
      exact absurd hx ht

/-- **C19.** Whatever admissible order the sort produces: every task gets exactly one entry; the realtime tasks get pairwise different nice values
in `1 .. number of realtime tasks`; a realtime task with a shorter period gets a strictly smaller nice value (higher priority) than one with a longer
period; non-realtime tasks keep their nice value. -/
theorem rate_monotonic (ts l : List (Task K)) (h : SortedTasks ts l) :
    ((assignNice 1 l).map Prod.fst).Perm (flatAll ts) ∧
    (assignNice 1 l).Pairwise (fun x y => x.1.realtime = true → y.1.realtime = true → x.2 ≠ y.2) ∧
    (∀ x ∈ assignNice 1 l, x.1.realtime = true → 1 ≤ x.2 ∧ x.2 ≤ (flatAll ts).countP Task.realtime) ∧
    (∀ x ∈ assignNice 1 l, ∀ y ∈ assignNice 1 l, x.1.realtime = true → y.1.realtime = true →
      x.1.period < y.1.period → x.2 < y.2) ∧
    (∀ x ∈ assignNice 1 l, x.1.realtime = false → x.2 = x.1.nice) := by
  obtain ⟨hp, hs⟩ := h
  refine ⟨by rw [assignNice_fst]; exact hp, ?_, ?_, ?_, ?_⟩
  · exact (assignNice_pairwise 1 l).imp (fun h a b => ne_of_lt (h a b))
  · intro x hx hr
    have := assignNice_bounds 1 l x hx hr
    rw [hp.countP_eq] at this
    omega
  · have hmono := assignNice_pairwise 1 l
    have hsort : (assignNice 1 l).Pairwise (fun x y => ¬ before? y.1 x.1) := by
      have : ((assignNice 1 l).map Prod.fst).Pairwise (fun a b => ¬ before? b a) := by
        rw [assignNice_fst]; exact hs
      rwa [List.pairwise_map] at this
    have hboth := hmono.and hsort
    intro x hx y hy hxr hyr hlt
    -- decide by position
    rcases List.getElem_of_mem hx with ⟨i, hi, rfl⟩
    rcases List.getElem_of_mem hy with ⟨j, hj, rfl⟩
    rw [List.pairwise_iff_getElem] at hboth
    rcases Nat.lt_trichotomy i j with hij | hij | hij
    · exact (hboth i j hi hj hij).1 hxr hyr
    · subst hij; exact absurd hlt (lt_irrefl _)
    · have := (hboth j i hj hi hij).2
      exfalso; apply this
      simp [before?, hxr, hyr, hlt]
  · suffices H : ∀ (l : List (Task K)) n, ∀ x ∈ assignNice n l, x.1.realtime = false → x.2 = x.1.nice from H l 1
    intro l
    induction l with
    | nil => simp [assignNice]
    | cons t l ih =>
      intro n x hx hr
      simp only [assignNice] at hx
      split at hx
      · rename_i ht
        rcases List.mem_cons.1 hx with rfl | hx
        · simp [ht] at hr
        · exact ih _ x hx hr
      · rcases List.mem_cons.1 hx with rfl | hx
        · rfl
        · exact ih _ x hx hr


/-- Three tasks, two of them real-time: the faster one gets the smaller number. -/
example : (assignNice 1 [Task.mk 2 (1 : ℚ) true (-1) [] [], .mk 1 2 true (-1) [] [], .mk 3 1 false (-1) [] []]).map (fun x => (x.1.id, x.2)) = [(2, 1), (1, 2), (3, -1)] := by
  simp [assignNice, Task.realtime, Task.nice, Task.id]

/-- **C19, priorities.** With at most 48 realtime tasks all priorities `49 - nice` are at least 1, i.e. valid realtime priorities below the executor's. -/
theorem priorities_valid (ts l : List (Task K)) (h : SortedTasks ts l)
    (hn : (flatAll ts).countP Task.realtime ≤ 48) :
    ∀ x ∈ assignNice 1 l, x.1.realtime = true → 1 ≤ 49 - x.2 ∧ 49 - x.2 < 49 := by
  intro x hx hr
  have := (rate_monotonic ts l h).2.2.1 x hx hr
  omega

/-- Non-vacuity: a sorted list for two realtime tasks and one normal task. -/
example : SortedTasks [Task.mk 1 (2:ℚ) true (-1) [] [], .mk 2 1 true (-1) [] [], .mk 3 1 false (-1) [] []]
    [.mk 2 1 true (-1) [] [], .mk 1 2 true (-1) [] [], .mk 3 1 false (-1) [] []] := by
  constructor
  · simp only [flatAll, flat, List.append_nil, List.singleton_append]
    exact List.Perm.swap _ _ _
  · simp [before?, Task.realtime, Task.period]

end Verif.Core.Executor
