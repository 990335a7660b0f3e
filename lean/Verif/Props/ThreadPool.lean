import Verif.Proof.ThreadPool

/-!
# C18: the thread pool
-/

namespace Theia

open Spec ThreadPool

variable {T : Type}

/-- C18, order: in every state of every interleaving the tasks started so far are, in order, the
first ones added (so none starts twice and none overtakes another), and the tasks finished are among
those started. -/
theorem C18_fifo_at_most_once {n : Int} {s : State T} (h : PoolReachable n s) :
    tasksStarted s.log <+: tasksAdded s.log ∧
    ∃ running, (tasksFinished s.log ++ running).Perm (tasksStarted s.log) := by
  have hi := inv_reachable h
  exact ⟨⟨s.queue, hi.fifo.symm⟩, _, hi.balance⟩

/-- C18, destruction: when the destructor has returned, every task ever added has finished exactly
once, and they were started in the order added. -/
theorem C18_destructor_waits {n : Int} {s : State T} (h : PoolReachable n s)
    (hr : s.phase = .returned) :
    (tasksFinished s.log).Perm (tasksAdded s.log) ∧ tasksStarted s.log = tasksAdded s.log := by
  have hi := inv_reachable h
  have hall := hi.returned hr
  have hq : s.queue = [] := by
    cases hw : s.workers with
    | nil => exact absurd hw hi.nonempty
    | cons w ws =>
      have := hall w (by simp [hw])
      exact (hi.exited (by rw [hw, ← this]; simp)).1
  have hrun : s.workers.filterMap Worker.task = [] := by
    rw [List.filterMap_eq_nil_iff]
    intro w hw
    rw [hall w hw]; rfl
  have hf := hi.fifo
  rw [hq, List.append_nil] at hf
  have hb := hi.balance
  rw [hrun, List.append_nil] at hb
  exact ⟨hf ▸ hb, hf.symm⟩

/-- C18, no deadlock: whenever tasks are queued, or the destructor has been entered and has not
returned, the pool itself can take a step without any further call from outside and without relying on
a spurious wake-up. -/
theorem C18_no_deadlock {n : Int} {s : State T} (h : PoolReachable n s) (hna : s.aborted = false)
    (hb : s.queue ≠ [] ∨ (s.phase ≠ .notCalled ∧ s.phase ≠ .returned)) :
    ∃ l s', ownStep l ∧ ThreadPool.step s l = some s' := by
  have hi := inv_reachable h
  refine progress hi hna ?_
  rcases hb with hq | ⟨h1, h2⟩
  · exact Or.inl hq
  · exact Or.inr ⟨hi.stop.2 h1, h2⟩

theorem poolSteps_bound {k : Nat} {s s' : State T} (h : PoolSteps k s s') (hst : s.stop = true)
    (hna : s'.aborted = false) : k + ThreadPool.measure s' ≤ ThreadPool.measure s ∧ s'.stop = true := by
  induction h with
  | refl s => exact ⟨by omega, hst⟩
  | @step k s s1 s2 l hs h ih =>
    rcases step_measure hst hs with hab | ⟨h1, h2⟩
    · -- an aborted process makes no more steps
      have : s1 = s2 := by
        cases h with
        | refl => rfl
        | @step _ _ s3 _ l' hs' h' =>
          exfalso
          cases l' <;> simp [ThreadPool.step, hab] at hs'
      rw [← this, hab] at hna
      cases hna
    · obtain ⟨h3, h4⟩ := ih h1 hna
      exact ⟨by omega, h4⟩

theorem inv_steps {k : Nat} {s s' : State T} (hi : Inv s) (h : PoolSteps k s s') : Inv s' := by
  induction h with
  | refl => exact hi
  | step l hs _ ih => exact ih (inv_step hi hs)

/-- C18, the destructor returns: once it has been entered, there is a bound on the number of further
steps of any kind (also spurious wake-ups) under any schedule, and as long as it has not returned the
pool has a step to make. So, however the workers are scheduled, it returns, unless a client aborts the
process by adding to the stopped pool. -/
theorem C18_destructor_returns {n : Int} {s : State T} (h : PoolReachable n s)
    (hd : s.phase ≠ .notCalled) :
    ∃ bound, ∀ k s', PoolSteps k s s' → s'.aborted = false →
      k ≤ bound ∧ (s'.phase = .returned ∨ ∃ l s'', ownStep l ∧ ThreadPool.step s' l = some s'') := by
  have hi := inv_reachable h
  refine ⟨ThreadPool.measure s, ?_⟩
  intro k s' hs hna
  obtain ⟨hb, hst⟩ := poolSteps_bound hs (hi.stop.2 hd) hna
  refine ⟨by omega, ?_⟩
  by_cases hr : s'.phase = .returned
  · exact Or.inl hr
  · right
    have hi' : Inv s' := inv_steps hi hs
    exact progress hi' hna (Or.inr ⟨hst, hr⟩)

/-- C18: the process aborts only in an `Add` to a pool whose destructor has been entered. -/
theorem C18_abort_only_add_after_stop {n : Int} {s s' : State T} (h : PoolReachable n s) (l : Label T)
    (hs : ThreadPool.step s l = some s') (hna : s.aborted = false) (hab : s'.aborted = true) :
    (∃ t, l = .add t) ∧ s.phase ≠ .notCalled := by
  have hi := inv_reachable h
  cases l with
  | add t =>
    refine ⟨⟨t, rfl⟩, ?_⟩
    simp only [ThreadPool.step] at hs
    split at hs
    · cases hs
    · split at hs
      · rename_i hst; exact hi.stop.1 hst
      · cases hs; rw [hna] at hab; cases hab
  | worker i =>
    exfalso
    simp only [ThreadPool.step, workerStep] at hs
    repeat' split at hs
    all_goals cases hs
    all_goals (simp only at hab; rw [hna] at hab; cases hab)
  | spurious i =>
    exfalso
    simp only [ThreadPool.step, wake] at hs
    repeat' split at hs
    all_goals cases hs
    all_goals (simp only at hab; rw [hna] at hab; cases hab)
  | notify i =>
    exfalso
    simp only [ThreadPool.step, wake] at hs
    repeat' split at hs
    all_goals cases hs
    all_goals (simp only at hab; rw [hna] at hab; cases hab)
  | notifyNobody =>
    exfalso
    simp only [ThreadPool.step] at hs
    repeat' split at hs
    all_goals cases hs
    all_goals (simp only at hab; rw [hna] at hab; cases hab)
  | destroy =>
    exfalso
    simp only [ThreadPool.step] at hs
    repeat' split at hs
    all_goals cases hs
    all_goals (simp only at hab; rw [hna] at hab; cases hab)
  | notifyAll =>
    exfalso
    simp only [ThreadPool.step] at hs
    repeat' split at hs
    all_goals cases hs
    all_goals (simp only at hab; rw [hna] at hab; cases hab)
  | join =>
    exfalso
    simp only [ThreadPool.step] at hs
    repeat' split at hs
    all_goals cases hs
    all_goals (simp only at hab; rw [hna] at hab; cases hab)

/-- C18: a pool of fewer than one thread cannot be made. -/
theorem C18_needs_a_thread (n : Int) : (ThreadPool.create n : Outcome (State T)) = .abort ↔ n < 1 := by
  unfold ThreadPool.create
  split
  · simp; omega
  · simp; omega

/-- Two workers, three tasks, destruction with tasks still queued: one complete interleaving. -/
example : ∃ s : State Nat, PoolReachable 2 s ∧ s.phase = .returned ∧
    tasksAdded s.log = [7, 8, 9] ∧ tasksFinished s.log = [8, 7, 9] := by
  have run : ∀ (ls : List (Label Nat)) (s s' : State Nat), PoolReachable 2 s →
      ls.foldlM (fun s l => ThreadPool.step s l) s = some s' → PoolReachable 2 s' := by
    intro ls
    induction ls with
    | nil => intro s s' h e; simp at e; exact e ▸ h
    | cons l ls ih =>
      intro s s' h e
      simp only [List.foldlM_cons, Option.bind_eq_bind, Option.bind_eq_some_iff] at e
      obtain ⟨s1, e1, e2⟩ := e
      exact ih s1 s' (.step l h e1) e2
  refine ⟨_, run [.worker 0, .worker 1, .add 7, .notify 1, .add 8, .worker 1, .notify 0, .worker 0,
    .add 9, .destroy, .worker 0, .notifyNobody, .worker 1, .notifyAll, .worker 1, .worker 0,
    .worker 1, .worker 1, .join] _ _ (.create rfl) rfl, ?_, ?_, ?_⟩ <;> decide

end Theia
