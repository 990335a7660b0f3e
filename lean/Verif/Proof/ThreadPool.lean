import Mathlib.Data.List.Basic
import Verif.Spec.ThreadPool

/-! # Invariants of the thread pool -/

namespace Theia
namespace ThreadPool

open Spec

variable {T : Type}

/-- The task a worker is running. -/
def Worker.task : Worker T → Option T
  | .running t => some t
  | _ => none

/-- Whether a worker will look at the queue without being woken. -/
def Worker.isActive : Worker T → Bool
  | .ready => true
  | .running _ => true
  | _ => false

theorem set_split {α : Type} {l : List α} {i : Nat} {a : α} (h : l[i]? = some a) (b : α) :
    ∃ pre post, l = pre ++ a :: post ∧ l.set i b = pre ++ b :: post := by
  induction l generalizing i with
  | nil => simp at h
  | cons x l ih =>
    cases i with
    | zero =>
      simp only [List.getElem?_cons_zero, Option.some.injEq] at h
      exact ⟨[], l, by simp [h], by simp⟩
    | succ i =>
      obtain ⟨pre, post, h1, h2⟩ := ih (i := i) (by simpa using h)
      exact ⟨x :: pre, post, by simp [h1], by simp [h2]⟩

/-- The invariant. -/
structure Inv (s : State T) : Prop where
  fifo : tasksAdded s.log = tasksStarted s.log ++ s.queue
  balance : (tasksFinished s.log ++ s.workers.filterMap Worker.task).Perm (tasksStarted s.log)
  nonempty : s.workers ≠ []
  exited : Worker.exited ∈ s.workers → s.queue = [] ∧ s.stop = true
  stop : s.stop = true ↔ s.phase ≠ .notCalled
  noBlocked : s.phase = .notified ∨ s.phase = .returned → Worker.blocked ∉ s.workers
  returned : s.phase = .returned → ∀ w ∈ s.workers, w = .exited
  noLost : s.queue ≠ [] → s.pending > 0 ∨ ∃ w ∈ s.workers, w.isActive = true

theorem inv_create {n : Int} {s : State T} (h : create n = .ok s) : Inv s := by
  unfold create at h
  split at h
  · rename_i hn
    cases h
    have hf : (List.replicate n.toNat (Worker.ready : Worker T)).filterMap Worker.task = [] := by
      rw [List.filterMap_eq_nil_iff]
      intro a ha
      rw [(List.mem_replicate.1 ha).2]
      rfl
    constructor <;> simp [tasksAdded, tasksStarted, tasksFinished, hf]
    omega
  · cases h

theorem append_log (log : List (Event T)) (e : Event T) :
    tasksAdded (log ++ [e]) = tasksAdded log ++ (match e with | .added t => [t] | _ => []) ∧
    tasksStarted (log ++ [e]) = tasksStarted log ++ (match e with | .started _ t => [t] | _ => []) ∧
    tasksFinished (log ++ [e]) = tasksFinished log ++ (match e with | .finished _ t => [t] | _ => []) := by
  cases e <;> simp [tasksAdded, tasksStarted, tasksFinished, List.filterMap_append]

theorem inv_wake {s s' : State T} (h : Inv s) {i : Nat} (hs : wake s i = some s') :
    Inv s' ∧ s'.pending = s.pending ∧ s'.queue = s.queue ∧ ∃ w ∈ s'.workers, w.isActive = true := by
  unfold wake at hs
  split at hs
  · rename_i hw
    obtain ⟨pre, post, e1, e2⟩ := set_split hw Worker.ready
    cases hs
    have hact : ∃ w ∈ s.workers.set i Worker.ready, w.isActive = true :=
      ⟨.ready, by rw [e2]; simp, rfl⟩
    refine ⟨⟨h.fifo, ?_, ?_, ?_, h.stop, ?_, ?_, fun _ => Or.inr hact⟩, rfl, rfl, hact⟩
    · have := h.balance
      rw [e1] at this
      simp only [e2]
      simpa [Worker.task, List.filterMap_cons] using this
    · simp only [e2]; simp
    · intro hm
      refine h.exited ?_
      simp only [e2] at hm
      rw [e1]; simpa using hm
    · intro hp hm
      refine h.noBlocked hp ?_
      rw [e1]; simp
    · intro hp w hm
      have := h.returned hp .blocked (by rw [e1]; simp)
      cases this
  · cases hs

theorem inv_workerStep {s s' : State T} (h : Inv s) {i : Nat} (hs : workerStep s i = some s') :
    Inv s' := by
  unfold workerStep at hs
  split at hs
  · rename_i hw
    split at hs
    · rename_i hpred
      split at hs
      · -- exit
        rename_i hexit
        simp only [Bool.and_eq_true, List.isEmpty_iff] at hexit
        obtain ⟨pre, post, e1, e2⟩ := set_split hw Worker.exited
        cases hs
        refine ⟨h.fifo, ?_, ?_, ?_, h.stop, ?_, ?_, ?_⟩
        · have := h.balance
          rw [e1] at this
          simp only [e2]
          simpa [Worker.task, List.filterMap_cons] using this
        · simp only [e2]; simp
        · intro _; exact ⟨hexit.2, hexit.1⟩
        · intro hp hm
          refine h.noBlocked hp ?_
          simp only [e2] at hm
          rw [e1]; simpa using hm
        · intro hp w hm
          have := h.returned hp .ready (by rw [e1]; simp)
          cases this
        · intro hq; exact absurd hexit.2 hq
      · split at hs
        · cases hs
        · rename_i t rest hq
          obtain ⟨pre, post, e1, e2⟩ := set_split hw (Worker.running t)
          cases hs
          obtain ⟨l1, l2, l3⟩ := append_log s.log (Event.started i t)
          refine ⟨?_, ?_, ?_, ?_, h.stop, ?_, ?_, ?_⟩
          · simp only [l1, l2]
            rw [h.fifo, hq]; simp
          · simp only [l2, l3]
            have := h.balance
            rw [e1] at this
            simp only [e2, List.filterMap_append, List.filterMap_cons, Worker.task,
              List.append_nil] at this ⊢
            refine List.Perm.trans ?_ ((this.append_right [t]))
            rw [List.append_assoc, List.append_assoc]
            refine List.Perm.append_left _ (List.Perm.append_left _ ?_)
            exact (List.perm_append_singleton t _).symm
          · simp only [e2]; simp
          · intro hm
            have : Worker.exited ∈ s.workers := by
              simp only [e2] at hm
              rw [e1]; simpa using hm
            have := (h.exited this).1
            rw [hq] at this; cases this
          · intro hp hm
            refine h.noBlocked hp ?_
            simp only [e2] at hm
            rw [e1]; simpa using hm
          · intro hp w hm
            have := h.returned hp .ready (by rw [e1]; simp)
            cases this
          · intro _
            exact Or.inr ⟨.running t, by simp only [e2]; simp, rfl⟩
    · rename_i hpred
      simp only [Bool.or_eq_true, Bool.not_eq_eq_eq_not, not_or, Bool.not_eq_true,
        Bool.not_true, List.isEmpty_eq_false_iff] at hpred
      have hqe : s.queue = [] := by
        have := hpred.2
        simpa using this
      obtain ⟨pre, post, e1, e2⟩ := set_split hw Worker.blocked
      cases hs
      refine ⟨h.fifo, ?_, ?_, ?_, h.stop, ?_, ?_, ?_⟩
      · have := h.balance
        rw [e1] at this
        simp only [e2]
        simpa [Worker.task, List.filterMap_cons] using this
      · simp only [e2]; simp
      · intro hm
        refine h.exited ?_
        simp only [e2] at hm
        rw [e1]; simpa using hm
      · intro hp _
        have hst : s.stop = true := h.stop.2 (by rcases hp with hp | hp <;> simp_all)
        rw [hst] at hpred; simp at hpred
      · intro hp w hm
        have := h.returned hp .ready (by rw [e1]; simp)
        cases this
      · intro hq; exact absurd hqe hq
  · rename_i t hw
    obtain ⟨pre, post, e1, e2⟩ := set_split hw Worker.ready
    cases hs
    obtain ⟨l1, l2, l3⟩ := append_log s.log (Event.finished i t)
    refine ⟨?_, ?_, ?_, ?_, h.stop, ?_, ?_, ?_⟩
    · simp only [l1, l2, List.append_nil]; exact h.fifo
    · simp only [l2, l3, List.append_nil]
      have := h.balance
      rw [e1] at this
      simp only [e2, List.filterMap_append, List.filterMap_cons, Worker.task] at this ⊢
      refine List.Perm.trans ?_ this
      rw [List.append_assoc]
      refine List.Perm.append_left _ ?_
      rw [List.singleton_append]
      exact List.perm_middle.symm
    · simp only [e2]; simp
    · intro hm
      refine h.exited ?_
      simp only [e2] at hm
      rw [e1]; simpa using hm
    · intro hp hm
      refine h.noBlocked hp ?_
      simp only [e2] at hm
      rw [e1]; simpa using hm
    · intro hp w hm
      have := h.returned hp (.running t) (by rw [e1]; simp)
      cases this
    · intro _
      exact Or.inr ⟨.ready, by simp only [e2]; simp, rfl⟩
  · cases hs

theorem inv_step {s s' : State T} (h : Inv s) {l : Label T} (hs : step s l = some s') : Inv s' := by
  cases l with
  | worker i =>
    simp only [step] at hs
    split at hs
    · cases hs
    · exact inv_workerStep h hs
  | spurious i =>
    simp only [step] at hs
    split at hs
    · cases hs
    · exact (inv_wake h hs).1
  | add t =>
    simp only [step] at hs
    split at hs
    · cases hs
    · split at hs
      · cases hs
        exact ⟨h.fifo, h.balance, h.nonempty, h.exited, h.stop, h.noBlocked, h.returned, h.noLost⟩
      · rename_i hns
        cases hs
        obtain ⟨l1, l2, l3⟩ := append_log s.log (Event.added t)
        refine ⟨?_, ?_, h.nonempty, ?_, h.stop, h.noBlocked, h.returned, ?_⟩
        · simp only [l1, l2, List.append_nil]
          rw [h.fifo, List.append_assoc]
        · simp only [l2, l3, List.append_nil]; exact h.balance
        · intro hm
          exact absurd (h.exited hm).2 hns
        · intro _; exact Or.inl (Nat.succ_pos _)
  | notify i =>
    simp only [step] at hs
    split at hs
    · cases hs
    · rw [Option.map_eq_some_iff] at hs
      obtain ⟨s1, h1, rfl⟩ := hs
      obtain ⟨i1, _, _, hact⟩ := inv_wake h h1
      exact ⟨i1.fifo, i1.balance, i1.nonempty, i1.exited, i1.stop, i1.noBlocked, i1.returned,
        fun _ => Or.inr hact⟩
  | notifyNobody =>
    simp only [step] at hs
    split at hs
    · cases hs
    · rename_i hc
      cases hs
      refine ⟨h.fifo, h.balance, h.nonempty, h.exited, h.stop, h.noBlocked, h.returned, ?_⟩
      intro hq
      right
      cases hws : s.workers with
      | nil => exact absurd hws h.nonempty
      | cons w ws =>
        refine ⟨w, by simp, ?_⟩
        cases w with
        | ready => rfl
        | running t => rfl
        | blocked => simp [Worker.isBlocked, hws] at hc
        | exited => exact absurd (h.exited (by simp [hws])).1 hq
  | destroy =>
    simp only [step] at hs
    split at hs
    · cases hs
    · cases hs
      refine ⟨h.fifo, h.balance, h.nonempty, ?_, by simp, by simp, by simp, h.noLost⟩
      intro hm
      exact ⟨(h.exited hm).1, rfl⟩
  | notifyAll =>
    simp only [step] at hs
    split at hs
    · cases hs
    · rename_i hc
      simp only [ne_eq, Bool.or_eq_true, decide_eq_true_eq, not_or, Bool.not_eq_true,
        Decidable.not_not] at hc
      cases hs
      refine ⟨h.fifo, ?_, by simpa using h.nonempty, ?_, ?_, ?_, by simp, ?_⟩
      · have e : (s.workers.map (fun w => if w.isBlocked then Worker.ready else w)).filterMap
            Worker.task = s.workers.filterMap Worker.task := by
          rw [List.filterMap_map]
          congr 1
          funext w
          cases w <;> simp [Worker.task, Worker.isBlocked]
        simp only [e]; exact h.balance
      · intro hm
        refine h.exited ?_
        rw [List.mem_map] at hm
        obtain ⟨w, hw, e⟩ := hm
        cases w <;> simp [Worker.isBlocked] at e
        exact hw
      · simp only [ne_eq, reduceCtorEq, not_false_eq_true, iff_true]
        exact h.stop.2 (by rw [hc.2]; simp)
      · intro _ hm
        rw [List.mem_map] at hm
        obtain ⟨w, hw, e⟩ := hm
        cases w <;> simp [Worker.isBlocked] at e
      · intro hq
        rcases h.noLost hq with hp | ⟨w, hw, ha⟩
        · exact Or.inl hp
        · right
          refine ⟨w, ?_, ha⟩
          rw [List.mem_map]
          refine ⟨w, hw, ?_⟩
          cases w <;> simp [Worker.isBlocked, Worker.isActive] at ha ⊢
  | join =>
    simp only [step] at hs
    split at hs
    · cases hs
    · rename_i hc
      simp only [ne_eq, Bool.or_eq_true, decide_eq_true_eq, not_or, Bool.not_eq_true,
        Decidable.not_not] at hc
      split at hs
      · rename_i hall
        cases hs
        refine ⟨h.fifo, h.balance, h.nonempty, h.exited, ?_, ?_, ?_, h.noLost⟩
        · simp only [ne_eq, reduceCtorEq, not_false_eq_true, iff_true]
          exact h.stop.2 (by rw [hc.2]; simp)
        · intro _; exact h.noBlocked (Or.inl hc.2)
        · intro _ w hw
          have := List.all_eq_true.1 hall w hw
          cases w <;> simp [Worker.isExited] at this ⊢
      · cases hs

theorem inv_reachable {n : Int} {s : State T} (h : PoolReachable n s) : Inv s := by
  induction h with
  | create h => exact inv_create h
  | step l _ hs ih => exact inv_step ih hs

/-- How much work is left for a worker. -/
def Worker.weight : Worker T → Nat
  | .ready => 1
  | .blocked => 2
  | .running _ => 2
  | .exited => 0

/-- How much work is left once the flag is set. -/
def measure (s : State T) : Nat :=
  3 * s.queue.length + (s.workers.map Worker.weight).sum + s.pending +
    (match s.phase with | .notCalled => 3 | .flagSet => 2 | .notified => 1 | .returned => 0)

theorem wake_measure {s s' : State T} {i : Nat} (hs : wake s i = some s') :
    measure s' + 1 = measure s ∧ s'.stop = s.stop ∧ s'.pending = s.pending ∧ s'.aborted = s.aborted := by
  unfold wake at hs
  split at hs
  · rename_i hw
    obtain ⟨pre, post, e1, e2⟩ := set_split hw Worker.ready
    cases hs
    refine ⟨?_, rfl, rfl, rfl⟩
    simp only [measure, e2]
    rw [e1]
    simp only [List.map_append, List.map_cons, List.sum_append, List.sum_cons, Worker.weight]
    omega
  · cases hs

theorem step_measure {s s' : State T} (hst : s.stop = true) {l : Label T}
    (hs : step s l = some s') : s'.aborted = true ∨ (s'.stop = true ∧ measure s' < measure s) := by
  cases l with
  | worker i =>
    simp only [step] at hs
    split at hs
    · cases hs
    · right
      unfold workerStep at hs
      split at hs
      · rename_i hw
        simp only [hst, Bool.true_or, if_true, Bool.true_and] at hs
        split at hs
        · obtain ⟨pre, post, e1, e2⟩ := set_split hw Worker.exited
          cases hs
          refine ⟨rfl, ?_⟩
          simp only [measure, e2]
          rw [e1]
          simp only [List.map_append, List.map_cons, List.sum_append, List.sum_cons, Worker.weight]
          omega
        · split at hs
          · cases hs
          · rename_i t rest hq
            obtain ⟨pre, post, e1, e2⟩ := set_split hw (Worker.running t)
            cases hs
            refine ⟨rfl, ?_⟩
            simp only [measure, e2, hq]
            rw [e1]
            simp only [List.map_append, List.map_cons, List.sum_append, List.sum_cons, Worker.weight,
              List.length_cons]
            omega
      · rename_i t hw
        obtain ⟨pre, post, e1, e2⟩ := set_split hw Worker.ready
        cases hs
        refine ⟨hst, ?_⟩
        simp only [measure, e2]
        rw [e1]
        simp only [List.map_append, List.map_cons, List.sum_append, List.sum_cons, Worker.weight]
        omega
      · cases hs
  | spurious i =>
    simp only [step] at hs
    split at hs
    · cases hs
    · obtain ⟨h1, h2, _⟩ := wake_measure hs
      exact Or.inr ⟨by rw [h2]; exact hst, by omega⟩
  | add t =>
    simp only [step] at hs
    split at hs
    · cases hs
    · cases hs
      exact Or.inl rfl
  | notify i =>
    simp only [step] at hs
    split at hs
    · cases hs
    · rw [Option.map_eq_some_iff] at hs
      obtain ⟨s1, h1, rfl⟩ := hs
      obtain ⟨h1, h2, h3, _⟩ := wake_measure h1
      refine Or.inr ⟨by simp only [h2]; exact hst, ?_⟩
      have : measure { s1 with pending := s1.pending - 1 } ≤ measure s1 := by
        simp only [measure]; omega
      omega
  | notifyNobody =>
    simp only [step] at hs
    split at hs
    · cases hs
    · rename_i hc
      simp only [Bool.or_eq_true, decide_eq_true_eq, not_or] at hc
      cases hs
      refine Or.inr ⟨hst, ?_⟩
      simp only [measure]
      have := hc.1.2
      omega
  | destroy =>
    simp only [step] at hs
    split at hs
    · cases hs
    · rename_i hc
      simp only [ne_eq, Bool.or_eq_true, decide_eq_true_eq, not_or, Bool.not_eq_true,
        Decidable.not_not] at hc
      cases hs
      refine Or.inr ⟨rfl, ?_⟩
      simp only [measure, hc.2]
      omega
  | notifyAll =>
    simp only [step] at hs
    split at hs
    · cases hs
    · rename_i hc
      simp only [ne_eq, Bool.or_eq_true, decide_eq_true_eq, not_or, Bool.not_eq_true,
        Decidable.not_not] at hc
      cases hs
      refine Or.inr ⟨hst, ?_⟩
      simp only [measure, hc.2]
      have : ∀ ws : List (Worker T),
          ((ws.map (fun w => if w.isBlocked then Worker.ready else w)).map Worker.weight).sum ≤
            (ws.map Worker.weight).sum := by
        intro ws
        induction ws with
        | nil => simp
        | cons w ws ih =>
          simp only [List.map_cons, List.sum_cons]
          have : Worker.weight (if w.isBlocked then Worker.ready else w) ≤ Worker.weight w := by
            cases w <;> simp [Worker.isBlocked, Worker.weight]
          omega
      have := this s.workers
      omega
  | join =>
    simp only [step] at hs
    split at hs
    · cases hs
    · rename_i hc
      simp only [ne_eq, Bool.or_eq_true, decide_eq_true_eq, not_or, Bool.not_eq_true,
        Decidable.not_not] at hc
      split at hs
      · cases hs
        refine Or.inr ⟨hst, ?_⟩
        simp only [measure, hc.2]
        omega
      · cases hs

theorem worker_enabled {s : State T} (hna : s.aborted = false) {w : Worker T}
    (hw : w ∈ s.workers) (ha : w.isActive = true) : ∃ i s', step s (.worker i) = some s' := by
  obtain ⟨i, hi⟩ := List.mem_iff_getElem?.1 hw
  refine ⟨i, ?_⟩
  simp only [step, hna, workerStep, hi, Bool.false_eq_true, if_false]
  cases w with
  | ready =>
    simp only
    split
    · split
      · exact ⟨_, rfl⟩
      · rename_i h1 h2
        split
        · rename_i hq
          simp only [hq, List.isEmpty_nil, Bool.not_true, Bool.or_false, Bool.and_true] at h1 h2
          exact absurd h1 h2
        · exact ⟨_, rfl⟩
    · exact ⟨_, rfl⟩
  | running t => exact ⟨_, rfl⟩
  | blocked => simp [Worker.isActive] at ha
  | exited => simp [Worker.isActive] at ha

theorem progress {s : State T} (h : Inv s) (hna : s.aborted = false)
    (hb : s.queue ≠ [] ∨ (s.stop = true ∧ s.phase ≠ .returned)) :
    ∃ l s', ownStep l ∧ step s l = some s' := by
  by_cases hact : ∃ w ∈ s.workers, w.isActive = true
  · obtain ⟨w, hw, ha⟩ := hact
    obtain ⟨i, s', e⟩ := worker_enabled hna hw ha
    exact ⟨_, s', by trivial, e⟩
  · rcases hb with hq | ⟨hst, hph⟩
    · rcases h.noLost hq with hp | ha
      · by_cases hbl : s.workers.any Worker.isBlocked = true
        · rw [List.any_eq_true] at hbl
          obtain ⟨w, hw, hwb⟩ := hbl
          obtain ⟨i, hi⟩ := List.mem_iff_getElem?.1 hw
          cases w <;> simp [Worker.isBlocked] at hwb
          refine ⟨.notify i, ?_⟩
          have : s.pending ≠ 0 := by omega
          simp [ownStep, step, hna, this, wake, hi]
        · refine ⟨.notifyNobody, ?_⟩
          have : s.pending ≠ 0 := by omega
          simp [ownStep, step, hna, this, hbl]
      · exact absurd ha hact
    · cases hphase : s.phase with
      | notCalled => exact absurd hphase (h.stop.1 hst)
      | flagSet =>
        refine ⟨.notifyAll, ?_⟩
        simp [ownStep, step, hna, hphase]
      | notified =>
        refine ⟨.join, ?_⟩
        have hall : s.workers.all Worker.isExited = true := by
          rw [List.all_eq_true]
          intro w hw
          cases w with
          | exited => rfl
          | blocked => exact absurd hw (h.noBlocked (Or.inl hphase))
          | ready => exact absurd ⟨_, hw, rfl⟩ hact
          | running t => exact absurd ⟨_, hw, rfl⟩ hact
        simp [ownStep, step, hna, hphase, hall]
      | returned => exact absurd hphase hph

end ThreadPool
end Theia
