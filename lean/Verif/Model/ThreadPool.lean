import Verif.Base.Outcome

/-!
# Model of `ThreadPool` (util/threadpool.h, util/threadpool.cc)

An interleaving transition system. Each critical section guarded by `queue_mutex` is one atomic step
(nothing else reads or writes the queue or the flag), and so is each notification and the end of a
task; everything else interleaves freely. `condition_variable::wait` with a predicate is: with the
lock, test the predicate; if it fails, block until a notification or a spurious wake-up, then start
over. `notify_one` wakes one blocked worker, any one, or has no effect if none is blocked. Tasks
always end (an exception ends up in the future: `packaged_task`); their values are not modelled.
`Add` may be called by any thread, also from inside tasks.
-/

namespace Theia
namespace ThreadPool

/-- Where a worker is in its loop (threadpool.cc:86-100). -/
inductive Worker (T : Type) where
  /-- About to take the lock and test the predicate (threadpool.cc:90-91). -/
  | ready
  /-- Blocked in `wait` (threadpool.cc:91). -/
  | blocked
  /-- Running a task (threadpool.cc:99). -/
  | running (t : T)
  /-- Returned (threadpool.cc:94). -/
  | exited
  deriving DecidableEq, Repr

/-- Where the destructor is (threadpool.cc:107-115). -/
inductive Phase where
  | notCalled
  | flagSet
  | notified
  | returned
  deriving DecidableEq, Repr

/-- What an observer sees. -/
inductive Event (T : Type) where
  | added (t : T)
  | started (worker : Nat) (t : T)
  | finished (worker : Nat) (t : T)
  deriving DecidableEq, Repr

/-- The state: members (threadpool.h:97-105), worker positions, `Add` calls that have released the
lock but not yet notified (threadpool.h:130-131), the destructor, and the events so far. -/
structure State (T : Type) where
  queue : List T
  stop : Bool
  workers : List (Worker T)
  pending : Nat
  phase : Phase
  aborted : Bool
  log : List (Event T)
  deriving DecidableEq, Repr

variable {T : Type}

/-- The constructor (threadpool.cc:81-103). -/
def create (numThreads : Int) : Outcome (State T) :=
  if numThreads ≥ 1 then
    .ok ⟨[], false, List.replicate numThreads.toNat .ready, 0, .notCalled, false, []⟩
  else .abort

/-- One step, and which worker or client makes it. -/
inductive Label (T : Type) where
  /-- A worker goes on. -/
  | worker (i : Nat)
  /-- A blocked worker wakes up without a notification. -/
  | spurious (i : Nat)
  /-- The locked part of `Add`. -/
  | add (t : T)
  /-- `notify_one` of a pending `Add`, waking worker `i`. -/
  | notify (i : Nat)
  /-- `notify_one` of a pending `Add` when no worker is blocked. -/
  | notifyNobody
  /-- The destructor sets the flag. -/
  | destroy
  /-- `notify_all`. -/
  | notifyAll
  /-- The destructor has joined all workers and returns. -/
  | join
  deriving DecidableEq, Repr

/-- A worker's own step (threadpool.cc:90-99). -/
def workerStep (s : State T) (i : Nat) : Option (State T) :=
  match s.workers[i]? with
  | some .ready =>
    -- wait's predicate: stop || !tasks.empty()
    if s.stop || !s.queue.isEmpty then
      if s.stop && s.queue.isEmpty then
        some { s with workers := s.workers.set i .exited }
      else
        match s.queue with
        | [] => none
        | t :: rest =>
          some { s with queue := rest, workers := s.workers.set i (.running t),
                        log := s.log ++ [.started i t] }
    else some { s with workers := s.workers.set i .blocked }
  | some (.running t) =>
    some { s with workers := s.workers.set i .ready, log := s.log ++ [.finished i t] }
  | _ => none

/-- A blocked worker becomes ready. -/
def wake (s : State T) (i : Nat) : Option (State T) :=
  match s.workers[i]? with
  | some .blocked => some { s with workers := s.workers.set i .ready }
  | _ => none

/-- Whether a worker is blocked. -/
def Worker.isBlocked : Worker T → Bool
  | .blocked => true
  | _ => false

/-- Whether a worker has returned. -/
def Worker.isExited : Worker T → Bool
  | .exited => true
  | _ => false

/-- The step function; `none` if the step is not possible (threadpool.h:112-133,
threadpool.cc:86-115). -/
def step (s : State T) : Label T → Option (State T)
  | .worker i => if s.aborted then none else workerStep s i
  | .spurious i => if s.aborted then none else wake s i
  | .add t =>
    if s.aborted || s.phase = .returned then none
    else if s.stop then some { s with aborted := true }
    else some { s with queue := s.queue ++ [t], pending := s.pending + 1, log := s.log ++ [.added t] }
  | .notify i =>
    if s.aborted || s.pending = 0 then none
    else (wake s i).map (fun s => { s with pending := s.pending - 1 })
  | .notifyNobody =>
    if s.aborted || s.pending = 0 || s.workers.any Worker.isBlocked then none
    else some { s with pending := s.pending - 1 }
  | .destroy =>
    if s.aborted || s.phase ≠ .notCalled then none
    else some { s with stop := true, phase := .flagSet }
  | .notifyAll =>
    if s.aborted || s.phase ≠ .flagSet then none
    else some { s with
      workers := s.workers.map (fun w => if w.isBlocked then .ready else w), phase := .notified }
  | .join =>
    if s.aborted || s.phase ≠ .notified then none
    else if s.workers.all Worker.isExited then some { s with phase := .returned }
    else none

end ThreadPool
end Theia
