import Verif.Model.ThreadPool

/-!
# Executions of a thread pool, and what the event log says
-/

namespace Theia.Spec

open ThreadPool

variable {T : Type}

/-- `s` can be reached from a new pool of `n` threads. -/
inductive PoolReachable (n : Int) : State T → Prop
  | create {s : State T} (h : ThreadPool.create n = .ok s) : PoolReachable n s
  | step {s s' : State T} (l : Label T) (h : PoolReachable n s) (hs : ThreadPool.step s l = some s') :
      PoolReachable n s'

/-- The tasks added, in order. -/
def tasksAdded (log : List (Event T)) : List T :=
  log.filterMap (fun e => match e with | .added t => some t | _ => none)

/-- The tasks started, in order. -/
def tasksStarted (log : List (Event T)) : List T :=
  log.filterMap (fun e => match e with | .started _ t => some t | _ => none)

/-- The tasks finished, in order. -/
def tasksFinished (log : List (Event T)) : List T :=
  log.filterMap (fun e => match e with | .finished _ t => some t | _ => none)

/-- The steps of the pool itself: no new `Add`, no new destruction, no spurious wake-up. -/
def ownStep : Label T → Prop
  | .add _ => False
  | .destroy => False
  | .spurious _ => False
  | _ => True

/-- An execution of `k` steps. -/
inductive PoolSteps : Nat → State T → State T → Prop
  | refl (s : State T) : PoolSteps 0 s s
  | step {k : Nat} {s s' s'' : State T} (l : Label T) (hs : ThreadPool.step s l = some s')
      (h : PoolSteps k s' s'') : PoolSteps (k + 1) s s''

end Theia.Spec
