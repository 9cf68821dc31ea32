import Verif.SerialQueueProps

/-!
# A serial queue over an executor that fails (include/stlab/concurrency/serial_queue.hpp)

`Verif.SerialQueue` assumes that the underlying executor takes every job and runs it at some time. Here it may also throw when it is
given a job, or destroy a job without running it; and the deque may throw when a task is appended.
-/

namespace Verif.SerialQueue.Throw

open Verif.SerialQueue

inductive Act where
  /-- as before -/
  | base (a : SerialQueue.Act)
  /-- `emplace_back` throws (line 122): the task is not queued, and the exception leaves `enqueue` -/
  | full
  /-- `_executor` throws in `enqueue` (line 131): the exception leaves `enqueue` -/
  | refuse
  /-- `_executor` throws when job `i` gives it the next job (lines 86, 96), inside of a function that is `noexcept` -/
  | refuseNext (i : Nat)
  /-- the executor destroys a job it has not run -/
  | discard
  deriving DecidableEq, Repr

inductive Out where
  | no
  | ub
  /-- `std::terminate` -/
  | terminate
  | ok (s : St)

/-- One step. -/
def step (m : Mode) (s : St) : Act → Out
  | .base a => match SerialQueue.step m s a with
    | .no => .no
    | .ub => .ub
    | .ok s' => .ok s'
  | .full => .ok s
  -- nothing takes `_running` back
  | .refuse => if s.kicks = 0 then .no else .ok { s with kicks := s.kicks - 1 }
  | .refuseNext i => if s.jobs[i]? = some .resubmit then .terminate else .no
  | .discard => if s.pending = 0 then .no else .ok { s with pending := s.pending - 1 }

/-- A sequence of steps; `none` if a step is impossible or undefined, or terminates the program. -/
def exec (m : Mode) (s : St) : List Act → Option St
  | [] => some s
  | a :: as => match step m s a with
    | .ok s' => exec m s' as
    | _ => none

def Reachable (m : Mode) (s : St) : Prop := ∃ as, exec m {} as = some s

end Verif.SerialQueue.Throw
