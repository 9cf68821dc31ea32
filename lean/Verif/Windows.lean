import Verif.PreExit

/-!
# Executors and timer of the Windows task system, with `pre_exit`

`task_system` (include/stlab/concurrency/default_executor.hpp:121-176), `executor_type` (lines 454-465),
`single_task_system` (src/concurrency/default_executor.cpp:57-65), `system_timer` (include/stlab/concurrency/
system_timer.hpp:119-178) and `pre_exit` (`Verif.PreExit`). Any number of threads use the executors of the three priorities
and the timer, so do the tasks; the pools call the tasks in any order, any number at a time.

The thread pool of Windows is represented by its contract: a work object made by `CreateThreadpoolWork` is a member of the
cleanup group of its callback environment until it is closed; `CloseThreadpoolCleanupGroupMembers` with `FALSE` returns at a
moment when no member has a callback that is queued or being executed, and releases all members. That this includes members
made during the call is not promised by the documentation; the counterexamples do not depend on it. The use of a closed
cleanup group or pool, or of a released work object, is undefined behaviour. Allocations succeed. The initialisation of a
function-local static object is one step.
-/

namespace Verif.Windows

/-- `executor_priority`, default_executor.hpp:49 -/
inductive Prio where
  | high
  | medium
  | low
  deriving DecidableEq, Repr

/-- The pre-exit handlers: those of the program and those of `single_task_system<P>` (default_executor.cpp:61). -/
inductive Handler where
  | user (n : Nat)
  | join (p : Prio)
  deriving DecidableEq, Repr

inductive TaskSt where
  /-- the work object exists (default_executor.hpp:158), the caller has not submitted it yet -/
  | created
  /-- submitted (line 164) -/
  | queued
  /-- `callback_impl` calls it (line 173) -/
  | running
  /-- it has returned -/
  | ran
  /-- `callback_impl` has closed the work object and deleted the closure (lines 174, 172), but not returned yet -/
  | freed
  | done
  /-- the work object was released by `join` before it was submitted -/
  | lost
  /-- given to the timer (system_timer.hpp:156-167) -/
  | tPending
  /-- `timer_callback_impl` calls it (system_timer.hpp:177) -/
  | tRunning
  /-- the call has ended, and the closure is deleted (system_timer.hpp:176-178) -/
  | tDone
  deriving DecidableEq, Repr

structure Task where
  /-- the executor, or `none` for the timer -/
  prio : Option Prio
  st : TaskSt
  /-- the task that called the executor, if it was one -/
  by_ : Option Nat
  /-- how often the task was called -/
  calls : Nat
  deriving DecidableEq, Repr

structure St where
  /-- the stack of handlers and the state of `pre_exit()` -/
  pre : PreExit.St Handler := {}
  /-- the handler `pre_exit()` is executing -/
  cur : Option Handler := none
  /-- the static object in `single_task_system<P>()` exists -/
  pool : Prio → Bool := fun _ => false
  /-- `join` has closed its cleanup group and pool; `_pool` is null -/
  closed : Prio → Bool := fun _ => false
  tasks : List Task := []

inductive Act where
  /-- the program registers a handler -/
  | atPreExit (n : Nat)
  /-- `pre_exit()` is called -/
  | callPreExit
  /-- `pre_exit()` takes the next handler and calls it, or returns -/
  | pop
  /-- the handler returns -/
  | handlerReturns
  /-- the first call of `single_task_system<P>()` -/
  | makePool (p : Prio)
  /-- the executor is called, by task `b` or by other code: `CreateThreadpoolWork` -/
  | create (p : Prio) (b : Option Nat)
  /-- the call goes on with `SubmitThreadpoolWork` for task `t` -/
  | submit (t : Nat)
  /-- the timer is called -/
  | delay (b : Option Nat)
  /-- the pool, or the timer's pool, calls task `t` -/
  | start (t : Nat)
  /-- the function of task `t` returns -/
  | finish (t : Nat)
  /-- `callback_impl` deletes the closure of task `t` -/
  | delete (t : Nat)
  /-- `callback_impl` for task `t` returns -/
  | leave (t : Nat)
  /-- the destructors of the static `task_system` objects are called; what happens after that is not modelled -/
  | exit
  deriving DecidableEq, Repr

/-- A step is not possible, fails an assertion, is undefined, or leads to a new state. -/
inductive Out where
  | no
  | abort
  | ub
  | ok (s : St)

/-- The task is being called. -/
def TaskSt.active : TaskSt → Bool
  | .running | .tRunning => true
  | _ => false

/-- The callback of the task is queued or being executed. -/
def TaskSt.outstanding : TaskSt → Bool
  | .queued | .running | .ran | .freed => true
  | _ => false

/-- The caller of the executor or timer, if it is a task, is being executed. -/
def caller (s : St) : Option Nat → Bool
  | none => true
  | some u => (s.tasks[u]?).any (·.st.active)

/-- Task `u` is in a call of an executor. -/
def calling (s : St) (u : Nat) : Bool := s.tasks.any fun x => x.st == .created && x.by_ == some u

/-- `CloseThreadpoolCleanupGroupMembers` releases the members that were not submitted. -/
def release (p : Prio) (x : Task) : Task :=
  if x.prio = some p ∧ x.st = .created then { x with st := .lost } else x

/-- `at_pre_exit` (src/pre_exit.cpp:27-33). -/
def register (s : St) (h : Handler) : Out :=
  match PreExit.push s.pre h with
  | none => .abort
  | some p => .ok { s with pre := p }

/-- One evaluation of the condition of the loop in `stlab_pre_exit` (src/pre_exit.cpp:62). -/
def pop (s : St) : Out :=
  match s.pre.phase with
  | .inLoop =>
    match PreExit.pop s.pre with
    | none => .abort
    | some p => match s.pre.stack with
      | [] => .ok { s with pre := p }
      | (_, h) :: _ => .ok { s with pre := p, cur := some h }
  | _ => .no

/-- The handler executed by `pre_exit()` does its work and returns; `join`: default_executor.hpp:144-149. -/
def handlerReturns (s : St) : Out :=
  match PreExit.step s.pre .handlerReturns with
  | none => .no
  | some q => match s.cur with
    | some (.join p) =>
      if s.closed p then .ub
      else if s.tasks.any fun x => decide (x.prio = some p) && x.st.outstanding then .no
      else .ok { s with pre := q, cur := none, closed := fun r => if r = p then true else s.closed r, tasks := s.tasks.map (release p) }
    | _ => .ok { s with pre := q, cur := none }

/-- Task `t` makes a step of its own. -/
def St.put (s : St) (t : Nat) (x : Task) : St := { s with tasks := s.tasks.set t x }

def step (s : St) : Act → Out
  | .atPreExit n => register s (.user n)
  | .callPreExit => match PreExit.step s.pre .callPreExit with
    | none => .no
    | some p => .ok { s with pre := p }
  | .pop => pop s
  | .handlerReturns => handlerReturns s
  -- src/concurrency/default_executor.cpp:60-63
  | .makePool p =>
    if s.pool p then .no else register { s with pool := fun r => if r = p then true else s.pool r } (.join p)
  -- default_executor.hpp:157-158
  | .create p b =>
    if s.pool p && caller s b then
      if s.closed p then .ub else .ok { s with tasks := s.tasks ++ [⟨some p, .created, b, 0⟩] }
    else .no
  -- default_executor.hpp:163-164
  | .submit t => match s.tasks[t]? with
    | some x => match x.st with
      | .created => .ok (s.put t { x with st := .queued })
      | .lost => .ub
      | _ => .no
    | none => .no
  -- system_timer.hpp:152-169
  | .delay b => if caller s b then .ok { s with tasks := s.tasks ++ [⟨none, .tPending, b, 0⟩] } else .no
  -- default_executor.hpp:169-173, system_timer.hpp:173-177
  | .start t => match s.tasks[t]? with
    | some x => match x.st with
      | .queued => .ok (s.put t { x with st := .running, calls := x.calls + 1 })
      | .tPending => .ok (s.put t { x with st := .tRunning, calls := x.calls + 1 })
      | _ => .no
    | none => .no
  | .finish t => match s.tasks[t]? with
    | some x => if calling s t then .no else match x.st with
      | .running => .ok (s.put t { x with st := .ran })
      | .tRunning => .ok (s.put t { x with st := .tDone })
      | _ => .no
    | none => .no
  -- default_executor.hpp:174-175
  | .delete t => match s.tasks[t]? with
    | some x => match x.st with
      | .ran => .ok (s.put t { x with st := .freed })
      | _ => .no
    | none => .no
  | .leave t => match s.tasks[t]? with
    | some x => match x.st with
      | .freed => .ok (s.put t { x with st := .done })
      | _ => .no
    | none => .no
  -- default_executor.hpp:151-153
  | .exit =>
    if (s.pool .high && !s.closed .high) || (s.pool .medium && !s.closed .medium) || (s.pool .low && !s.closed .low) then .abort
    else .ok s

def exec (s : St) : List Act → Option St
  | [] => some s
  | a :: as => match step s a with
    | .ok s' => exec s' as
    | _ => none

/-- The states reached by steps that satisfy a condition. -/
inductive Runs (D : St → Act → Prop) : St → Prop where
  | init : Runs D {}
  | step {s s' : St} {a : Act} : Runs D s → D s a → step s a = .ok s' → Runs D s'

/-- All executions of a program that has not used the library before. -/
abbrev Reachable : St → Prop := Runs fun _ _ => True

theorem exec_reachable {as : List Act} : ∀ {s s' : St}, Reachable s → exec s as = some s' → Reachable s' := by
  induction as with
  | nil => intro s s' h he; simp only [exec, Option.some.injEq] at he; exact he ▸ h
  | cons a as ih =>
    intro s s' h he
    simp only [exec] at he
    split at he
    · exact ih (h.step trivial ‹_›) he
    · simp at he

end Verif.Windows
