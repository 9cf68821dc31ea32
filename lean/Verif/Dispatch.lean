import Verif.PreExit

/-!
# Executor and timer of the libdispatch task system, with `pre_exit`

`executor_type` (include/stlab/concurrency/default_executor.hpp:53-101), `group()`
(src/concurrency/default_executor.cpp:23-33), `system_timer` (include/stlab/concurrency/system_timer.hpp:49-115) and the
pre-exit handlers they register, on top of the model of `pre_exit` in `Verif.PreExit`. Any number of threads call the
executor and the timer, so do the tasks; the queues of libdispatch start the tasks in any order, any number at a time.

libdispatch is represented by its contract: a group is a counter; `dispatch_group_async_f` enters the group when it is called
and leaves it after the function it was given has returned; `dispatch_group_wait` returns at a moment when the counter is
zero; `dispatch_after_f` calls the function some time later. The time is left out, so are the priorities. The initialisation
of a function-local static object is one step (other threads wait for it), except that the constructor of the timer calls
`group()` before it registers its handler: creating the group is a step of its own.
-/

namespace Verif.Dispatch

/-- The pre-exit handlers: those of the program, the one registered by `group()` (src/concurrency/default_executor.cpp:27-29),
and the one registered by the constructor of the timer (system_timer.hpp:80). -/
inductive Handler where
  | user (n : Nat)
  | wait
  | close
  deriving DecidableEq, Repr

/-- How far a task is. -/
inductive TaskSt where
  /-- given to `dispatch_group_async_f` (default_executor.hpp:93-95) -/
  | queued
  /-- the executor's function calls it (default_executor.hpp:97) -/
  | running
  /-- it has returned -/
  | ran
  /-- the closure has been deleted (default_executor.hpp:98), libdispatch has not left the group yet -/
  | freed
  | done
  /-- a call of the timer has passed the assertion (system_timer.hpp:90) -/
  | checked
  /-- given to `dispatch_after_f` (system_timer.hpp:107-109) -/
  | pending
  /-- the group has been entered and the function is being called (system_timer.hpp:98-101) -/
  | tRunning
  /-- it has returned -/
  | tRan
  /-- the group has been left (system_timer.hpp:102), the closure not deleted yet -/
  | tLeft
  /-- the timer was closed (system_timer.hpp:99), the closure not deleted yet -/
  | tDropped
  /-- called, and the closure deleted -/
  | tDone
  /-- not called, and the closure deleted -/
  | tGone
  deriving DecidableEq, Repr

/-- What an observer sees. `by` tells whether a task calls the executor or timer, and which. -/
inductive Event where
  /-- a handler is registered -/
  | reg (h : Handler)
  /-- task `t` is given to the executor -/
  | submit (t : Nat) (by_ : Option Nat)
  /-- task `t` is given to the timer -/
  | delay (t : Nat) (by_ : Option Nat)
  /-- the call of task `t` begins -/
  | start (t : Nat)
  /-- the call of task `t` ends -/
  | finish (t : Nat)
  /-- the closure of task `t` is destroyed -/
  | destroy (t : Nat)
  /-- `pre_exit()` calls a handler -/
  | run (h : Handler)
  /-- `pre_exit()` returns -/
  | ret
  deriving DecidableEq, Repr

structure St where
  /-- the stack of handlers and the state of `pre_exit()` -/
  pre : PreExit.St Handler := {}
  /-- the handler `pre_exit()` is executing -/
  cur : Option Handler := none
  /-- the static object in `group()` exists -/
  group : Bool := false
  /-- the static object in `get_system_timer()` exists (system_timer.hpp:290-293) -/
  timer : Bool := false
  /-- `system_timer::_closed` -/
  closed : Bool := false
  /-- the counter of the group -/
  count : Nat := 0
  tasks : List TaskSt := []
  trace : List Event := []

inductive Act where
  /-- the program registers a handler -/
  | atPreExit (n : Nat)
  /-- `pre_exit()` is called -/
  | callPreExit
  /-- `pre_exit()` takes the next handler and calls it, or returns -/
  | pop
  /-- the handler returns -/
  | handlerReturns
  /-- the first call of `group()` -/
  | makeGroup
  /-- the constructor of the timer registers its handler -/
  | makeTimer
  /-- the executor is called, by task `b` or by other code -/
  | submit (b : Option Nat)
  /-- the timer is called, by task `b` or by other code, and evaluates the assertion -/
  | check (b : Option Nat)
  /-- the call of the timer for task `t` goes on with `dispatch_after_f` -/
  | after (t : Nat)
  /-- libdispatch calls the function for task `t` of the executor -/
  | start (t : Nat)
  /-- libdispatch calls the function for task `t` of the timer -/
  | fire (t : Nat)
  /-- the function of task `t` returns -/
  | finish (t : Nat)
  /-- the closure of task `t` is deleted -/
  | delete (t : Nat)
  /-- the group is left for task `t` -/
  | leave (t : Nat)
  deriving DecidableEq, Repr

/-- A step is not possible, fails an assertion, or leads to a new state. -/
inductive Out where
  | no
  | abort
  | ok (s : St)

/-- The caller of the executor or timer, if it is a task, is being executed. -/
def caller (s : St) : Option Nat → Bool
  | none => true
  | some u => s.tasks[u]? == some .running || s.tasks[u]? == some .tRunning

/-- `at_pre_exit` (src/pre_exit.cpp:27-33). -/
def register (s : St) (h : Handler) : Out :=
  match PreExit.push s.pre h with
  | none => .abort
  | some p => .ok { s with pre := p, trace := s.trace ++ [.reg h] }

/-- One evaluation of the condition of the loop in `stlab_pre_exit` (src/pre_exit.cpp:62). -/
def pop (s : St) : Out :=
  match s.pre.phase with
  | .inLoop =>
    match PreExit.pop s.pre with
    | none => .abort
    | some p => match s.pre.stack with
      | [] => .ok { s with pre := p, trace := s.trace ++ [.ret] }
      | (_, h) :: _ => .ok { s with pre := p, cur := some h, trace := s.trace ++ [.run h] }
  | _ => .no

/-- The handler executed by `pre_exit()` does its work and returns: `dispatch_group_wait` returns when the counter is zero
(src/concurrency/default_executor.cpp:28); `set_closed` sets `_closed` in a critical section (system_timer.hpp:67-70). -/
def handlerReturns (s : St) : Out :=
  match PreExit.step s.pre .handlerReturns with
  | none => .no
  | some p => match s.cur with
    | some .wait => if s.count = 0 then .ok { s with pre := p, cur := none } else .no
    | some .close => .ok { s with pre := p, cur := none, closed := true }
    | _ => .ok { s with pre := p, cur := none }

def step (s : St) : Act → Out
  | .atPreExit n => register s (.user n)
  | .callPreExit => match PreExit.step s.pre .callPreExit with
    | none => .no
    | some p => .ok { s with pre := p }
  | .pop => pop s
  | .handlerReturns => handlerReturns s
  -- src/concurrency/default_executor.cpp:26-31
  | .makeGroup => if s.group then .no else register { s with group := true } .wait
  -- system_timer.hpp:77-81: `group()` has been called before
  | .makeTimer => if s.group && !s.timer then register { s with timer := true } .close else .no
  -- default_executor.hpp:90-100
  | .submit b =>
    if s.group && caller s b then
      .ok { s with count := s.count + 1, tasks := s.tasks ++ [.queued], trace := s.trace ++ [.submit s.tasks.length b] }
    else .no
  -- system_timer.hpp:88-90
  | .check b =>
    if s.timer && caller s b then
      if s.closed then .abort
      else .ok { s with tasks := s.tasks ++ [.checked], trace := s.trace ++ [.delay s.tasks.length b] }
    else .no
  -- system_timer.hpp:94-114
  | .after t => match s.tasks[t]? with
    | some .checked => .ok { s with tasks := s.tasks.set t .pending }
    | _ => .no
  -- default_executor.hpp:95-97
  | .start t => match s.tasks[t]? with
    | some .queued => .ok { s with tasks := s.tasks.set t .running, trace := s.trace ++ [.start t] }
    | _ => .no
  -- system_timer.hpp:58-65, 98-101
  | .fire t => match s.tasks[t]? with
    | some .pending =>
      if s.closed then .ok { s with tasks := s.tasks.set t .tDropped }
      else .ok { s with tasks := s.tasks.set t .tRunning, count := s.count + 1, trace := s.trace ++ [.start t] }
    | _ => .no
  | .finish t => match s.tasks[t]? with
    | some .running => .ok { s with tasks := s.tasks.set t .ran, trace := s.trace ++ [.finish t] }
    | some .tRunning => .ok { s with tasks := s.tasks.set t .tRan, trace := s.trace ++ [.finish t] }
    | _ => .no
  -- default_executor.hpp:98, system_timer.hpp:112
  | .delete t => match s.tasks[t]? with
    | some .ran => .ok { s with tasks := s.tasks.set t .freed, trace := s.trace ++ [.destroy t] }
    | some .tLeft => .ok { s with tasks := s.tasks.set t .tDone, trace := s.trace ++ [.destroy t] }
    | some .tDropped => .ok { s with tasks := s.tasks.set t .tGone, trace := s.trace ++ [.destroy t] }
    | _ => .no
  -- the end of `dispatch_group_async_f`, and system_timer.hpp:102
  | .leave t => match s.tasks[t]? with
    | some .freed => .ok { s with tasks := s.tasks.set t .done, count := s.count - 1 }
    | some .tRan => .ok { s with tasks := s.tasks.set t .tLeft, count := s.count - 1 }
    | _ => .no

def exec (s : St) : List Act → Option St
  | [] => some s
  | a :: as => match step s a with
    | .ok s' => exec s' as
    | _ => none

/-- The states of a program that has not used the executor, the timer or `pre_exit` before. -/
inductive Reachable : St → Prop where
  | init : Reachable {}
  | step {s s' : St} (h : Reachable s) (a : Act) (hs : step s a = .ok s') : Reachable s'

theorem exec_reachable {as : List Act} : ∀ {s s' : St}, Reachable s → exec s as = some s' → Reachable s' := by
  induction as with
  | nil => intro s s' h he; simp only [exec, Option.some.injEq] at he; exact he ▸ h
  | cons a as ih =>
    intro s s' h he
    simp only [exec] at he
    split at he
    · exact ih (h.step a ‹_›) he
    · simp at he

end Verif.Dispatch
