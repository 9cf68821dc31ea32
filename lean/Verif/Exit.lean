import Verif.PreExit
import Verif.ThreadPoolProps
import Verif.Timer

/-!
# The end of the program with the portable task system

The thread pool (`Verif.ThreadPool`), the timer (`Verif.Timer`) and `pre_exit` (`Verif.PreExit`) together: `pts()` creates the pool
on first use and registers a handler that joins it (src/concurrency/default_executor.cpp:45-53); `get_system_timer()` creates the
timer on first use and registers nothing (include/stlab/concurrency/system_timer.hpp:253-255, 290-293). The three parts make the steps
of their own models. Any thread may call the executor and the timer at any moment, the thread of the timer among them, which does so
for a delayed executor (include/stlab/concurrency/executor_base.hpp:38-41).

When `join` returns, the queues are destroyed (`_q.clear()`, include/stlab/concurrency/default_executor.hpp:390); a call of `execute` that
then uses a queue is the outcome `ub`. The static timer is destroyed after `pre_exit()` has returned.
-/

namespace Verif.Exit

/-- The handlers of the program, and the one registered by `pts()` (src/concurrency/default_executor.cpp:49). -/
inductive Handler where
  | user (n : Nat)
  | join
  deriving DecidableEq, Repr

/-- What an observer sees: the events of pool and timer, the calls of handlers, the return of `pre_exit()`. -/
inductive Event where
  | pool (e : ThreadPool.Event)
  | timer (e : Timer.Event)
  | run (h : Handler)
  | ret
  deriving DecidableEq, Repr

structure St where
  pre : PreExit.St Handler := {}
  /-- the handler `pre_exit()` is executing -/
  cur : Option Handler := none
  /-- `only_task_system` -/
  pool : Option ThreadPool.St := none
  /-- `_q` has been cleared by `join` -/
  cleared : Bool := false
  /-- `only_system_timer` -/
  timer : Option Timer.St := none
  trace : List Event := []

inductive Act where
  | atPreExit (n : Nat)
  | callPreExit
  | pop
  | handlerReturns
  /-- the first call of `pts()` -/
  | makePool
  | pool (a : ThreadPool.Act)
  /-- the first call of `get_system_timer()` -/
  | makeTimer
  | timer (a : Timer.Act)
  deriving DecidableEq, Repr

inductive Out where
  | no
  | ub
  | abort
  | ok (s : St)

/-- The steps of `join` (default_executor.hpp:382-388). -/
def ofJoin : ThreadPool.Act → Bool
  | .join | .doneQ _ | .doneW _ => true
  | _ => false

/-- The steps of `execute` that use a queue (default_executor.hpp:403, 406). -/
def usesQueue (p : ThreadPool.St) : ThreadPool.Act → Bool
  | .tryPush j _ | .push j => j < p.pushing.length
  | .notify k => 0 < p.notif k
  | _ => false

instance (p : ThreadPool.St) : Decidable (ThreadPool.AllExited p) :=
  inferInstanceAs (Decidable (∀ i < p.nth, p.th i = .exited))

/-- `at_pre_exit` (src/pre_exit.cpp:27-33). -/
def register (s : St) (h : Handler) : Out :=
  match PreExit.push s.pre h with
  | none => .abort
  | some p => .ok { s with pre := p }

/-- One evaluation of the condition of the loop in `stlab_pre_exit` (src/pre_exit.cpp:62). -/
def pop (s : St) : Out :=
  match s.pre.phase with
  | .inLoop =>
    match PreExit.pop s.pre with
    | none => .abort
    | some p => match s.pre.stack with
      | [] => .ok { s with pre := p, trace := s.trace ++ [.ret] }
      | (_, h) :: _ => .ok { s with pre := p, cur := some h, trace := s.trace ++ [.run h] }
  | _ => .no

/-- The handler returns; `join` when all threads have ended, and after clearing the queues (default_executor.hpp:387-390). -/
def handlerReturns (s : St) : Out :=
  match PreExit.step s.pre .handlerReturns with
  | none => .no
  | some q => match s.cur with
    | some .join => match s.pool with
      | none => .no
      | some p =>
        if p.joining ∧ ThreadPool.AllExited p then .ok { s with pre := q, cur := none, cleared := true } else .no
    | _ => .ok { s with pre := q, cur := none }

/-- A step of the pool. -/
def poolStep (N limit : Nat) (s : St) (a : ThreadPool.Act) : Out :=
  match s.pool with
  | none => .no
  | some p =>
    if ofJoin a && s.cur != some .join then .no
    else if s.cleared && usesQueue p a then .ub
    else match ThreadPool.step N limit p a with
      | none => .no
      | some p' => .ok { s with pool := some p', trace := s.trace ++ (p'.trace.drop p.trace.length).map .pool }

/-- A step of the timer; it is destroyed after `pre_exit()`. -/
def timerStep (s : St) (a : Timer.Act) : Out :=
  match s.timer with
  | none => .no
  | some t =>
    if a = .destroy ∧ s.pre.phase ≠ .returned then .no
    else match Timer.step t a with
      | .no => .no
      | .ub => .ub
      | .ok t' => .ok { s with timer := some t', trace := s.trace ++ (t'.trace.drop t.trace.length).map .timer }

/-- One step, for a pool with `N` queues and at most `limit` threads. -/
def step (N limit : Nat) (s : St) : Act → Out
  | .atPreExit n => register s (.user n)
  | .callPreExit => match PreExit.step s.pre .callPreExit with
    | none => .no
    | some q => .ok { s with pre := q }
  | .pop => pop s
  | .handlerReturns => handlerReturns s
  -- src/concurrency/default_executor.cpp:48-51
  | .makePool => if s.pool = none then register { s with pool := some (ThreadPool.init N) } .join else .no
  | .pool a => poolStep N limit s a
  -- system_timer.hpp:253-255
  | .makeTimer => if s.timer = none then .ok { s with timer := some {} } else .no
  | .timer a => timerStep s a

def exec (N limit : Nat) (s : St) : List Act → Option St
  | [] => some s
  | a :: as => match step N limit s a with
    | .ok s' => exec N limit s' as
    | _ => none

inductive Reachable (N limit : Nat) : St → Prop where
  | init : Reachable N limit {}
  | step {s s' : St} (h : Reachable N limit s) (a : Act) (hs : step N limit s a = .ok s') : Reachable N limit s'

theorem exec_reachable {N limit : Nat} {as : List Act} : ∀ {s s' : St}, Reachable N limit s → exec N limit s as = some s' →
    Reachable N limit s' := by
  induction as with
  | nil => intro s s' h he; simp only [exec, Option.some.injEq] at he; exact he ▸ h
  | cons a as ih =>
    intro s s' h he
    simp only [exec] at he
    split at he
    · exact ih (h.step a ‹_›) he
    · simp at he

end Verif.Exit
