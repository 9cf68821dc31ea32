import Verif.NotificationQueue

/-!
# `priority_task_system` (include/stlab/concurrency/default_executor.hpp:320-441), the portable thread pool

Transition system of the pool with `N` queues: worker threads `0 .. N-1`, worker `k` owning queue `k`,
expansion threads `N ..`, thread `N + j` owning waiter `j`, and any number of threads calling `execute`,
`wake`, `add_thread` and `join`. A critical section is one step; a `try_to_lock` may fail at any moment
(which the C++ standard allows, and which happens when another thread is inside the critical section).
Condition variables: `notify_one`, called after the lock is released, is a step of its own (`notify`), so a
notification is pending between the two; a thread in `wait` is woken by it or spuriously.

Simplifications: the queue where `execute` starts looking (`_index++`) is arbitrary; `wake()` may pick any
queue or waiter; `add_thread` is not called any more once `join` was (in the code this would be a data race
on `_threads`); `join` calls `done()` on queues and waiters in any order; thread creation does not fail.
Tasks are numbered in the order of the calls of `execute`.
-/

namespace Verif.ThreadPool

open Verif.NotificationQueue

/-- Pointwise update. -/
def upd {α : Type} (f : Nat → α) (k : Nat) (v : α) : Nat → α := fun i => if i = k then v else f i

/-- What a pool thread `i` is doing. -/
inductive Pc where
  /-- about to `try_pop` queue `(i + n) % N` (lines 351-353, 418-420); if `n = N`, about to lock in
  `pop()` (line 356) or `wait()` (line 426) -/
  | scan (n : Nat)
  /-- waiting on the condition variable -/
  | asleep
  /-- returned from waiting on the condition variable, about to evaluate the loop condition -/
  | awake
  /-- executing task `t` -/
  | calling (t : Nat)
  /-- the thread function returned -/
  | exited
  deriving DecidableEq, Repr

/-- A call of `execute` in progress: about to try queue `(i + n) % N`. -/
structure Push where
  task : Nat
  prio : Nat
  i : Nat
  n : Nat
  deriving DecidableEq, Repr

/-- What an observer sees. -/
inductive Event where
  /-- `execute` is called with task `t` -/
  | submit (t : Nat)
  /-- the task has been queued (`execute` is about to return) -/
  | accept (t : Nat)
  /-- thread `i` begins the call of task `t` -/
  | start (i t : Nat)
  /-- the call of task `t` ends -/
  | finish (t : Nat)
  /-- `join` is called -/
  | join
  deriving DecidableEq, Repr

structure St where
  /-- `_q` -/
  q : Nat → NQ := fun _ => {}
  /-- notifications of queue `k`'s condition variable about to be sent -/
  notif : Nat → Nat := fun _ => 0
  /-- `_waiters[j]._waiting` -/
  wWaiting : Nat → Bool := fun _ => false
  /-- `_waiters[j]._done` -/
  wDone : Nat → Bool := fun _ => false
  /-- notifications of waiter `j`'s condition variable about to be sent -/
  wNotif : Nat → Nat := fun _ => 0
  /-- the pool threads -/
  th : Nat → Pc := fun _ => .scan 0
  /-- `_threads.size()` -/
  nth : Nat
  /-- calls of `execute` in progress -/
  pushing : List Push := []
  /-- `join` has been called -/
  joining : Bool := false
  /-- number of calls of `execute` (ghost) -/
  next : Nat := 0
  trace : List Event := []

/-- The constructor (lines 370-375) creates the `N` workers. -/
def init (N : Nat) : St := { nth := N }

inductive Act where
  /-- some thread calls `execute<prio>(f)` (lines 398-400), `i` is the value of `_index++` -/
  | submit (prio i : Nat)
  /-- the `j`-th call of `execute` tries the next queue (line 403), with or without getting the lock -/
  | tryPush (j : Nat) (locked : Bool)
  /-- the `j`-th call of `execute` has tried all queues and pushes to the first (line 406) -/
  | push (j : Nat)
  /-- `notify_one` on queue `k`'s condition variable -/
  | notify (k : Nat)
  /-- thread `i` tries the next queue, with or without getting the lock -/
  | tryPop (i : Nat) (locked : Bool)
  /-- thread `i` has tried all queues and enters `pop()` or `wait()` -/
  | enter (i : Nat)
  /-- thread `i` is woken spuriously -/
  | spurious (i : Nat)
  /-- thread `i`, woken, evaluates the loop condition again -/
  | resume (i : Nat)
  /-- the task called by thread `i` returns -/
  | finish (i : Nat)
  /-- critical section of `notification_queue::wake` on queue `k` (lines 265-273) -/
  | wakeQ (k : Nat)
  /-- critical section of `waiter::wake` on waiter `j` (lines 200-208) -/
  | wakeW (j : Nat)
  /-- `notify_one` on waiter `j`'s condition variable -/
  | wNotify (j : Nat)
  /-- `add_thread` (lines 409-429) -/
  | addThread
  /-- `join` is called -/
  | join
  /-- critical section of `notification_queue::done` (lines 285-291), called by `join` -/
  | doneQ (k : Nat)
  /-- critical section of `waiter::done` (lines 191-197), called by `join` -/
  | doneW (j : Nat)
  deriving DecidableEq, Repr

/-- Thread `i` evaluates the loop condition in `notification_queue::pop` (lines 278-282, with what `run`
does with the result, lines 356-359). -/
def evalPop (s : St) (i : Nat) : St :=
  if (s.q i).items = [] ∧ (s.q i).done = false ∧ (s.q i).waiting = true then { s with th := upd s.th i .asleep }
  else
    match popNotEmpty { s.q i with waiting := false } with
    | none => { s with q := upd s.q i { s.q i with waiting := false },
                       th := upd s.th i (if (s.q i).done then .exited else .scan 0) }
    | some (e, q') => { s with q := upd s.q i q', th := upd s.th i (.calling e.task),
                               trace := s.trace ++ [.start i e.task] }

/-- Expansion thread `N + j` evaluates the loop condition in `waiter::wait` (lines 214-217, and line 426). -/
def evalWait (N : Nat) (s : St) (i : Nat) : St :=
  if s.wWaiting (i - N) = true ∧ s.wDone (i - N) = false then { s with th := upd s.th i .asleep }
  else { s with wWaiting := upd s.wWaiting (i - N) false,
                th := upd s.th i (if s.wDone (i - N) then .exited else .scan 0) }

/-- Queue a task and owe the notification (lines 297-302, 308-312). -/
def pushTo (s : St) (j : Nat) (p : Push) (k : Nat) : St :=
  { s with q := upd s.q k (push p.task p.prio (s.q k)), notif := upd s.notif k (s.notif k + 1),
           pushing := s.pushing.eraseIdx j, trace := s.trace ++ [.accept p.task] }

/-- One step of the pool with `N` queues and at most `limit` threads; `none` if it is not possible. -/
def step (N limit : Nat) (s : St) : Act → Option St
  | .submit prio i =>
    if prio < 3 then
      some { s with pushing := s.pushing ++ [⟨s.next, prio, i, 0⟩], next := s.next + 1,
                    trace := s.trace ++ [.submit s.next] }
    else none
  | .tryPush j locked =>
    match s.pushing[j]? with
    | none => none
    | some p =>
      if p.n = N then none
      else if locked then some (pushTo s j p ((p.i + p.n) % N))
      else some { s with pushing := s.pushing.set j { p with n := p.n + 1 } }
  | .push j =>
    match s.pushing[j]? with
    | none => none
    | some p => if p.n = N then some (pushTo s j p (p.i % N)) else none
  | .notify k =>
    if k < N ∧ 0 < s.notif k then
      some { s with notif := upd s.notif k (s.notif k - 1),
                    th := if s.th k = .asleep then upd s.th k .awake else s.th }
    else none
  | .tryPop i locked =>
    if i < s.nth then
      match s.th i with
      | .scan n =>
        if n = N then none
        else if locked then
          match popNotEmpty (s.q ((i + n) % N)) with
          | none => some { s with th := upd s.th i (.scan (n + 1)) }
          | some (e, q') => some { s with q := upd s.q ((i + n) % N) q', th := upd s.th i (.calling e.task),
                                          trace := s.trace ++ [.start i e.task] }
        else some { s with th := upd s.th i (.scan (n + 1)) }
      | _ => none
    else none
  | .enter i =>
    if i < s.nth ∧ s.th i = .scan N then
      if i < N then some (evalPop { s with q := upd s.q i { s.q i with waiting := true } } i)
      else some (evalWait N { s with wWaiting := upd s.wWaiting (i - N) true } i)
    else none
  | .spurious i =>
    if i < s.nth ∧ s.th i = .asleep then some { s with th := upd s.th i .awake } else none
  | .resume i =>
    if i < s.nth ∧ s.th i = .awake then
      if i < N then some (evalPop s i) else some (evalWait N s i)
    else none
  | .finish i =>
    if i < s.nth then
      match s.th i with
      | .calling t => some { s with th := upd s.th i (.scan 0), trace := s.trace ++ [.finish t] }
      | _ => none
    else none
  | .wakeQ k =>
    if k < N ∧ (s.q k).waiting = true then
      some { s with q := upd s.q k { s.q k with waiting := false }, notif := upd s.notif k (s.notif k + 1) }
    else none
  | .wakeW j =>
    if s.wWaiting j = true then
      some { s with wWaiting := upd s.wWaiting j false, wNotif := upd s.wNotif j (s.wNotif j + 1) }
    else none
  | .wNotify j =>
    if 0 < s.wNotif j then
      some { s with wNotif := upd s.wNotif j (s.wNotif j - 1),
                    th := if s.th (N + j) = .asleep then upd s.th (N + j) .awake else s.th }
    else none
  | .addThread =>
    if s.joining = false ∧ s.nth < limit then
      some { s with nth := s.nth + 1, th := upd s.th s.nth (.scan 0) }
    else none
  | .join => if s.joining then none else some { s with joining := true, trace := s.trace ++ [.join] }
  | .doneQ k =>
    if s.joining ∧ k < N then
      some { s with q := upd s.q k { s.q k with done := true }, notif := upd s.notif k (s.notif k + 1) }
    else none
  | .doneW j =>
    if s.joining then
      some { s with wDone := upd s.wDone j true, wNotif := upd s.wNotif j (s.wNotif j + 1) }
    else none

/-- Run a sequence of steps. -/
def exec (N limit : Nat) (s : St) : List Act → Option St
  | [] => some s
  | a :: as => match step N limit s a with
    | none => none
    | some s' => exec N limit s' as

/-- States reachable from a newly constructed pool. -/
def Reachable (N limit : Nat) (s : St) : Prop := ∃ as, exec N limit (init N) as = some s

/-- All threads have exited: `join` can return. -/
def AllExited (s : St) : Prop := ∀ i < s.nth, s.th i = .exited

end Verif.ThreadPool
