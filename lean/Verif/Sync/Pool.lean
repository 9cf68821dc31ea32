import Verif.Sync.Clock

/-!
# Data races in the portable thread pool (include/stlab/concurrency/default_executor.hpp, lines 180-441)

`Verif.ThreadPool`, `Verif.ThreadPoolAwait` and `Verif.PoolThreads` say which tasks are called and which threads end. This model asks
which accesses to the members of `priority_task_system` are ordered, with clocks (`Verif.Sync.Clock`).

Which task of a queue is popped, which queue is tried and whether `try_to_lock` succeeds is left open: any is possible here. Each critical section is one
step. The condition variables are synchronised by themselves; using one must happen before its destruction, however, and
`notify_one` is called after the mutex was unlocked (lines 196, 206, 271, 290, 301, 312). A notification is a step of its own therefore.

Locations: the vector `_q` (`vec`), of each queue its members under its mutex (`queue i`) and its condition variable (`ready i`), of each waiter the same
(`waiter j`), and `_threads`. `_count`, `_thread_limit` and the vector `_waiters` are not written after construction, `_index` is atomic. The waiters live
as long as the task system.

Thread 0 has constructed the task system; its `n` threads are 1 to `n`. A thread may use the task system only if it knows the
construction (`pts()` is a function with a static variable: the initialisation happens before each later call). Users may synchronise threads in any other way (`sync`).
-/

namespace Verif.Sync.Pool

inductive Loc where
  | vec
  | queue (i : Nat)
  | ready (i : Nat)
  | waiter (j : Nat)
  | threads
  deriving DecidableEq, Repr

structure Access where
  loc : Loc
  write : Bool
  stamp : Stamp
  deriving DecidableEq, Repr

inductive Pc where
  | unborn
  /-- a thread of the program that is none of the pool -/
  | user
  /-- looking for a task (lines 351-358, 418-426) -/
  | loop
  /-- in the call of task `k` (lines 359, 423) -/
  | calling (k : Nat)
  /-- left the loop (lines 357, 426) -/
  | ended
  deriving DecidableEq, Repr

/-- A thread of the pool. -/
def Pc.pool : Pc → Bool
  | .unborn | .user => false
  | _ => true

/-- Where `join()` (lines 382-391) is. -/
inductive Joiner where
  | none
  /-- before `done()` of queue `i` (lines 383-384) -/
  | doneQ (t i : Nat)
  /-- before `done()` of waiter `j` (lines 385-386) -/
  | doneW (t j : Nat)
  /-- before line 387 reads `_threads` -/
  | reading (t : Nat)
  /-- the threads that are still to be joined (line 388) -/
  | joining (t : Nat) (us : List Nat)
  /-- `_q.clear()` (line 390) is done -/
  | returned (t : Nat)
  deriving DecidableEq, Repr

def Joiner.thread : Joiner → Option Nat
  | .none => Option.none
  | .doneQ t _ | .doneW t _ | .reading t | .joining t _ | .returned t => some t

structure St where
  vc : Nat → Clock
  /-- the mutexes of the queues, of the waiters, and `_mutex` -/
  qlm : Nat → Clock
  wlm : Nat → Clock
  tlm : Clock
  pc : Nat → Pc
  /-- the condition variable the thread is about to notify -/
  nt : Nat → Option Loc
  q : Nat → List Nat
  qdone : Nat → Bool
  wdone : Nat → Bool
  threads : List Nat
  /-- the calls of `execute`: task `k` is of the `k`th -/
  subs : List Stamp
  /-- the tasks called, with what the thread knew then -/
  begun : List (Nat × Clock)
  /-- the tasks that returned -/
  ended : List (Nat × Stamp)
  joiner : Joiner
  acc : List Access

/-- After the construction by thread 0: the members first, then the threads are started and added to `_threads` (lines 370-373). -/
def init (n l : Nat) : St where
  vc := fun u => if u = 0 then fun i => if i = 0 then 2 else 0 else if u ≤ n then fun i => if i = 0 then 1 else 0 else fun _ => 0
  qlm := fun _ _ => 0
  wlm := fun _ _ => 0
  tlm := fun _ => 0
  pc := fun u => if u = 0 then .user else if u ≤ n then .loop else .unborn
  nt := fun _ => none
  q := fun _ => []
  qdone := fun _ => false
  wdone := fun _ => false
  threads := (List.range n).map (· + 1)
  subs := []
  begun := []
  ended := []
  joiner := .none
  acc := ⟨.vec, true, ⟨0, 1⟩⟩ :: ⟨.threads, true, ⟨0, 2⟩⟩ :: ((List.range n).map fun i => ⟨.queue i, true, ⟨0, 1⟩⟩) ++
    ((List.range n).map fun i => ⟨.ready i, true, ⟨0, 1⟩⟩) ++ ((List.range (l - n)).map fun j => ⟨.waiter j, true, ⟨0, 1⟩⟩)

inductive Act where
  /-- `u` is a thread of the program from now on -/
  | born (u : Nat)
  | work (t : Nat)
  /-- thread `t` synchronises with thread `u` in some way: `u` goes on after `t` -/
  | sync (t u : Nat)
  /-- `execute` pushes a task to queue `i` (lines 397-407, 293-314) -/
  | execute (t i : Nat)
  /-- `notify_one` after that, or in `wake()` -/
  | notify (t : Nat)
  /-- `wake()` of queue `i` (lines 265-273) with the lock, or `none` without -/
  | wake (t : Nat) (i : Option Nat)
  /-- `wake()` of waiter `j` (lines 200-208) -/
  | wakeW (t j : Nat)
  /-- `waiters_size()` (lines 363-366) -/
  | size (t : Nat)
  /-- `add_thread()` (lines 409-429): the new thread is `u` -/
  | addThread (t u : Nat)
  /-- `try_pop` of a thread of the pool without the lock (line 259) -/
  | look (u : Nat)
  /-- thread `u` of the pool is in the critical section of `try_pop` (lines 258-262) or `pop` (lines 275-283) of queue `i`; it gets the task at place `p`, if there is one -/
  | pop (u i p : Nat)
  /-- the task returns -/
  | finish (u : Nat)
  /-- thread `u` is in the critical section of `wait()` of waiter `j` (lines 211-218) -/
  | wait (u j : Nat)
  /-- thread `u` of queue `i` ends: `_done` and no task (line 281); of waiter `i - n`: `_done` (line 217) -/
  | stop (u i : Nat)
  /-- thread `t` calls `join()` -/
  | join (t : Nat)
  /-- the next step of it -/
  | joinStep
  deriving DecidableEq, Repr

inductive Out where
  | no
  /-- data race -/
  | race
  | ok (s : St)

def Out.bind : Out → (St → Out) → Out
  | .ok s, f => f s
  | o, _ => o

/-- Thread `t` reads or writes a location. Uses of a condition variable are reads here, its destruction is a write. -/
def access (s : St) (t : Nat) (l : Loc) (w : Bool) : Out :=
  if s.acc.any fun a => a.loc = l && (a.write || w) && ¬ a.stamp.le (s.vc t) then .race
  else .ok { s with vc := tick s.vc t, acc := ⟨l, w, ⟨t, s.vc t t + 1⟩⟩ :: s.acc }

/-- A critical section of queue `i`, found in the vector: `f` is what is done there. -/
def onQueue (s : St) (t i : Nat) (f : St → St) : Out :=
  (access s t .vec false).bind fun s =>
    (access { s with vc := acquire s.vc t (s.qlm i) } t (.queue i) true).bind fun s =>
      .ok { f s with qlm := upd s.qlm i (Sync.join (s.qlm i) (s.vc t)) }

/-- A critical section of waiter `j`. -/
def onWaiter (s : St) (t j : Nat) (f : St → St) : Out :=
  (access { s with vc := acquire s.vc t (s.wlm j) } t (.waiter j) true).bind fun s =>
    .ok { f s with wlm := upd s.wlm j (Sync.join (s.wlm j) (s.vc t)) }

/-- A critical section of `_mutex`. -/
def onThreads (s : St) (t : Nat) (w : Bool) (f : St → St) : Out :=
  (access { s with vc := acquire s.vc t s.tlm } t .threads w).bind fun s => .ok { f s with tlm := Sync.join s.tlm (s.vc t) }

/-- Accesses to several locations, one after the other. -/
def accesses (s : St) (t : Nat) (w : Bool) : List Loc → Out
  | [] => .ok s
  | l :: ls => (access s t l w).bind fun s => accesses s t w ls

/-- The thread is in code of the user. -/
def live (s : St) (t : Nat) : Bool :=
  match s.pc t with
  | .user | .calling _ => true
  | _ => false

/-- It may call functions of the task system. -/
def active (s : St) (t : Nat) : Bool := live s t && decide (2 ≤ s.vc t 0) && decide (s.nt t = none)

/-- `pop_not_empty()` (lines 249-254), if there is a task, which is called then. -/
def popped (u i p : Nat) (s : St) : St :=
  match (s.q i)[p]? with
  | some k => { s with q := upd s.q i ((s.q i).eraseIdx p), begun := s.begun ++ [(k, s.vc u)], pc := upd s.pc u (.calling k) }
  | none => s

def step (n l : Nat) (s : St) : Act → Out
  | .born u => if s.pc u = .unborn then .ok { s with pc := upd s.pc u .user } else .no
  | .work t => if live s t then .ok { s with vc := tick s.vc t } else .no
  | .sync t u => if live s t && live s u then .ok { s with vc := acquire s.vc u (s.vc t) } else .no
  | .execute t i =>
    if active s t && decide (i < n) then
      onQueue s t i fun s => { s with q := upd s.q i (s.q i ++ [s.subs.length]), subs := s.subs ++ [⟨t, s.vc t t⟩],
                                      nt := upd s.nt t (some (.ready i)) }
    else .no
  | .notify t =>
    match s.nt t with
    | some r => (access s t r false).bind fun s => .ok { s with nt := upd s.nt t none }
    | none => .no
  | .wake t none => if active s t then access s t .vec false else .no
  | .wake t (some i) =>
    if active s t && decide (i < n) then onQueue s t i fun s => { s with nt := upd s.nt t (some (.ready i)) } else .no
  | .wakeW t j => if active s t && decide (j < l - n) then onWaiter s t j id else .no
  | .size t => if active s t then onThreads s t false id else .no
  | .addThread t u =>
    if active s t && decide (s.pc u = .unborn) && decide (s.threads.length < l) then
      onThreads s t true fun s => { s with threads := s.threads ++ [u], pc := upd s.pc u .loop, vc := acquire s.vc u (s.vc t) }
    else .no
  | .look u => if s.pc u = .loop then access s u .vec false else .no
  | .pop u i p =>
    if s.pc u = .loop ∧ i < n then
      onQueue s u i (popped u i p)
    else .no
  | .finish u =>
    match s.pc u with
    | .calling k =>
      if s.nt u = none then .ok { s with ended := s.ended ++ [(k, ⟨u, s.vc u u + 1⟩)], vc := tick s.vc u, pc := upd s.pc u .loop } else .no
    | _ => .no
  | .wait u j => if s.pc u = .loop ∧ j < l - n then onWaiter s u j id else .no
  | .stop u i =>
    if s.pc u = .loop ∧ s.threads[i]? = some u then
      if i < n then
        if s.qdone i ∧ s.q i = [] then onQueue s u i fun s => { s with pc := upd s.pc u .ended } else .no
      else if s.wdone (i - n) then onWaiter s u (i - n) fun s => { s with pc := upd s.pc u .ended }
      else .no
    else .no
  | .join t =>
    if active s t && decide (s.pc t = .user) && decide (s.joiner = .none) then .ok { s with joiner := .doneQ t 0 } else .no
  | .joinStep =>
    match s.joiner with
    | .none => .no
    | .doneQ t i =>
      if i < n then
        (onQueue s t i fun s => { s with qdone := upd s.qdone i true }).bind fun s =>
          (access s t (.ready i) false).bind fun s => .ok { s with joiner := .doneQ t (i + 1) }
      else .ok { s with joiner := .doneW t 0 }
    | .doneW t j =>
      if j < l - n then
        (onWaiter s t j fun s => { s with wdone := upd s.wdone j true }).bind fun s => .ok { s with joiner := .doneW t (j + 1) }
      else .ok { s with joiner := .reading t }
    | .reading t => (access s t .threads false).bind fun s => .ok { s with joiner := .joining t s.threads }
    | .joining t (u :: us) => if s.pc u = .ended then .ok { s with vc := acquire s.vc t (s.vc u), joiner := .joining t us } else .no
    | .joining t [] =>
      (accesses s t true (.vec :: ((List.range n).map .queue ++ (List.range n).map .ready))).bind fun s =>
        .ok { s with joiner := .returned t }
    | .returned _ => .no

inductive Reachable (n l : Nat) : St → Prop where
  | init : Reachable n l (init n l)
  | step {s s' : St} {a : Act} : Reachable n l s → step n l s a = .ok s' → Reachable n l s'

/-- How the program should use the pool: `join()` (by `pre_exit()`) is called when the calls of other threads of the program to the task system, and all calls of
`add_thread()`, happened; and later neither happen. -/
def polite (s : St) : Act → Prop
  | .join t => (∀ a ∈ s.acc, (s.pc a.stamp.thread = .user ∨ (a.loc = .threads ∧ a.write = true)) → a.stamp.le (s.vc t)) ∧
      ∀ u, s.pc u = .user → s.nt u = none
  | .execute t _ | .wake t _ | .wakeW t _ | .size t => s.joiner = .none ∨ s.pc t ≠ .user
  | .addThread _ _ => s.joiner = .none
  | _ => True

inductive Polite (n l : Nat) : St → Prop where
  | init : Polite n l (init n l)
  | step {s s' : St} {a : Act} : Polite n l s → polite s a → step n l s a = .ok s' → Polite n l s'

end Verif.Sync.Pool
