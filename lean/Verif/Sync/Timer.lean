import Verif.Sync.Clock

/-!
# Data races in the timer (include/stlab/concurrency/system_timer.hpp, lines 209-281, 290-303, portable task system)

`Verif.Timer` says when tasks are called. This model asks which accesses to the members of the timer are ordered, with clocks
(`Verif.Sync.Clock`): the timer is constructed by thread 0, the first to ask for it (lines 290-293), and its own thread is thread 1. Each critical section of
`_timed_queue_mutex` is one step. After a wait the timer thread looks again at `_stop` and at the queue; since no other thread takes
tasks out of the queue, this is what it does when it comes from the top of the loop. Which of the tasks in the queue is next, and whether it is due, is left open here.

A thread that asks for the timer gets to know its construction: the initialisation of a static local variable happens before it is used. The timer is
destroyed on some thread by `std::exit`, which knows the construction too. Locking a mutex, waiting and notifying count as reading the mutex and the condition variable;
their construction and destruction as writing.
-/

namespace Verif.Sync.Timer

inductive Loc where
  /-- `_timed_queue` -/
  | queue
  /-- `_condition` -/
  | cond
  /-- `_stop` -/
  | stop
  /-- `_timed_queue_mutex` -/
  | mutex
  /-- `_timed_queue_thread` -/
  | thread
  deriving DecidableEq, Repr

structure Access where
  loc : Loc
  write : Bool
  stamp : Stamp
  deriving DecidableEq, Repr

/-- The thread of the timer. -/
inductive Pc where
  /-- about to look at the queue (lines 233-245) -/
  | idle
  /-- calls task `k` (line 248) -/
  | calling (k : Nat)
  | ended
  deriving DecidableEq, Repr

/-- The destructor (lines 257-264), on thread `t`. -/
inductive Dtor where
  | none
  /-- `_stop` is set -/
  | stopped (t : Nat)
  /-- `notify_one` was called -/
  | notified (t : Nat)
  /-- the thread was joined -/
  | joined (t : Nat)
  /-- the members are destroyed -/
  | done (t : Nat)
  deriving DecidableEq, Repr

structure St where
  vc : Nat → Clock
  /-- the clock of `_timed_queue_mutex` -/
  lm : Clock
  /-- the clock of the static variable; `none` while the constructor runs -/
  gc : Option Clock
  queue : List Nat
  stop : Bool
  pc : Pc
  dtor : Dtor
  /-- when task `k` was submitted -/
  subs : List Stamp
  /-- the tasks called, and what the timer thread knew -/
  calls : List (Nat × Clock)
  /-- the calls that have returned, and when -/
  ends : List (Nat × Stamp)
  acc : List Access

def locs : List Loc := [.queue, .cond, .stop, .mutex, .thread]

/-- Thread 0 has initialised the members and started the thread (lines 214-218, 254). -/
def init : St where
  vc := fun t => if t = 0 ∨ t = 1 then fun i => if i = 0 then 1 else 0 else fun _ => 0
  lm := fun _ => 0
  gc := none
  queue := []
  stop := false
  pc := .idle
  dtor := .none
  subs := []
  calls := []
  ends := []
  acc := locs.map fun l => ⟨l, true, ⟨0, 1⟩⟩

inductive Act where
  /-- thread `t` does something else -/
  | work (t : Nat)
  /-- thread `t` synchronises with thread `u` in some way: `u` goes on after `t` -/
  | sync (t u : Nat)
  /-- thread 0 assigns `_timed_queue_thread`, and the timer is constructed (line 254) -/
  | constructed
  /-- thread `t` submits the next task (lines 274-280) -/
  | submit (t : Nat)
  /-- the timer thread looks at the queue (lines 233-245): task `k` is due, or none -/
  | look (k : Option Nat)
  /-- the task returns -/
  | ret
  /-- thread `t` enters the destructor (lines 258-261) -/
  | close (t : Nat)
  /-- line 262 -/
  | notify
  /-- line 263 -/
  | join
  /-- the members are destroyed -/
  | destroy
  deriving DecidableEq, Repr

inductive Out where
  | no
  /-- a member is used after it was destroyed -/
  | ub
  /-- data race -/
  | race
  /-- an exception leaves the destructor -/
  | terminate
  | ok (s : St)

def Out.bind : Out → (St → Out) → Out
  | .ok s, f => f s
  | o, _ => o

/-- Thread `t` reads or writes a member. -/
def access (s : St) (t : Nat) (l : Loc) (w : Bool) : Out :=
  if s.acc.any fun a => a.loc = l && (a.write || w) && ¬ a.stamp.le (s.vc t) then .race
  else .ok { s with vc := tick s.vc t, acc := ⟨l, w, ⟨t, s.vc t t + 1⟩⟩ :: s.acc }

def accesses (s : St) (t : Nat) : List (Loc × Bool) → Out
  | [] => .ok s
  | l :: ls => (access s t l.1 l.2).bind fun s => accesses s t ls

/-- A critical section of thread `t` with the accesses `ls`, and `f` done in it. -/
def critical (s : St) (t : Nat) (ls : List (Loc × Bool)) (f : St → St) : Out :=
  (access s t .mutex false).bind fun s =>
    (accesses { s with vc := acquire s.vc t s.lm } t ls).bind fun s =>
      let s := f s
      .ok { s with lm := Sync.join s.lm (s.vc t) }

def step (s : St) : Act → Out
  | .work t => .ok { s with vc := tick s.vc t }
  | .sync t u => .ok { s with vc := acquire s.vc u (s.vc t) }
  | .constructed =>
    match s.gc with
    | none => (access s 0 .thread true).bind fun s => .ok { s with gc := some (s.vc 0) }
    | some _ => .no
  | .submit t =>
    -- the timer thread submits in tasks only
    if t = 1 ∧ (s.pc = .idle ∨ s.pc = .ended) then .no
    else
      match s.gc, s.dtor with
      | none, _ => .no
      | some _, .done _ => .ub
      | some c, _ =>
        critical { s with vc := acquire s.vc t c } t [(.queue, true), (.cond, false)] fun s =>
          { s with queue := s.queue ++ [s.subs.length], vc := tick s.vc t, subs := s.subs ++ [⟨t, s.vc t t + 1⟩] }
  | .look k =>
    if s.pc = .idle then
      if s.stop then critical s 1 [(.queue, false), (.stop, false)] fun s => { s with pc := .ended }
      else
        match k with
        | none => critical s 1 [(.queue, false), (.stop, false), (.cond, false)] fun s => s
        | some k =>
          if k ∈ s.queue then
            critical s 1 [(.queue, false), (.stop, false), (.queue, true)] fun s =>
              { s with queue := s.queue.erase k, pc := .calling k, calls := (k, s.vc 1) :: s.calls }
          else .no
    else .no
  | .ret =>
    match s.pc with
    | .calling k => .ok { s with vc := tick s.vc 1, pc := .idle, ends := (k, ⟨1, s.vc 1 1 + 1⟩) :: s.ends }
    | _ => .no
  | .close t =>
    match s.gc, s.dtor with
    | some c, .none =>
      if t = 1 ∧ (s.pc = .idle ∨ s.pc = .ended) then .no
      else critical { s with vc := acquire s.vc t c } t [(.stop, true)] fun s => { s with stop := true, dtor := .stopped t }
    | _, _ => .no
  | .notify =>
    match s.dtor with
    | .stopped t => (access s t .cond false).bind fun s => .ok { s with dtor := .notified t }
    | _ => .no
  | .join =>
    match s.dtor with
    | .notified t =>
      -- a thread that joins itself: `join` throws
      if t = 1 then .terminate
      else if s.pc = .ended then
        (access s t .thread true).bind fun s => .ok { s with vc := acquire s.vc t (s.vc 1), dtor := .joined t }
      else .no
    | _ => .no
  | .destroy =>
    match s.dtor with
    | .joined t => (accesses s t (locs.map fun l => (l, true))).bind fun s => .ok { s with dtor := .done t }
    | _ => .no

inductive Reachable : St → Prop where
  | init : Reachable init
  | step {s s' : St} {a : Act} : Reachable s → step s a = .ok s' → Reachable s'

/-- Nobody but tasks of the timer submits tasks after the destructor has begun. -/
def orderly (s : St) : Act → Prop
  | .submit t => s.dtor = .none ∨ t = 1
  | _ => True

inductive Orderly : St → Prop where
  | init : Orderly init
  | step {s s' : St} {a : Act} : Orderly s → orderly s a → step s a = .ok s' → Orderly s'

end Verif.Sync.Timer
