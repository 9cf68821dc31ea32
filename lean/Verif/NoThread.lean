import Verif.Future.Await

/-!
# When the system refuses to create a thread

The constructor of `std::thread` throws `std::system_error` if no thread can be created. Three places of the library meet this: the constructor of
`priority_task_system`, `add_thread()`, and `await` and `await_for`, which call `add_thread()` before they wait (include/stlab/concurrency/default_executor.hpp
and await.hpp). The other models of these functions (`Verif.PoolThreads`, `Verif.Future.Await`) leave it out.
-/

namespace Verif.NoThread

open Verif.Shared (Err Outcome)

/-! ## The constructor of the pool (default_executor.hpp, lines 370-375) -/

inductive Made where
  /-- the threads run, with these indices -/
  | ok (threads : List Nat)
  /-- the constructor throws -/
  | throws
  /-- `std::terminate` -/
  | terminates
  deriving DecidableEq, Repr

/-- `_threads` is destroyed when an exception leaves the constructor: the destructor of a thread that is joinable calls `std::terminate`. -/
def unwound (threads : List Nat) : Made := if threads = [] then .throws else .terminates

/-- The loop in lines 372-374, with `fails k` if the system refuses the `k`th thread. -/
def construct (fails : Nat → Bool) : Nat → Made
  | 0 => .ok []
  | k + 1 => match construct fails k with
    | .ok ts => if fails k then unwound ts else .ok (ts ++ [k])
    | m => m

/-! ## `add_thread()` (default_executor.hpp, lines 409-429) -/

/-- Returns the indices of the threads after the call, and whether it threw. `emplace_back` has no effect if it throws; the room was reserved in line 371. -/
def addThread (limit : Nat) (refused : Bool) (threads : List Nat) : List Nat × Bool :=
  if threads.length = limit then (threads, false)
  else if refused then (threads, true)
  else (threads ++ [threads.length], false)

/-- Several calls. -/
def addThreads (limit : Nat) (threads : List Nat) (refused : List Bool) : List Nat := refused.foldl (fun ts r => (addThread limit r ts).1) threads

inductive Who where
  | w
  | l
  deriving DecidableEq, Repr

inductive Out (α : Type) where
  | no
  /-- a variable is used after the end of its life -/
  | ub
  | ok (s : α)

/-! ## `await` (await.hpp, lines 55-73)

As `Verif.Await.Plain`, but `invoke_waiting` (lines 40-47) may throw in line 71. Then the local variables are destroyed in reverse order: `lock`, `hold`, and then
`result`, `condition` and `m`. The continuation, which has references to these three, cannot begin any more when `hold` is gone. -/

namespace Plain

inductive WPc where
  /-- line 57 -/
  | check
  /-- line 63 -/
  | attach
  /-- the continuation runs inside `recover` -/
  | inl
  /-- line 70 -/
  | lock
  /-- line 71: in `invoke_waiting`, owning the mutex -/
  | invoke
  /-- line 71: evaluating the predicate, owning the mutex -/
  | pred
  | asleep
  | relock
  /-- line 72, with the result -/
  | ret (o : Outcome)
  /-- an exception was thrown; the mutex is unlocked -/
  | unwind
  /-- the exception has left the function -/
  | threw
  deriving DecidableEq, Repr

inductive LPc where
  | none
  | queued
  /-- `hold` was destroyed before the continuation began -/
  | cancelled
  /-- line 65 -/
  | lock
  /-- line 66, owning the mutex -/
  | assign
  /-- line 67, owning the mutex -/
  | notify
  /-- end of the block, owning the mutex -/
  | unlock
  | done
  deriving DecidableEq, Repr

structure St where
  x : Option Outcome := none
  w : WPc := .check
  l : LPc := .none
  mutex : Option Who := none
  result : Option Outcome := none
  notified : Bool := false

inductive Act where
  | resolve (o : Outcome)
  | w
  /-- `add_thread()` throws -/
  | refuse
  | spurious
  | l
  deriving DecidableEq, Repr

/-- `m`, `condition` and `result` are gone. -/
def WPc.gone : WPc → Bool
  | .ret _ | .threw => true
  | _ => false

def step (s : St) : Act → Out St
  | .resolve o =>
    if s.x = none then .ok { s with x := some o, l := if s.l = .queued then .lock else s.l } else .no
  | .w => match s.w with
    | .check => match s.x with
      | some o => .ok { s with w := .ret o }
      | none => .ok { s with w := .attach }
    | .attach =>
      if s.x = none then .ok { s with l := .queued, w := .lock } else .ok { s with l := .lock, w := .inl }
    | .inl => if s.l = .done then .ok { s with w := .lock } else .no
    | .lock => if s.mutex = none then .ok { s with mutex := some .w, w := .invoke } else .no
    | .invoke => .ok { s with w := .pred }
    | .pred => match s.result with
      | some o => .ok { s with w := .ret o, mutex := none }
      | none => .ok { s with w := .asleep, mutex := none, notified := false }
    | .asleep => if s.notified then .ok { s with w := .relock } else .no
    | .relock => if s.mutex = none then .ok { s with mutex := some .w, w := .pred } else .no
    | .unwind => .ok { s with w := .threw, l := if s.l = .queued then .cancelled else s.l }
    | .ret _ | .threw => .no
  | .refuse => if s.w = .invoke then .ok { s with w := .unwind, mutex := none } else .no
  | .spurious => if s.w = .asleep then .ok { s with w := .relock } else .no
  | .l => match s.l with
    | .lock =>
      if s.w.gone then .ub
      else if s.mutex = none then .ok { s with mutex := some .l, l := .assign } else .no
    | .assign => if s.w.gone then .ub else .ok { s with result := s.x, l := .notify }
    | .notify => if s.w.gone then .ub else .ok { s with notified := s.w = .asleep || s.notified, l := .unlock }
    | .unlock => if s.w.gone then .ub else .ok { s with mutex := none, l := .done }
    | _ => .no

inductive Reachable : St → Prop where
  | init : Reachable {}
  | step {s s' : St} {a : Act} : Reachable s → step s a = .ok s' → Reachable s'

/-- The continuation has begun and has not ended: it needs the local variables. -/
def LPc.busy : LPc → Bool
  | .lock | .assign | .notify | .unlock => true
  | _ => false

/-- The future is not resolved around the exception: when it is thrown the continuation is not running, and it does not begin until the
local variables are gone. -/
def calm (s : St) : Act → Prop
  | .refuse => s.l.busy = false
  | .resolve _ => s.w ≠ .unwind
  | _ => True

inductive Calm : St → Prop where
  | init : Calm {}
  | step {s s' : St} {a : Act} : Calm s → calm s a → step s a = .ok s' → Calm s'

end Plain

/-! ## `await_for` (await.hpp, lines 120-133)

As `Verif.Await.Timed`. The members of `blocking_get_guarded` live as long as `p`, or the `std::shared_ptr` of the continuation (`lp`). -/

namespace Timed

inductive WPc where
  /-- line 122 -/
  | check
  /-- line 126 -/
  | attach
  /-- the continuation runs inside `recover` -/
  | inl
  /-- line 111 -/
  | lock
  /-- lines 112-113: in `invoke_waiting`, owning the mutex -/
  | invoke
  /-- lines 112-113: evaluating the predicate, owning the mutex -/
  | pred
  | asleep
  | relock (timeUp : Bool)
  /-- line 114, owning the mutex -/
  | fin
  | direct (o : Outcome)
  | retRes (o : Outcome)
  | retHold
  /-- an exception was thrown; the mutex is unlocked -/
  | unwind
  /-- the exception has left the function; `hold` and `p` are gone -/
  | threw
  deriving DecidableEq, Repr

inductive LPc where
  | none
  | queued
  | cancelled
  /-- line 127 -/
  | weak
  /-- line 96 -/
  | lock
  /-- lines 97-98, owning the mutex -/
  | crit
  /-- line 100 -/
  | notify
  /-- returns the future it was given (lines 97, 128), or else the exceptional future (lines 106-107) -/
  | ret (pass : Bool)
  | done
  deriving DecidableEq, Repr

structure St where
  x : Option Outcome := none
  w : WPc := .check
  l : LPc := .none
  /-- the continuation has a `std::shared_ptr` -/
  lp : Bool := false
  mutex : Option Who := none
  timedOut : Bool := false
  result : Option Outcome := none
  notified : Bool := false

inductive Act where
  | resolve (o : Outcome)
  | w
  | refuse
  | spurious
  | timeout
  | l
  deriving DecidableEq, Repr

/-- `p` is gone. -/
def WPc.gone : WPc → Bool
  | .direct _ | .retRes _ | .retHold | .threw => true
  | _ => false

/-- The `blocking_get_guarded` exists. -/
def alive (s : St) : Bool := !s.w.gone || s.lp

def step (s : St) : Act → Out St
  | .resolve o =>
    if s.x = none then .ok { s with x := some o, l := if s.l = .queued then .weak else s.l } else .no
  | .w => match s.w with
    | .check => match s.x with
      | some o => .ok { s with w := .direct o }
      | none => .ok { s with w := .attach }
    | .attach =>
      if s.x = none then .ok { s with l := .queued, w := .lock } else .ok { s with l := .weak, w := .inl }
    | .inl => if s.l = .done then .ok { s with w := .lock } else .no
    | .lock => if s.mutex = none then .ok { s with mutex := some .w, w := .invoke } else .no
    | .invoke => .ok { s with w := .pred }
    | .pred =>
      if s.result = none then .ok { s with w := .asleep, mutex := none, notified := false }
      else .ok { s with timedOut := false, w := .fin }
    | .asleep => if s.notified then .ok { s with w := .relock false } else .no
    | .relock false => if s.mutex = none then .ok { s with mutex := some .w, w := .pred } else .no
    | .relock true =>
      if s.mutex = none then .ok { s with mutex := some .w, timedOut := s.result = none, w := .fin } else .no
    | .fin =>
      if s.timedOut then .ok { s with mutex := none, w := .retHold }
      else match s.result with
        | some o => .ok { s with mutex := none, w := .retRes o, result := none }
        | none => .ok { s with mutex := none, w := .retHold }
    | .unwind => .ok { s with w := .threw, l := if s.l = .queued then .cancelled else s.l }
    | _ => .no
  | .refuse => if s.w = .invoke then .ok { s with w := .unwind, mutex := none } else .no
  | .spurious => if s.w = .asleep then .ok { s with w := .relock false } else .no
  | .timeout => if s.w = .asleep then .ok { s with w := .relock true } else .no
  | .l => match s.l with
    | .weak => if alive s then .ok { s with lp := true, l := .lock } else .ok { s with l := .ret true }
    | .lock =>
      if alive s then if s.mutex = none then .ok { s with mutex := some .l, l := .crit } else .no
      else .ub
    | .crit =>
      if alive s then
        if s.timedOut then .ok { s with mutex := none, l := .ret true }
        else .ok { s with mutex := none, result := s.x, l := .notify }
      else .ub
    | .notify => if alive s then .ok { s with notified := s.w = .asleep || s.notified, l := .ret false } else .ub
    | .ret _ => .ok { s with lp := false, l := .done }
    | _ => .no

inductive Reachable : St → Prop where
  | init : Reachable {}
  | step {s s' : St} {a : Act} : Reachable s → step s a = .ok s' → Reachable s'

end Timed

end Verif.NoThread
