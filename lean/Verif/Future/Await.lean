import Verif.Future.Shared

/-!
# `await` and `await_for` (include/stlab/concurrency/await.hpp)

Two transition systems: the thread that calls `await` or `await_for` (W) and the thread that resolves the future, which
also runs the continuation, since that is given to `immediate_executor` (L; it is W itself if the future became ready in
the meantime). The mutex and the condition variable are modelled, with spurious wake-ups.

Simplifications: `recover` is one step (see `Verif.Future.Shared`); time is a time-out that may occur whenever W sleeps;
`invoke_waiting` (lines 40-47), which wakes or adds a thread of the pool, has no effect here.
-/

namespace Verif.Await

open Verif.Shared (Err Outcome)

inductive Who where
  | w
  | l
  deriving DecidableEq, Repr

inductive Out (α : Type) where
  | no
  | ok (s : α)

/-! ## `await`, lines 55-73 -/

namespace Plain

inductive WPc where
  /-- line 57 -/
  | check
  /-- line 63 -/
  | attach
  /-- the continuation runs inside `recover` -/
  | inl
  /-- line 70 -/
  | lock
  /-- line 71: evaluating the predicate, owning the mutex -/
  | pred
  /-- waiting for the condition variable -/
  | asleep
  /-- woken up, about to lock the mutex again -/
  | relock
  /-- line 72, with the result -/
  | ret (o : Outcome)
  deriving DecidableEq, Repr

inductive LPc where
  | none
  /-- attached to the future -/
  | queued
  /-- line 65 -/
  | lock
  /-- line 66, owning the mutex -/
  | assign
  /-- line 67, owning the mutex -/
  | notify
  /-- end of the block, owning the mutex -/
  | unlock
  | done
  deriving DecidableEq, Repr

structure St where
  /-- the awaited future -/
  x : Option Outcome := none
  w : WPc := .check
  l : LPc := .none
  mutex : Option Who := none
  /-- the local variable `result`, when assigned -/
  result : Option Outcome := none
  notified : Bool := false

inductive Act where
  /-- somebody resolves the future -/
  | resolve (o : Outcome)
  /-- next step of W -/
  | w
  /-- W wakes up without having been notified -/
  | spurious
  /-- next step of L -/
  | l
  deriving DecidableEq, Repr

/-- W no longer exists as a frame: `m`, `condition` and `result` are gone. -/
def WPc.returned : WPc → Bool
  | .ret _ => true
  | _ => false

def step (s : St) : Act → Out St
  | .resolve o =>
    if s.x = none then .ok { s with x := some o, l := if s.l = .queued then .lock else s.l } else .no
  | .w => match s.w with
    | .check => match s.x with
      | some o => .ok { s with w := .ret o }
      | none => .ok { s with w := .attach }
    | .attach =>
      if s.x = none then .ok { s with l := .queued, w := .lock } else .ok { s with l := .lock, w := .inl }
    | .inl => if s.l = .done then .ok { s with w := .lock } else .no
    | .lock => if s.mutex = none then .ok { s with mutex := some .w, w := .pred } else .no
    | .pred => match s.result with
      | some o => .ok { s with w := .ret o, mutex := none }
      | none => .ok { s with w := .asleep, mutex := none, notified := false }
    | .asleep => if s.notified then .ok { s with w := .relock } else .no
    | .relock => if s.mutex = none then .ok { s with mutex := some .w, w := .pred } else .no
    | .ret _ => .no
  | .spurious => if s.w = .asleep then .ok { s with w := .relock } else .no
  | .l => match s.l with
    | .lock => if s.mutex = none then .ok { s with mutex := some .l, l := .assign } else .no
    | .assign => .ok { s with result := s.x, l := .notify }
    | .notify => .ok { s with notified := s.w = .asleep || s.notified, l := .unlock }
    | .unlock => .ok { s with mutex := none, l := .done }
    | _ => .no

def exec (s : St) : List Act → Option St
  | [] => some s
  | a :: as => match step s a with
    | .ok s' => exec s' as
    | .no => .none

def Reachable (s : St) : Prop := ∃ as, exec {} as = some s

end Plain

/-! ## `await_for`, lines 120-133, with `blocking_get_guarded`, lines 86-116 -/

namespace Timed

inductive WPc where
  /-- line 122 -/
  | check
  /-- line 126 -/
  | attach
  /-- the continuation runs inside `recover` -/
  | inl
  /-- line 111 -/
  | lock
  /-- lines 112-113: evaluating the predicate, owning the mutex -/
  | pred
  | asleep
  /-- woken up (by the time-out?), about to lock the mutex again -/
  | relock (timeUp : Bool)
  /-- line 114, owning the mutex -/
  | fin
  /-- `await_for` returned its argument, which is ready -/
  | direct (o : Outcome)
  /-- `await_for` returned the result of `wait_for`: a ready future -/
  | retRes (o : Outcome)
  /-- `await_for` returned `hold` -/
  | retHold
  deriving DecidableEq, Repr

inductive LPc where
  | none
  | queued
  /-- line 127 -/
  | weak
  /-- line 96 -/
  | lock
  /-- lines 97-98, owning the mutex -/
  | crit
  /-- line 100 -/
  | notify
  /-- returns the future it was given (lines 97, 128), or else the exceptional future (lines 106-107) -/
  | ret (pass : Bool)
  | done
  deriving DecidableEq, Repr

/-- What `hold` is resolved with. -/
inductive Held where
  | out (o : Outcome)
  /-- the exception "not an error" -/
  | notAnError
  deriving DecidableEq, Repr

structure St where
  x : Option Outcome := none
  w : WPc := .check
  l : LPc := .none
  mutex : Option Who := none
  timedOut : Bool := false
  result : Option Outcome := none
  notified : Bool := false
  hold : Option Held := none

inductive Act where
  | resolve (o : Outcome)
  | w
  | spurious
  /-- the time is up -/
  | timeout
  | l
  deriving DecidableEq, Repr

/-- `await_for` has returned: its local variable `p`, the owner of the `blocking_get_guarded`, is gone. -/
def WPc.returned : WPc → Bool
  | .direct _ | .retRes _ | .retHold => true
  | _ => false

def step (s : St) : Act → Out St
  | .resolve o =>
    if s.x = none then .ok { s with x := some o, l := if s.l = .queued then .weak else s.l } else .no
  | .w => match s.w with
    | .check => match s.x with
      | some o => .ok { s with w := .direct o }
      | none => .ok { s with w := .attach }
    | .attach =>
      if s.x = none then .ok { s with l := .queued, w := .lock } else .ok { s with l := .weak, w := .inl }
    | .inl => if s.l = .done then .ok { s with w := .lock } else .no
    | .lock => if s.mutex = none then .ok { s with mutex := some .w, w := .pred } else .no
    | .pred =>
      if s.result = none then .ok { s with w := .asleep, mutex := none, notified := false }
      else .ok { s with timedOut := false, w := .fin }
    | .asleep => if s.notified then .ok { s with w := .relock false } else .no
    | .relock false => if s.mutex = none then .ok { s with mutex := some .w, w := .pred } else .no
    | .relock true =>
      if s.mutex = none then .ok { s with mutex := some .w, timedOut := s.result = none, w := .fin } else .no
    | .fin =>
      if s.timedOut then .ok { s with mutex := none, w := .retHold }
      else match s.result with
        | some o => .ok { s with mutex := none, w := .retRes o, result := none }
        | none => .ok { s with mutex := none, w := .retHold }
    | _ => .no
  | .spurious => if s.w = .asleep then .ok { s with w := .relock false } else .no
  | .timeout => if s.w = .asleep then .ok { s with w := .relock true } else .no
  | .l => match s.l with
    | .weak => if s.w.returned then .ok { s with l := .ret true } else .ok { s with l := .lock }
    | .lock => if s.mutex = none then .ok { s with mutex := some .l, l := .crit } else .no
    | .crit =>
      if s.timedOut then .ok { s with mutex := none, l := .ret true }
      else .ok { s with mutex := none, result := s.x, l := .notify }
    | .notify => .ok { s with notified := s.w = .asleep || s.notified, l := .ret false }
    | .ret true => .ok { s with hold := s.x.map .out, l := .done }
    | .ret false => .ok { s with hold := some .notAnError, l := .done }
    | _ => .no

def exec (s : St) : List Act → Option St
  | [] => some s
  | a :: as => match step s a with
    | .ok s' => exec s' as
    | .no => .none

def Reachable (s : St) : Prop := ∃ as, exec {} as = some s

end Timed

end Verif.Await
