import Verif.Future.Shared

/-!
# Futures with a move-only result (include/stlab/concurrency/future.hpp, lines 453-560, 860-974, 1657-1675)

Transition system of one shared state `shared_base<T>` with a `T` that can not be copied. There is at most one future
object for the state, which the user holds or which has been moved into a continuation; at most one entry in `_then`, a
pair and not a list, which `recover` and `_detach` overwrite; and reading the result, even through a `const` future,
moves it out of the state (lines 537-559).

Simplifications: every call is one step, the race of `recover` with the resolution is in `Verif.Future.Shared`; the
functions of continuations do not throw; the shared states of the continuations are represented by the flag whether their
future exists, and by the fact that they own the future moved into them.
-/

namespace Verif.MoveOnly

open Verif.Shared (Err Outcome Seen)

/-- Where the future object is. -/
inductive Own where
  | nobody
  | user
  /-- captured as `_p` by continuation `k` (lines 481-484) -/
  | cont (k : Nat)
  deriving DecidableEq, Repr

/-- The member `_then` (line 463). -/
inductive Slot where
  | empty
  /-- made by `_detach()` (lines 513-516); owns the state -/
  | det
  /-- made by `recover`, or by `_detach(F)`, for continuation `k` -/
  | cont (k : Nat)
  deriving DecidableEq, Repr

/-- The packaged task that resolves the state. -/
inductive Prod where
  | idle
  /-- called; its function runs; owns the state meanwhile (line 672) -/
  | running
  | done
  deriving DecidableEq, Repr

/-- How a continuation was attached. -/
inductive Kind where
  /-- `then`: its function gets the result (lines 897-915) -/
  | thn
  /-- `recover`: its function gets the future (lines 478-495) -/
  | rcv
  /-- `detach(f)`: its function gets the future; there is no future for this continuation (lines 498-511) -/
  | det
  deriving DecidableEq, Repr

inductive CPc where
  | none
  /-- in `_then` -/
  | queued
  /-- given to its executor -/
  | sched
  | done
  /-- its future has been destroyed -/
  | canceled
  deriving DecidableEq, Repr

inductive Event where
  /-- the function of the packaged task is called -/
  | invoked
  /-- the packaged task is called, or destroyed, and finds no shared state -/
  | skipped
  | resolved (o : Outcome)
  | detached
  | attached (k : Nat)
  /-- continuation `k` is called by its executor; its function is called, unless it is a `then` and sees an exception -/
  | ran (k : Nat)
  /-- somebody reads the result -/
  | saw (x : Seen)
  deriving DecidableEq, Repr

structure St where
  own : Own := .user
  slot : Slot := .empty
  prod : Prod := .idle
  result : Option Outcome := none
  /-- the value has been moved out -/
  moved : Bool := false
  kind : Nat → Kind := fun _ => .thn
  cpc : Nat → CPc := fun _ => .none
  trace : List Event := []

inductive Act where
  /-- the packaged task is called -/
  | invoke
  /-- its function returns or throws -/
  | finish (o : Outcome)
  /-- the packaged task is destroyed (lines 657-662) -/
  | dropTask
  /-- `f.detach()` (line 944) -/
  | detach
  /-- `std::move(f).then(...)`, `recover`, `detach(...)` -/
  | attach (k : Nat) (c : Kind)
  /-- the future of continuation `k` is destroyed -/
  | dropCont (k : Nat)
  /-- the future is destroyed or reset -/
  | drop
  /-- `f.get_try()` or `std::move(f).get_try()` (lines 956-958) -/
  | get
  /-- the executor calls continuation `k` -/
  | run (k : Nat)
  deriving DecidableEq, Repr

def upd {α : Type} (f : Nat → α) (k : Nat) (x : α) : Nat → α := fun i => if i = k then x else f i

/-- Somebody owns the shared state: a future object, `_then` itself, or a call of the packaged task. A continuation
in `_then` owns the state only through its future (which has the same life time as its shared state), except one made
by `detach(f)`; both are `own = .cont k`. -/
def alive (s : St) : Bool := s.own ≠ .nobody || s.slot = .det || s.prod = .running

/-- What `get_try_r` and `get_ready_r` return (lines 539-559): the exception, or the value moved out of `_result`. -/
def see (s : St) : Seen := match s.result with
  | some (.exc e) => .out (.exc e)
  | some (.val v) => if s.moved then .movedFrom else .out (.val v)
  | none => .movedFrom

/-- `set_value` (lines 1657-1675) or `_set_exception` (lines 518-528). An entry for a continuation that has been
canceled is given to its executor too, but has no effect then. -/
def resolve (s : St) (o : Outcome) : St :=
  { s with
    result := some o
    slot := .empty
    cpc := match s.slot with
      | .cont k => if s.cpc k = .queued then upd s.cpc k .sched else s.cpc
      | _ => s.cpc
    prod := .done
    trace := s.trace ++ [.resolved o] }

def step (s : St) : Act → Option St
  | .invoke =>
    if s.prod = .idle then
      if alive s then some { s with prod := .running, trace := s.trace ++ [.invoked] }
      else some { s with prod := .done, trace := s.trace ++ [.skipped] }
    else none
  | .finish o => if s.prod = .running then some (resolve s o) else none
  | .dropTask =>
    if s.prod = .idle then
      if alive s then some (resolve s (.exc .broken)) else some { s with prod := .done, trace := s.trace ++ [.skipped] }
    else none
  | .detach =>
    if s.own = .user then
      some { s with slot := if s.result = none then .det else s.slot, trace := s.trace ++ [.detached] }
    else none
  | .attach k c =>
    if s.own = .user ∧ s.cpc k = .none then
      some { s with
        own := .cont k
        slot := if s.result = none then .cont k else s.slot
        kind := upd s.kind k c
        cpc := upd s.cpc k (if s.result = none then .queued else .sched)
        trace := s.trace ++ [.attached k] }
    else none
  | .dropCont k =>
    if (s.cpc k = .queued ∨ s.cpc k = .sched) ∧ s.kind k ≠ .det then
      some { s with own := .nobody, cpc := upd s.cpc k .canceled }
    else none
  | .drop => if s.own = .user then some { s with own := .nobody } else none
  | .get =>
    if s.own = .user ∧ s.result ≠ none then
      some { s with moved := true, trace := s.trace ++ [.saw (see s)] }
    else none
  | .run k =>
    if s.cpc k = .sched then
      if s.kind k = .thn then
        some { s with own := .nobody, moved := true, cpc := upd s.cpc k .done,
                      trace := s.trace ++ [.saw (see s), .ran k] }
      else some { s with own := .user, cpc := upd s.cpc k .done, trace := s.trace ++ [.ran k] }
    else none

def exec (s : St) : List Act → Option St
  | [] => some s
  | a :: as => (step s a).bind fun s' => exec s' as

def Reachable (s : St) : Prop := ∃ as, exec {} as = some s

end Verif.MoveOnly
