import Verif.Future.Shared

/-!
# Coroutines that return a future, and `co_await` (include/stlab/concurrency/future.hpp, lines 1702-1770)

Transition system of any number of coroutines and other futures, run by any number of threads. The coroutine `i` returns the
future `i`. `Prog.co` tells which futures are those of coroutines; the others are resolved by somebody (`Act.resolve`) at most
once. The result type is copyable, so any number of coroutines may await the same future.

Since the continuation made by `co_await` has the immediate executor (lines 1761-1764, 365-378), a coroutine is resumed by the
thread that resolves the future, inside of the resolving call. A thread is therefore a stack of frames, the innermost first.
Each critical section is one step.

A coroutine that is resumed while it is not suspended, or after its frame has been destroyed, is undefined behaviour, and so is
reading a result that is not there.

Simplifications: continuations other than those of `co_await` are left out (see `Verif.Shared`), and so is moving the value out
of the state when nobody else owns it.
-/

namespace Verif.Coroutine

open Verif.Shared (Err Outcome upd)

/-- Which futures are made by coroutines, and which of these by coroutines returning `future<void>`. -/
structure Prog where
  co : Nat → Bool
  void : Nat → Bool

inductive Status where
  /-- not called yet -/
  | none
  | running
  /-- suspended in `co_await` on future `j` -/
  | suspended (j : Nat)
  /-- the frame has been destroyed -/
  | finished
  deriving DecidableEq, Repr

/-- A frame of the stack of a thread. -/
inductive Frame where
  /-- the body of coroutine `i` -/
  | body (i : Nat)
  /-- `await_suspend` of coroutine `i` on future `j` (lines 1760-1765), before the critical section of `_detach` -/
  | detach (i j : Nat)
  /-- the lambda in lines 1761-1764: about to resume coroutine `i` -/
  | resume (i j : Nat)
  /-- `return_value`, `return_void` (lines 1720-1722, 1743) or `unhandled_exception` (lines 1724, 1745-1747) of coroutine `i` -/
  | result (i : Nat) (o : Outcome)
  /-- resolving future `j`: the coroutines that still have to be resumed (lines 1646-1647, 395-397) -/
  | drain (j : Nat) (es : List Nat)
  deriving DecidableEq, Repr

inductive Event where
  | started (i : Nat)
  /-- coroutine `i` evaluates `co_await` on future `j` -/
  | awaits (i j : Nat)
  /-- that expression has the value, or throws the exception, `o` -/
  | resumed (i j : Nat) (o : Outcome)
  /-- coroutine `i` returns, or an exception leaves its body -/
  | returned (i : Nat) (o : Outcome)
  | resolved (j : Nat) (o : Outcome)
  deriving DecidableEq, Repr

structure St where
  /-- `_result` or `_exception`, when `_ready` -/
  out : Nat → Option Outcome
  /-- `_then` -/
  thens : Nat → List Nat
  /-- somebody outside of the coroutines has a future object -/
  user : Nat → Bool
  /-- the coroutines whose awaiter, or the continuation made by it, owns the future -/
  hold : Nat → List Nat
  status : Nat → Status
  stack : Nat → List Frame
  trace : List Event

def init (P : Prog) : St where
  out := fun _ => none
  thens := fun _ => []
  user := fun j => !P.co j
  hold := fun _ => []
  status := fun _ => .none
  stack := fun _ => []
  trace := []

inductive Act where
  /-- thread `t` calls coroutine `i`, from a coroutine or not -/
  | call (t i : Nat)
  /-- thread `t` resolves the future `j`, which is not that of a coroutine -/
  | resolve (t j : Nat) (o : Outcome)
  /-- the last future object for `j` is destroyed -/
  | drop (j : Nat)
  /-- the coroutine run by thread `t` evaluates `co_await` on future `j`; `mv`: it gets the last future object -/
  | await (t j : Nat) (mv : Bool)
  /-- the coroutine run by thread `t` returns a value or throws -/
  | ret (t : Nat) (o : Outcome)
  /-- thread `t` takes its next step -/
  | step (t : Nat)
  deriving DecidableEq, Repr

inductive Out where
  | no
  | ub
  | ok (s : St)

/-- Thread `t` may do anything: it runs nothing of this, or the body of a coroutine. -/
def free : List Frame → Bool
  | [] | .body _ :: _ => true
  | _ => false

/-- The shared state exists: future objects, awaiters, the frame of a coroutine that returns `future<void>` (its
`get_return_object` copies the future, line 1737). -/
def alive (P : Prog) (s : St) (j : Nat) : Bool :=
  s.user j || !(s.hold j).isEmpty || (P.co j && P.void j && s.status j ≠ .finished)

/-- The critical section of resolving `j` by thread `t`, whose stack is `fs` (lines 1640-1645, 389-393). -/
def ready (s : St) (t j : Nat) (o : Outcome) (fs : List Frame) : St :=
  { s with out := upd s.out j (some o), thens := upd s.thens j [], stack := upd s.stack t (.drain j (s.thens j) :: fs),
           trace := s.trace ++ [.resolved j o] }

def step (P : Prog) (s : St) : Act → Out
  -- lines 1709-1715: the future is made, and the body is run at once
  | .call t i =>
    if free (s.stack t) ∧ P.co i ∧ s.status i = .none then
      .ok { s with status := upd s.status i .running, user := upd s.user i true, stack := upd s.stack t (.body i :: s.stack t),
                   trace := s.trace ++ [.started i] }
    else .no
  | .resolve t j o =>
    if free (s.stack t) ∧ P.co j = false ∧ s.out j = none ∧ alive P s j then .ok (ready s t j o (s.stack t)) else .no
  | .drop j => if s.user j then .ok { s with user := upd s.user j false } else .no
  | .await t j mv =>
    match s.stack t with
    | .body i :: fs =>
      if s.user j then
        let s : St := { s with user := if mv then upd s.user j false else s.user, trace := s.trace ++ [.awaits i j] }
        match s.out j with
        -- line 1756: `await_ready`
        | some o => .ok { s with trace := s.trace ++ [.resumed i j o] }
        | none => .ok { s with status := upd s.status i (.suspended j), hold := upd s.hold j (i :: s.hold j),
                               stack := upd s.stack t (.detach i j :: fs) }
      else .no
    | _ => .no
  | .ret t o =>
    match s.stack t with
    | .body i :: fs => .ok { s with stack := upd s.stack t (.result i o :: fs), trace := s.trace ++ [.returned i o] }
    | _ => .no
  | .step t =>
    match s.stack t with
    | [] | .body _ :: _ => .no
    -- lines 371-377
    | .detach i j :: fs =>
      if s.out j = none then .ok { s with thens := upd s.thens j (s.thens j ++ [i]), stack := upd s.stack t fs }
      else .ok { s with stack := upd s.stack t (.resume i j :: fs) }
    -- lines 1762-1763, 1758
    | .resume i j :: fs =>
      if s.status i = .suspended j then
        match s.out j with
        | none => .ub
        | some o => .ok { s with status := upd s.status i .running, hold := upd s.hold j ((s.hold j).erase i),
                                 stack := upd s.stack t (.body i :: fs), trace := s.trace ++ [.resumed i j o] }
      else .ub
    -- the packaged task finds the shared state, or not (line 672); the frame is destroyed afterwards
    | .result i o :: fs =>
      if s.out i ≠ none then .ub
      else if alive P s i then .ok { ready s t i o fs with status := upd s.status i .finished }
      else .ok { s with status := upd s.status i .finished, stack := upd s.stack t fs }
    | .drain j (i :: es) :: fs => .ok { s with stack := upd s.stack t (.resume i j :: .drain j es :: fs) }
    | .drain _ [] :: fs => .ok { s with stack := upd s.stack t fs }

def exec (P : Prog) (s : St) : List Act → Option St
  | [] => some s
  | a :: as => match step P s a with
    | .ok s' => exec P s' as
    | _ => .none

def Reachable (P : Prog) (s : St) : Prop := ∃ as, exec P (init P) as = some s

end Verif.Coroutine
