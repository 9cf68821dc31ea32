import Verif.Future.Shared

/-!
# Graphs of futures (include/stlab/concurrency/future.hpp)

Transition system of any number of futures connected by `then`, `recover` and by functions that return futures.
A node stands for a shared state made by `async` (lines 1615-1628) or by `recover` (lines 343-362; `then` is
`recover` with a function that rethrows, lines 727-778). Each call into the library is one step; `Verif.Future.Shared`
models what happens inside such calls, and how they interleave, for one shared state.

Ownership follows the code: future objects own their state; the function object `_f` of a continuation owns the
future it continues (line 348) until it has been called (lines 1012, 1027); a function that returned a future owns it through
`_hold` (lines 989-1003) until that future is resolved; packaged tasks, promises and `_then` entries own nothing. A state
nobody owns is destroyed, which releases what its function owns (`reap`).

Simplifications: the state made by the inner `recover` of line 994, whose only owner is the outer state, is not a node of
its own; executors (also `immediate_executor`) run what they are given at a later step; values are numbers.
-/

namespace Verif.Graph

open Verif.Shared (Err Outcome upd)

/-- Who owns a shared state. -/
inductive Owner where
  /-- future object `f` -/
  | user (f : Nat)
  /-- the function object of node `k` -/
  | fn (k : Nat)
  /-- the local `p` of a call of its packaged task (line 672) -/
  | call
  /-- entry of `_then` made by `detach()` (lines 380-384) -/
  | det
  deriving DecidableEq, Repr

/-- How a node was made. -/
inductive Kind where
  | async
  | thn (p : Nat)
  | rcv (p : Nat)
  deriving DecidableEq, Repr

/-- The node it continues. -/
def Kind.parent : Kind → Option Nat
  | .async => none
  | .thn p => some p
  | .rcv p => some p

/-- Where the packaged task or promise of a node is. -/
inductive Pc where
  /-- no such node yet -/
  | none
  /-- in `_then` of the node it continues -/
  | queued
  /-- with its executor -/
  | sched
  /-- its function is being called -/
  | running
  /-- its function returned the future of node `m`, not ready yet -/
  | waiting (m : Nat)
  /-- its function returned the future of node `m`, which is ready -/
  | flat (m : Nat)
  | ready
  /-- its task was called after the state had been destroyed -/
  | dead
  deriving DecidableEq, Repr

/-- How a function ends. -/
inductive Ret where
  | val (v : Nat)
  | throw (e : Nat)
  /-- returns the future of node `m` -/
  | fut (m : Nat)
  deriving DecidableEq, Repr

inductive Event where
  | created (n : Nat) (k : Kind)
  /-- the function of node `n` is called, with the value (`then`) or the ready future (`recover`) of the node it continues -/
  | called (n : Nat) (x : Option Outcome)
  | returned (n : Nat) (r : Ret)
  | resolved (n : Nat) (o : Outcome)
  /-- the executor drops the task of node `n` without calling it -/
  | discarded (n : Nat)
  deriving DecidableEq, Repr

structure St where
  pc : Nat → Pc := fun _ => .none
  kind : Nat → Option Kind := fun _ => none
  out : Nat → Option Outcome := fun _ => none
  hold : Nat → List Owner := fun _ => []
  /-- the node owned by the function object of a node -/
  own : Nat → Option Nat := fun _ => none
  /-- future objects -/
  fut : Nat → Option Nat := fun _ => none
  trace : List Event := []

/-- Node `n` gets an owner. -/
def add (h : Nat → List Owner) (n : Nat) (x : Owner) : Nat → List Owner := upd h n (x :: h n)

/-- Node `n` loses an owner. -/
def del (h : Nat → List Owner) (n : Nat) (x : Owner) : Nat → List Owner := upd h n ((h n).erase x)

/-- The function object of `n` is destroyed, with the future it owns. -/
def dropOwn (s : St) (n : Nat) : St :=
  match s.own n with
  | none => s
  | some p => { s with own := upd s.own n none, hold := del s.hold p (.fn n) }

/-- `set_value` or `_set_exception` (lines 1637-1655, 386-398): continuations go to their executors, and entries
made by `detach` are dropped. -/
def resolve (s : St) (n : Nat) (o : Outcome) : St :=
  { s with
    pc := fun k =>
      if k = n then .ready
      else if s.pc k = .queued ∧ (s.kind k).bind Kind.parent = some n then .sched
      else if s.pc k = .waiting n then .flat n
      else s.pc k
    out := upd s.out n (some o)
    hold := del s.hold n .det
    trace := s.trace ++ [.resolved n o] }

inductive Act where
  /-- `f = async(executor, function)`, making node `n` -/
  | async (n f : Nat)
  /-- `g = f.then(...)` or `g = f.recover(...)`, making node `n`; `mv`: on an rvalue -/
  | attach (f n g : Nat) (isThen mv : Bool)
  | copy (f g : Nat)
  /-- future object `f` is destroyed, reset or overwritten -/
  | drop (f : Nat)
  | detach (f : Nat)
  /-- the executor calls the task of node `n` -/
  | run (n : Nat)
  /-- the executor drops the task of node `n` -/
  | discard (n : Nat)
  /-- the `recover` function of `n`, being called, keeps its argument as future object `g` -/
  | keep (n g : Nat)
  /-- the function of `n` returns a value -/
  | retVal (n v : Nat)
  /-- the function of `n` throws -/
  | retThrow (n e : Nat)
  /-- the function of `n` returns the future object `f` -/
  | retFut (n f : Nat)
  /-- node `n` is resolved by the future its function returned (lines 994-1003) -/
  | flatten (n : Nat)
  /-- node `n`, which nobody owns, is destroyed -/
  | reap (n : Nat)
  deriving DecidableEq, Repr

inductive Out where
  | no
  | ub
  | ok (s : St)

def step (s : St) : Act → Out
  | .async n f =>
    if s.pc n = .none ∧ s.fut f = none then
      .ok { s with pc := upd s.pc n .sched, kind := upd s.kind n (some .async), hold := add s.hold n (.user f),
                   fut := upd s.fut f (some n), trace := s.trace ++ [.created n .async] }
    else .no
  | .attach f n g isThen mv =>
    match s.fut f with
    | none => .no
    | some p =>
      if s.pc n = .none ∧ s.fut g = none then
        let k := if isThen then Kind.thn p else Kind.rcv p
        let hold := add (add s.hold p (.fn n)) n (.user g)
        .ok { s with pc := upd s.pc n (if s.pc p = .ready then .sched else .queued), kind := upd s.kind n (some k),
                     own := upd s.own n (some p),
                     hold := if mv then del hold p (.user f) else hold,
                     fut := upd (if mv then upd s.fut f none else s.fut) g (some n),
                     trace := s.trace ++ [.created n k] }
      else .no
  | .copy f g =>
    match s.fut f, s.fut g with
    | some p, none => .ok { s with fut := upd s.fut g (some p), hold := add s.hold p (.user g) }
    | _, _ => .no
  | .drop f =>
    match s.fut f with
    | some p => .ok { s with fut := upd s.fut f none, hold := del s.hold p (.user f) }
    | none => .no
  | .detach f =>
    match s.fut f with
    | some p => if s.pc p = .ready ∨ .det ∈ s.hold p then .ok s else .ok { s with hold := add s.hold p .det }
    | none => .no
  | .run n =>
    if s.pc n ≠ .sched then .no
    else if s.hold n = [] then .ok { s with pc := upd s.pc n .dead }  -- `_p.lock()` fails (line 672)
    else match s.kind n with
      | none => .ub
      | some .async =>
        .ok { s with pc := upd s.pc n .running, hold := add s.hold n .call, trace := s.trace ++ [.called n none] }
      | some (.rcv p) =>
        match s.out p with
        | none => .ub
        | some o => .ok { s with pc := upd s.pc n .running, hold := add s.hold n .call,
                                 trace := s.trace ++ [.called n (some o)] }
      | some (.thn p) =>
        match s.out p with
        | none => .ub
        | some (.val v) => .ok { s with pc := upd s.pc n .running, hold := add s.hold n .call,
                                        trace := s.trace ++ [.called n (some (.val v))] }
        -- get_ready() throws before the function is called (lines 731-732), caught in line 1024
        | some (.exc e) => .ok (resolve (dropOwn s n) n (.exc e))
  | .discard n =>
    if s.pc n ≠ .sched then .no
    else if s.hold n = [] then .ok { s with pc := upd s.pc n .dead }
    else .ok (resolve (dropOwn { s with trace := s.trace ++ [.discarded n] } n) n (.exc .broken))
  | .keep n g =>
    match s.pc n, s.kind n, s.own n, s.fut g with
    | .running, some (.rcv _), some p, none =>
      .ok { s with fut := upd s.fut g (some p), hold := add s.hold p (.user g) }
    | _, _, _, _ => .no
  | .retVal n v =>
    if s.pc n ≠ .running then .no
    else
      let s := resolve (dropOwn { s with trace := s.trace ++ [.returned n (.val v)] } n) n (.val v)
      .ok { s with hold := del s.hold n .call }
  | .retThrow n e =>
    if s.pc n ≠ .running then .no
    else
      let s := resolve (dropOwn { s with trace := s.trace ++ [.returned n (.throw e)] } n) n (.exc (.user e))
      .ok { s with hold := del s.hold n .call }
  | .retFut n f =>
    match s.fut f with
    | none => .no
    | some m =>
      if s.pc n ≠ .running then .no
      else
        let s := dropOwn s n
        .ok { s with pc := upd s.pc n (if s.pc m = .ready then .flat m else .waiting m),
                     fut := upd s.fut f none, own := upd s.own n (some m),
                     hold := del (add (del s.hold m (.user f)) m (.fn n)) n .call,
                     trace := s.trace ++ [.returned n (.fut m)] }
  | .flatten n =>
    match s.pc n with
    | .flat m =>
      if s.hold n = [] then .ok { s with pc := upd s.pc n .dead }
      else match s.out m with
        | none => .ub
        | some o => .ok (resolve (dropOwn s n) n o)
    | _ => .no
  | .reap n =>
    if s.hold n = [] ∧ s.own n ≠ none then .ok (dropOwn s n) else .no

def exec (s : St) : List Act → Option St
  | [] => some s
  | a :: as => match step s a with
    | .ok s' => exec s' as
    | _ => .none

def Reachable (s : St) : Prop := ∃ as, exec {} as = some s

end Verif.Graph
