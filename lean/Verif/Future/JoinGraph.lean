import Verif.Future.WhenProps

/-!
# Graphs of futures with `when_all` and `when_any` (include/stlab/concurrency/future.hpp)

Transition system of any number of futures made by `async` (lines 1615-1628), `then` and `recover` (lines 343-362, 727-778),
`when_all` (lines 1249-1263, 1573-1590) and `when_any` (lines 1307-1311, 1598-1611), whose functions may return futures
(lines 989-1003). Each future made by `when_all` or `when_any` has its own copy of the transition system of
`Verif.Future.When`; its arguments are resolved exactly with what the futures of the graph are resolved with. So all interleavings
of attaching, of continuations on the arguments, and of the critical sections of different joins are there.

A program gives each node its kind and the function that is called: a function of what it is called with.

Simplifications: a queued continuation and one that is with its executor are the same state, as the executor may take any time;
executors call what they are given (`Verif.Future.Graph` and `Verif.Future.When` model ones that do not). Who owns a future is not modelled:
any future may be abandoned at any time before its function is called, or while it waits for the future its function returned
(`Verif.Future.Graph` says which ones are). `when_all` and `when_any` have at least one argument (C36 and C37 cover none).
-/

namespace Verif.JoinGraph

open Verif.Shared (Err Outcome upd)
open Verif.When (Mode)

/-- How a node is made. -/
inductive Kind where
  | async
  | thn (p : Nat)
  | rcv (p : Nat)
  /-- `when_all` or `when_any` of the nodes in `args` -/
  | join (m : Mode) (args : List Nat)
  deriving DecidableEq, Repr

/-- The nodes it depends on. -/
def Kind.parents : Kind → List Nat
  | .async => []
  | .thn p => [p]
  | .rcv p => [p]
  | .join _ args => args

/-- `when_all` or `when_any` of nothing. -/
def Kind.bare : Kind → Bool
  | .join _ [] => true
  | _ => false

/-- What a function is called with. -/
inductive Input where
  | unit
  /-- the value (`then`) or the ready future (`recover`) -/
  | one (o : Outcome)
  /-- the values, and the index for `when_any` -/
  | many (xs : List Nat) (idx : Option Nat)
  deriving DecidableEq, Repr

/-- How a function ends. -/
inductive Ret where
  | val (v : Nat)
  | throw (e : Nat)
  /-- returns the future of node `m` -/
  | fut (m : Nat)
  deriving DecidableEq, Repr

structure Prog where
  kind : Nat → Option Kind
  fn : Nat → Input → Ret

inductive Pc where
  /-- no such node yet -/
  | none
  /-- made; its function has not been called -/
  | queued
  | running (x : Input)
  /-- its function returned the future of node `m` -/
  | waiting (m : Nat)
  | ready
  /-- abandoned -/
  | dead
  deriving DecidableEq, Repr

inductive Event where
  | called (n : Nat) (x : Input)
  | resolved (n : Nat) (o : Outcome)
  | abandoned (n : Nat)
  deriving DecidableEq, Repr

structure St where
  pc : Nat → Pc := fun _ => .none
  out : Nat → Option Outcome := fun _ => none
  /-- the contexts of the nodes made by `when_all` and `when_any` -/
  w : Nat → When.St := fun _ => When.init 0
  trace : List Event := []

/-- `set_value` or `_set_exception` (lines 1637-1655, 386-398). -/
def resolve (s : St) (n : Nat) (o : Outcome) : St :=
  { s with pc := upd s.pc n .ready, out := upd s.out n (some o), trace := s.trace ++ [.resolved n o] }

/-- The function of `n` is called (lines 992, 1021-1022). -/
def call (s : St) (n : Nat) (x : Input) : St :=
  { s with pc := upd s.pc n (.running x), trace := s.trace ++ [.called n x] }

inductive Act where
  | create (n : Nat)
  /-- the executor calls the task of `n`, made by `async`, `then` or `recover` -/
  | start (n : Nat)
  /-- a step of the `when_all` or `when_any` that made `n` -/
  | arg (n : Nat) (a : When.Act)
  /-- the function of `n` returns or throws -/
  | ret (n : Nat)
  /-- `n` is resolved by the future its function returned -/
  | flatten (n : Nat)
  | abandon (n : Nat)
  deriving DecidableEq, Repr

inductive Out where
  | no
  | ub
  | ok (s : St)

/-- Argument `i` is resolved with what the node is resolved with; executors do not drop continuations. -/
def argOk (s : St) (args : List Nat) : When.Act → Bool
  | .resolve i o => (args[i]?).bind s.out == some o
  | .discard _ => false
  | _ => true

/-- The effect of step `a` of the join `n` on the graph; `w` is its context before. -/
def after (m : Mode) (k : Nat) (w : When.St) (s : St) (n : Nat) : When.Act → Out
  -- the last future for the result is destroyed
  | .drop => if s.pc n = .queued then .ok { s with pc := upd s.pc n .dead, trace := s.trace ++ [.abandoned n] } else .no
  -- the packaged task for the result is called (lines 1084, 1098, 1188-1214, 1484-1489)
  | .fire _ =>
    if w.kept then
      match When.call m k w.ctx with
      | .ub => .ub
      | .call xs idx => .ok (call s n (.many xs idx))
      | .throw e => .ok (resolve s n (.exc e))
    else .ok s
  | _ => .ok s

/-- The executor calls the task of `n`: lines 343-362, 727-778, 1615-1628. -/
def start (s : St) (n : Nat) : Option Kind → Out
  | some .async => .ok (call s n .unit)
  | some (.thn p) => match s.out p with
    | none => .no
    | some (.val v) => .ok (call s n (.one (.val v)))
    | some (.exc e) => .ok (resolve s n (.exc e))
  | some (.rcv p) => match s.out p with
    | none => .no
    | some o => .ok (call s n (.one o))
  | _ => .no

/-- The function of `n` ends: lines 989-1027. -/
def ret (s : St) (n : Nat) : Ret → Out
  | .val v => .ok (resolve s n (.val v))
  | .throw e => .ok (resolve s n (.exc (.user e)))
  | .fut m => if s.pc m = .none then .no else .ok { s with pc := upd s.pc n (.waiting m) }

def step (P : Prog) (s : St) : Act → Out
  | .create n =>
    match P.kind n with
    | none => .no
    | some k =>
      if s.pc n = .none ∧ (∀ p ∈ k.parents, s.pc p ≠ .none) ∧ k.bare = false then
        .ok { s with pc := upd s.pc n .queued, w := upd s.w n (When.init k.parents.length) }
      else .no
  | .start n => if s.pc n = .queued then start s n (P.kind n) else .no
  | .arg n a =>
    match P.kind n with
    | some (.join m args) =>
      if s.pc n = .none ∨ argOk s args a = false then .no
      else match When.step m args.length (s.w n) a with
        | .no => .no
        | .ub => .ub
        | .ok w' => after m args.length (s.w n) { s with w := upd s.w n w' } n a
    | _ => .no
  | .ret n =>
    match s.pc n with
    | .running x => ret s n (P.fn n x)
    | _ => .no
  | .flatten n =>
    match s.pc n with
    | .waiting m => match s.out m with
      | none => .no
      | some o => .ok (resolve s n o)
    | _ => .no
  | .abandon n =>
    match s.pc n, P.kind n with
    -- here the destructor of the context does the rest (see `arg n .drop`)
    | .queued, some (.join _ _) => .no
    | .queued, _ => .ok { s with pc := upd s.pc n .dead, trace := s.trace ++ [.abandoned n] }
    | .waiting _, _ => .ok { s with pc := upd s.pc n .dead, trace := s.trace ++ [.abandoned n] }
    | _, _ => .no

def exec (P : Prog) (s : St) : List Act → Option St
  | [] => some s
  | a :: as => match step P s a with
    | .ok s' => exec P s' as
    | _ => .none

def Reachable (P : Prog) (s : St) : Prop := ∃ as, exec P {} as = some s

end Verif.JoinGraph
