import Verif.Future.Graph

/-!
# Graphs of futures whose results throw when they are copied or moved (include/stlab/concurrency/future.hpp)

The transition system of `Verif.Future.Graph` with the places where the library copies or moves a result:

* `then` gets the argument of its function by `std::move(p).get_ready()` (lines 732, 747, 761, 776), which moves the result if nobody else owns the
  state, else copies it (lines 413-420). This is part of the function given to `recover`, called within `try` (lines 1020-1026).
* A returned future hands on its result by `std::move(f).get_ready()` in a function that is `noexcept` (lines 996-1003), so an exception calls
  `std::terminate`. Usually this is a copy: if the returned future was not ready, then the function is called by its `set_value`, which owns the state (line 590).
* `set_value` of a promise is `noexcept` (line 589) and moves the result into the state (lines 1652, 1672).

Simplifications: any copy may throw, and any move if `mv`; whether `then` copies or moves is left open.
-/

namespace Verif.Graph

open Verif.Shared (Err Outcome upd)

structure XSt where
  g : St := {}
  /-- `std::terminate` was called -/
  term : Bool := false
  /-- the nodes whose argument could not be copied or moved, with the exception -/
  threw : List (Nat × Nat) := []

inductive XAct where
  /-- what happens without such exceptions -/
  | base (a : Act)
  /-- the executor calls the task of node `n`, made by `then`, and its argument throws `x` -/
  | argThrows (n x : Nat)
  /-- the function of `n` returns a value, which throws when it is moved into the state -/
  | setThrows (n : Nat)
  /-- node `n` gets the result of the future its function returned, which throws -/
  | flatThrows (n : Nat)
  deriving DecidableEq, Repr

inductive XOut where
  | no
  | ub
  | ok (x : XSt)

/-- `mv`: moves throw as well. -/
def xstep (mv : Bool) (x : XSt) (a : XAct) : XOut :=
  if x.term then .no
  else match a with
    | .base a => match step x.g a with
      | .no => .no
      | .ub => .ub
      | .ok g => .ok { x with g := g }
    | .argThrows n e =>
      if x.g.pc n ≠ .sched ∨ x.g.hold n = [] then .no
      else match x.g.kind n with
        | some (.thn p) => match x.g.out p with
          | some (.val _) => .ok { x with g := resolve (dropOwn x.g n) n (.exc (.user e)), threw := (n, e) :: x.threw }
          | _ => .no
        | _ => .no
    | .setThrows n => if mv ∧ x.g.pc n = .running then .ok { x with term := true } else .no
    | .flatThrows n =>
      match x.g.pc n with
      | .flat m =>
        if x.g.hold n = [] then .no
        else match x.g.out m with
          | some (.val _) => .ok { x with term := true }
          | _ => .no
      | _ => .no

def xexec (mv : Bool) (x : XSt) : List XAct → Option XSt
  | [] => some x
  | a :: as => match xstep mv x a with
    | .ok x' => xexec mv x' as
    | _ => .none

def XReachable (mv : Bool) (x : XSt) : Prop := ∃ as, xexec mv {} as = some x

end Verif.Graph
