import Verif.ChannelLayers
import Verif.Future.JoinGraph

/-!
# `when_all` and `when_any` on the executors of the library

The layers put together: a graph of futures made by `async`, `then`, `recover`, `when_all` and `when_any` (`Verif.JoinGraph`) whose tasks are executed
by the portable thread pool, by serial queues over it and by `immediate_executor` (`Verif.Layers`). In `Verif.JoinGraph` a task "may begin at any later
time"; here it is given to the executor of its node and begins when a thread gets to it.

A node made by `async`, `then` or `recover` has one task (include/stlab/concurrency/future.hpp:727-778, 1615-1628). A node made by `when_all` or
`when_any` has one for each argument: the continuation on it, which is given to the same executor (lines 1216-1231, 1503-1518). The continuation that
completes the join calls the packaged task for the result, and with it the function of the user, itself (lines 1084, 1098, 1137, 1490-1497).

An executor does not know what its tasks do. As in `Verif.ChannelLayers` the executors are those of `Verif.Layers`, and a task of node `n` is number
`Nat.pair n i` there: `i = 0` for the task of the node, `i = k + 1` for the continuation on argument `k`.

Simplifications are those of the parts: in particular the functions do not block, and the pool is not joined meanwhile. A thread that calls
`immediate_executor` may go on before the task returns, which only adds executions.
-/

namespace Verif.JoinLayers

open Verif.Shared (upd)
open Verif.JoinGraph (Prog Kind)
open Verif.ChannelLayers (Cfg isGraph)

structure St where
  j : JoinGraph.St := {}
  l : Layers.St
  /-- the task that calls the function of the node -/
  caller : Nat → Nat := fun _ => 0
  /-- the futures made so far, latest first -/
  nodes : List Nat := []

def init (X : Cfg) : St := { l := Layers.init X.layers }

inductive Act where
  /-- a step of the graph of futures -/
  | graph (a : JoinGraph.Act)
  /-- the executor of `n` is called with task `i` (lines 343-362, 1615-1628, 1637-1655) -/
  | call (n i : Nat)
  /-- task `i` of `n` returns -/
  | over (n i : Nat)
  /-- a step of the executors -/
  | exe (a : Layers.Act)

/-- The task of a node made by `async`, `then` or `recover` is given to its executor at once or when its parent is resolved. -/
def ready (P : Prog) (j : JoinGraph.St) (n : Nat) : Bool :=
  match P.kind n with
  | some .async => true
  | some (.thn p) | some (.rcv p) => (j.out p).isSome
  | _ => false

def isJoin : Option Kind → Bool
  | some (.join _ _) => true
  | _ => false

def isRunning : JoinGraph.Pc → Bool
  | .running _ => true
  | _ => false

/-- Task `i` of `n` is to be given to the executor. -/
def due (P : Prog) (j : JoinGraph.St) (n : Nat) : Nat → Bool
  | 0 => j.pc n ≠ .none && ready P j n
  | i + 1 => j.pc n ≠ .none && isJoin (P.kind n) && (j.w n).pc i = .sched

/-- What a task does first, it does when it is executed. -/
def runs (l : Layers.St) : JoinGraph.Act → Bool
  | .start n => l.g.pc (Nat.pair n 0) = .running
  | .arg n (.run i) => l.g.pc (Nat.pair n (i + 1)) = .running
  | _ => true

/-- Nothing of task `i` of `n` is left to run. A task whose node was abandoned does nothing. -/
def ended (s : St) (n : Nat) : Nat → Bool
  | 0 => s.j.pc n ≠ .queued && !isRunning (s.j.pc n)
  | i + 1 => (s.j.w n).pc i = .done && !(s.caller n = i + 1 && isRunning (s.j.pc n))

/-- Who calls the function of the node. -/
def calls (s : St) : JoinGraph.Act → Nat → Nat
  | .start n => upd s.caller n 0
  | .arg n (.fire i) => if (s.j.w n).kept then upd s.caller n (i + 1) else s.caller
  | _ => s.caller

def makes : JoinGraph.Act → List Nat → List Nat
  | .create n, l => n :: l
  | _, l => l

/-- The executors take a step. -/
def layers (X : Cfg) (s : St) (a : Layers.Act) : Option St :=
  match Layers.step X.layers s.l a with
  | .ok l => some { s with l := l }
  | _ => none

def step (P : Prog) (X : Cfg) (s : St) : Act → Option St
  | .graph a =>
    if runs s.l a then
      match JoinGraph.step P s.j a with
      | .ok j => some { s with j := j, caller := calls s a, nodes := makes a s.nodes }
      | _ => none
    else none
  | .call n i => if due P s.j n i then layers X s (.graph (.async (Nat.pair n i) (Nat.pair n i))) else none
  | .over n i => if ended s n i then layers X s (.graph (.retVal (Nat.pair n i) 0)) else none
  | .exe a => if isGraph a then none else layers X s a

def exec (P : Prog) (X : Cfg) (s : St) : List Act → Option St
  | [] => some s
  | a :: as => (step P X s a).bind fun s' => exec P X s' as

/-- States reachable by any steps. -/
inductive Reachable (P : Prog) (X : Cfg) : St → Prop
  | init : Reachable P X (init X)
  | step {s s' : St} (a : Act) : Reachable P X s → step P X s a = some s' → Reachable P X s'

/-- What a user decides to do: make a future, and let go of one. -/
def isUser : JoinGraph.Act → Bool
  | .create _ | .abandon _ | .arg _ .drop => true
  | _ => false

/-- The steps with which the system goes on by itself: users do nothing, there are no spurious wake-ups and no further threads of the pool. -/
def internal : Act → Bool
  | .graph a => !isUser a
  | .exe a => Layers.internal a
  | _ => true

end Verif.JoinLayers
