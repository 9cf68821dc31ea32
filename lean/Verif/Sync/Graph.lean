import Verif.Sync.Clock
import Verif.Future.GraphInv

/-!
# Happens-before in graphs of futures (include/stlab/concurrency/future.hpp)

The transition system of `Verif.Graph` with vector clocks, for any number of threads. Clocks are passed on

* by locking the `_mutex` of a shared state: when a continuation is attached (lines 353-357), when a future is detached (line 381) and when the state
  is resolved (lines 389-393, 1641-1645);
* from the thread that calls an executor to the one that executes the task (lines 359, 396, 1625, 1647), which C80 and C81 show for serial queues and the thread
  pool. The function that resolves the outer future when an inner one is resolved is executed by `immediate_executor` (lines 994-1003), where this is program order;
* by reading `_ready` in `is_ready()`, `get_ready()` and `get_try()` (lines 403, 407, 424-427) when it is true, from the thread that set it;
* by anything users do to synchronise their threads.

Simplification: what the counts of `std::shared_ptr` pass on is left out. A task may be executed by any thread; it is not forgotten which one calls a function, so that the function
itself is program order. The rest is as in `Verif.Graph`.
-/

namespace Verif.Sync.Graph

open Verif.Graph (Kind Pc Event)
open Verif.Shared (Outcome)

structure St where
  g : Verif.Graph.St := {}
  /-- the clocks of the threads -/
  vc : Nat → Clock := fun _ _ => 0
  /-- the clocks of those who unlocked the `_mutex` of the nodes -/
  mx : Nat → Clock := fun _ _ => 0
  /-- the clocks of those who set `_ready` of the nodes -/
  rdy : Nat → Clock := fun _ _ => 0
  /-- the clocks of those who gave the task of the node to its executor -/
  tk : Nat → Clock := fun _ _ => 0
  /-- the threads that call the functions of the nodes -/
  thr : Nat → Nat := fun _ => 0
  /-- the events, and when they took place -/
  log : List (Event × Clock) := []
  /-- when the results of nodes were read -/
  reads : List (Nat × Clock) := []

inductive Act where
  /-- a step of the graph, taken by thread `u` unless it is the end of a function -/
  | graph (a : Verif.Graph.Act) (u : Nat)
  /-- thread `u` sees that future object `f` is ready and reads the result -/
  | read (f u : Nat)
  /-- what thread `t` did becomes known to thread `t'` -/
  | sync (t t' : Nat)

/-- The node whose function does this. -/
def caller : Verif.Graph.Act → Option Nat
  | .keep n _ | .retVal n _ | .retThrow n _ | .retFut n _ => some n
  | _ => none

/-- The node whose task is executed or dropped. -/
def task : Verif.Graph.Act → Option Nat
  | .run n | .discard n | .flatten n => some n
  | _ => none

/-- The thread that takes the step. -/
def who (thr : Nat → Nat) (a : Verif.Graph.Act) (u : Nat) : Nat :=
  match caller a with
  | some n => thr n
  | none => u

/-- The node whose `_mutex` is locked in the step from `g` to `g'`. -/
def locks (g g' : Verif.Graph.St) : Verif.Graph.Act → Option Nat
  | .attach f _ _ _ _ | .detach f | .retFut _ f => g.fut f
  | .retVal n _ | .retThrow n _ => some n
  | .run n | .discard n | .flatten n => if g'.pc n = .ready then some n else none
  | _ => none

/-- With an executor. -/
def due : Pc → Bool
  | .sched | .flat _ => true
  | _ => false

/-- The clock `c` together with what is passed on with `f`, if anything is. -/
def also (c : Clock) (f : Nat → Clock) : Option Nat → Clock
  | some n => join c (f n)
  | none => c

/-- The clock of thread `w` in its next step, in which it takes a task from an executor (`t`) or locks the mutex of a node (`l`). -/
def clock (τ : St) (w : Nat) (t l : Option Nat) : Clock :=
  let c := also (also (τ.vc w) τ.tk t) τ.mx l
  upd c w (c w + 1)

def step (τ : St) : Act → Option St
  | .graph a u =>
    match Verif.Graph.step τ.g a with
    | .ok g' =>
      let w := who τ.thr a u
      let l := locks τ.g g' a
      let c := clock τ w (task a) l
      some
        { τ with
          g := g'
          vc := upd τ.vc w c
          mx := fun n => if l = some n then c else τ.mx n
          rdy := fun n => if τ.g.pc n ≠ .ready ∧ g'.pc n = .ready then c else τ.rdy n
          tk := fun n => if g'.pc n ≠ τ.g.pc n ∧ due (g'.pc n) = true then c else τ.tk n
          thr := match a with
            | .run n => upd τ.thr n w
            | _ => τ.thr
          log := τ.log ++ (g'.trace.drop τ.g.trace.length).map (·, c) }
    | _ => none
  | .read f u =>
    match τ.g.fut f with
    | none => none
    | some n =>
      if τ.g.pc n = .ready then
        let c := join (τ.vc u) (τ.rdy n)
        let c := upd c u (c u + 1)
        some { τ with vc := upd τ.vc u c, reads := τ.reads ++ [(n, c)] }
      else none
  | .sync t t' => some { τ with vc := upd τ.vc t' (join (τ.vc t') (τ.vc t)) }

def exec (τ : St) : List Act → Option St
  | [] => some τ
  | a :: as => (step τ a).bind fun τ' => exec τ' as

/-- States reachable by any steps. -/
inductive Reachable : St → Prop
  | init : Reachable {}
  | step {τ τ' : St} (a : Act) : Reachable τ → step τ a = some τ' → Reachable τ'

end Verif.Sync.Graph
