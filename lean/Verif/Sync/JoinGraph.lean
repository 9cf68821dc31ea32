import Verif.Future.JoinGraphInv
import Verif.Sync.Clock

/-!
# Happens-before in graphs with `when_all` and `when_any` (include/stlab/concurrency/future.hpp)

`Verif.Future.JoinGraph` says what the futures of a graph are resolved with. This model adds clocks (`Verif.Sync.Clock`): which thread takes a step, and what that thread
knows of the others. Threads learn from each other by locking the `_mutex` of a future after another thread unlocked it (lines 353-357, 388-396, 1637-1655), by
taking a task from an executor after another thread gave it to the executor, and by locking `_guard` of the context of a `when_all` or `when_any` (lines 1078, 1090, 1117,
1130, 1428, 1452, 1463), and by reading `_ready` when it is true, from the thread that set it; nothing else is passed on, except by users who synchronise their own threads.

A step of the graph is a step of one thread, which is any thread, except that a function returns on the thread that called it, and that the continuation of an argument goes
on to the critical section and to the call of the function on the thread that took it (lines 1216-1231, 1084, 1098).
Who resolves a future takes its continuations from it and gives them to the executor (lines 386-398); who continues a future that is ready gives the continuation to the executor (lines 343-362).
`Verif.Future.JoinGraph` has a separate step in which a context hears that its argument was resolved: it is part of the resolution, and passes on what was known then.
-/

namespace Verif.Sync.JoinGraph

open Verif.JoinGraph (Prog Kind Pc Event)

structure St where
  g : Verif.JoinGraph.St := {}
  /-- the clocks of the threads -/
  vc : Nat → Clock := fun _ _ => 0
  /-- what was known when the `_mutex` of a node was unlocked last -/
  mx : Nat → Clock := fun _ _ => 0
  /-- what was known when the node was resolved -/
  rdy : Nat → Clock := fun _ _ => 0
  /-- what is passed on with the task of a node made by `async`, `then` or `recover`, and with the continuation of the future its function returned -/
  tk : Nat → Clock := fun _ _ => 0
  /-- what is passed on with the continuation of argument `i` of node `n` -/
  at_ : Nat → Nat → Clock := fun _ _ _ => 0
  /-- what was known when `_guard` of a node was unlocked last -/
  gd : Nat → Clock := fun _ _ => 0
  /-- the thread that calls the function of a node -/
  thr : Nat → Nat := fun _ => 0
  /-- the thread that runs the continuation of argument `i` of node `n` -/
  wt : Nat → Nat → Nat := fun _ _ => 0
  log : List (Event × Clock) := []
  /-- when the results of nodes were read -/
  reads : List (Nat × Clock) := []

inductive Act where
  /-- a step of the graph, on thread `u` if that is free -/
  | graph (a : Verif.JoinGraph.Act) (u : Nat)
  /-- thread `u` sees that the future of node `n` is ready and reads the result: `is_ready()`, `get_ready()`, `get_try()` (lines 403, 406-411, 422-433) -/
  | read (n u : Nat)
  /-- users synchronise thread `t'` with what thread `t` did -/
  | sync (t t' : Nat)
  deriving DecidableEq, Repr

/-- The node of a step. -/
def subj : Verif.JoinGraph.Act → Nat
  | .create n | .start n | .arg n _ | .ret n | .flatten n | .abandon n => n

/-- The thread that takes the step. -/
def who (τ : St) (u : Nat) : Verif.JoinGraph.Act → Nat
  | .ret n => τ.thr n
  | .arg n (.crit i) | .arg n (.fire i) => τ.wt n i
  | _ => u

/-- Node `n` is resolved in the step from `g` to `g'`. -/
def fresh (g g' : Verif.JoinGraph.St) (n : Nat) : Bool := g.out n = none ∧ g'.out n ≠ none

/-- The node whose future node `k` waits for. -/
def needs (P : Prog) (g : Verif.JoinGraph.St) (k : Nat) : Option Nat :=
  match g.pc k, P.kind k with
  | .waiting m, _ => some m
  | .queued, some (.thn p) => some p
  | .queued, some (.rcv p) => some p
  | _, _ => none

/-- The node whose `_mutex` is locked in the step from `g` to `g'`: to resolve it (lines 386-398, 1637-1655) or to continue it (lines 343-362, 1216-1231, 1503-1518, 989-1003). -/
def locks (P : Prog) (g g' : Verif.JoinGraph.St) (a : Verif.JoinGraph.Act) : Option Nat :=
  if fresh g g' (subj a) then some (subj a)
  else match a with
    | .create n | .ret n => needs P g' n
    | .arg n .attach => match P.kind n with
      | some (.join _ args) => args[(g.w n).att]?
      | _ => none
    | _ => none

/-- What comes with a task taken from an executor, or with `_guard`. -/
def taken (τ : St) : Verif.JoinGraph.Act → Clock
  | .start n | .flatten n => τ.tk n
  | .arg n (.run i) => τ.at_ n i
  | .arg n (.crit _) => τ.gd n
  | _ => fun _ => 0

/-- The clock of thread `w` in its next step. -/
def clock (τ : St) (w : Nat) (t : Clock) (l : Option Nat) : Clock :=
  let c := join (τ.vc w) t
  let c := match l with
    | some p => join c (τ.mx p)
    | none => c
  upd c w (c w + 1)

/-- What was known when argument `i` of node `n` was resolved. -/
def argRdy (P : Prog) (τ : St) (n i : Nat) : Clock :=
  match P.kind n with
  | some (.join _ args) => match args[i]? with
    | some p => τ.rdy p
    | none => fun _ => 0
  | _ => fun _ => 0

def step (P : Prog) (τ : St) : Act → Option St
  | .graph a u =>
    match Verif.JoinGraph.step P τ.g a with
    | .ok g' =>
      let w := who τ u a
      let l := locks P τ.g g' a
      let c := clock τ w (taken τ a) l
      some
        { g := g'
          vc := upd τ.vc w c
          mx := fun n => if l = some n then c else τ.mx n
          rdy := fun n => if fresh τ.g g' n then c else τ.rdy n
          tk := fun k =>
            if a = .create k ∨ a = .ret k then c
            else if (needs P g' k).any (fresh τ.g g') then join (τ.tk k) c
            else τ.tk k
          at_ := fun n i => match a with
            | .arg k .attach => if n = k ∧ i = (τ.g.w k).att then c else τ.at_ n i
            | .arg k (.resolve j _) => if n = k ∧ i = j then join (τ.at_ n i) (argRdy P τ n i) else τ.at_ n i
            | _ => τ.at_ n i
          gd := match a with
            | .arg n (.crit _) => upd τ.gd n c
            | _ => τ.gd
          thr := fun n => if τ.g.pc n = .queued ∧ g'.pc n ≠ .queued then w else τ.thr n
          wt := fun n i => if a = .arg n (.run i) then w else τ.wt n i
          log := τ.log ++ (g'.trace.drop τ.g.trace.length).map (·, c)
          reads := τ.reads }
    | _ => none
  | .read n u =>
    if τ.g.out n = none then none
    else
      let c := join (τ.vc u) (τ.rdy n)
      let c := upd c u (c u + 1)
      some { τ with vc := upd τ.vc u c, reads := τ.reads ++ [(n, c)] }
  | .sync t t' => some { τ with vc := upd τ.vc t' (join (τ.vc t') (τ.vc t)) }

def exec (P : Prog) (τ : St) : List Act → Option St
  | [] => some τ
  | a :: as => (step P τ a).bind fun τ' => exec P τ' as

/-- States reachable by any steps. -/
inductive Reachable (P : Prog) : St → Prop
  | init : Reachable P {}
  | step {τ τ' : St} (a : Act) : Reachable P τ → step P τ a = some τ' → Reachable P τ'

end Verif.Sync.JoinGraph
