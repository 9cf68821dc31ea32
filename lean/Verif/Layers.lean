import Verif.Future.Graph
import Verif.ThreadPool
import Verif.SerialQueue

/-!
# Futures on the executors of the library

The layers put together: a graph of futures (`Verif.Graph`) whose functions are executed by the portable thread pool (`Verif.ThreadPool`), by serial
queues over it (`Verif.SerialQueue`) and by `immediate_executor`. Elsewhere a future's executor runs what it is given "at some later step", a serial
queue's executor as well, and the pool's tasks are just numbers; here a future's packaged task becomes a task of the pool or of a serial queue, the
jobs of a serial queue become tasks of the pool, and what a thread of the pool does while it calls a task is the job or the function of the future.

Simplifications, besides those of the parts: serial queues use `default_executor`; functions do not block (C54, C88 are about `await`); the pool is
not joined meanwhile (C53, C76 are about `pre_exit`); a job of a serial queue is its only one (C22), so that the steps of a thread in a job are those
of job 0. The thread that resolves a future may go on before the continuations of that future are given to their executors and before those with
`immediate_executor` return, which allows more interleavings than there are.
-/

namespace Verif.Layers

/-- Pointwise update. -/
def upd {α : Type} (f : Nat → α) (k : Nat) (v : α) : Nat → α := fun i => if i = k then v else f i

/-- The executor given to `async`, `then` or `recover`. -/
inductive Exe where
  /-- `low_executor`, `default_executor`, `high_executor` (default_executor.hpp:469-477, 487-489) -/
  | pool (prio : Nat)
  /-- `serial_queue_t::executor()` (serial_queue.hpp:154-159) of serial queue `j` -/
  | serial (j : Nat)
  /-- `immediate_executor` (immediate_executor.hpp:28-33) -/
  | immediate
  deriving DecidableEq, Repr

/-- What a task of the pool is. -/
inductive Job where
  /-- the packaged task of node `n` -/
  | node (n : Nat)
  /-- the lambda that serves serial queue `j` (serial_queue.hpp:86, 96, 131) -/
  | drain (j : Nat)
  deriving DecidableEq, Repr

/-- How far a thread of the pool is with the task it calls. -/
inductive Phase where
  /-- it has not begun, or the thread calls nothing -/
  | idle
  /-- it executes the packaged task of node `n` -/
  | node (n : Nat)
  /-- it serves serial queue `j` -/
  | drain (j : Nat)
  /-- the job is done -/
  | over
  deriving DecidableEq, Repr

/-- The system: number of workers, limit of threads, number of serial queues, the mode of each, and the executor of each node. -/
structure Cfg where
  N : Nat
  limit : Nat
  M : Nat
  mode : Nat → SerialQueue.Mode
  exe : Nat → Exe

structure St where
  g : Graph.St := {}
  p : ThreadPool.St
  q : Nat → SerialQueue.St := fun _ => {}
  /-- the nodes made so far (ghost) -/
  nodes : List Nat := []
  /-- the task of the node was given to its executor -/
  given : Nat → Bool := fun _ => false
  /-- the tasks of the pool -/
  job : Nat → Job := fun _ => .node 0
  /-- a thread of the pool has begun to execute the task -/
  begun : Nat → Bool := fun _ => false
  /-- the tasks of serial queue `j` -/
  node : Nat → Nat → Nat := fun _ _ => 0
  /-- what the threads of the pool do -/
  phase : Nat → Phase := fun _ => .idle

def init (C : Cfg) : St := { p := ThreadPool.init C.N }

inductive Act where
  /-- a step of the graph: something a user does with futures, a function returns, a future is flattened or destroyed -/
  | graph (a : Graph.Act)
  /-- the task of node `n`, which is due, is given to its executor; `i` is the value of `_index++` if that is the pool
  (future.hpp:359, 395-397, 1625, 1646-1647) -/
  | give (n i : Nat)
  /-- a thread in `enqueue` of serial queue `j` calls its executor (serial_queue.hpp:131) -/
  | kick (j i : Nat)
  /-- a step inside the pool -/
  | pool (a : ThreadPool.Act)
  /-- thread `i` of the pool begins to execute the task it took -/
  | begin (i : Nat)
  /-- thread `i` of the pool goes on serving its serial queue; `k` is the value of `_index++` if it calls the executor -/
  | serve (i k : Nat)
  /-- the task of thread `i` returns -/
  | finish (i : Nat)
  deriving DecidableEq, Repr

inductive Out where
  | no
  | ub
  | ok (s : St)

/-- The steps of the pool that are not calls into it, not the end of a task and not part of `join`. -/
def within : ThreadPool.Act → Bool
  | .submit _ _ | .finish _ | .join | .doneQ _ | .doneW _ => false
  | _ => true

/-- The node a step of the graph makes. -/
def makes : Graph.Act → Option Nat
  | .async n _ => some n
  | .attach _ n _ _ _ => some n
  | _ => none

/-- `execute<prio>` is called with a new task. -/
def submit (C : Cfg) (s : St) (prio i : Nat) (b : Job) : Out :=
  match ThreadPool.step C.N C.limit s.p (.submit prio i) with
  | none => .no
  | some p => .ok { s with p := p, job := upd s.job s.p.next b, begun := upd s.begun s.p.next false }

/-- The packaged task of node `n` is called. -/
def call (s : St) (n : Nat) : Out :=
  match Graph.step s.g (.run n) with
  | .no => .no
  | .ub => .ub
  | .ok g => .ok { s with g := g }

/-- A step of serial queue `j`. -/
def serial (C : Cfg) (s : St) (j : Nat) (a : SerialQueue.Act) : Out :=
  match SerialQueue.step (C.mode j) (s.q j) a with
  | .no => .no
  | .ub => .ub
  | .ok q => .ok { s with q := upd s.q j q }

def Out.bind : Out → (St → Out) → Out
  | .no, _ => .no
  | .ub, _ => .ub
  | .ok s, f => f s

/-- Thread `i` is in a job of serial queue `j` (serial_queue.hpp:77-97). -/
def serve (C : Cfg) (s : St) (i j k : Nat) : Out :=
  match (s.q j).jobs with
  | [.loop (t :: _)] => (serial C s j (.advance 0)).bind fun s => call s (s.node j t)
  | [.calling t _] => if s.g.pc (s.node j t) = .running then .no else serial C s j (.advance 0)
  | [.loop []] =>
    (serial C s j (.advance 0)).bind fun s => .ok (if (s.q j).jobs = [] then { s with phase := upd s.phase i .over } else s)
  | [.resubmit] => (serial C s j (.advance 0)).bind fun s =>
    (submit C s 1 k (.drain j)).bind fun s => .ok { s with phase := upd s.phase i .over }
  | _ => serial C s j (.advance 0)

/-- Thread `i` is done with its task. -/
def isOver (s : St) (i : Nat) : Bool :=
  match s.phase i with
  | .node n => s.g.pc n != .running
  | .over => true
  | _ => false

def step (C : Cfg) (s : St) : Act → Out
  | .graph a =>
    match a with
    | .run _ | .discard _ => .no
    | a => match Graph.step s.g a with
      | .no => .no
      | .ub => .ub
      | .ok g => .ok { s with g := g, nodes := match makes a with
                                      | some n => n :: s.nodes
                                      | none => s.nodes }
  | .give n i =>
    if s.g.pc n ≠ .sched ∨ s.given n = true then .no
    else match C.exe n with
      | .pool prio => submit C { s with given := upd s.given n true } prio i (.node n)
      | .serial j =>
        (serial C s j .enqueue).bind fun s' =>
          .ok { s' with given := upd s.given n true, node := upd s.node j (upd (s.node j) (s.q j).next n) }
      | .immediate => call s n
  | .kick j i => (serial C s j .kick).bind fun s => submit C s 1 i (.drain j)
  | .pool a =>
    if within a then
      match ThreadPool.step C.N C.limit s.p a with
      | none => .no
      | some p => .ok { s with p := p }
    else .no
  | .begin i =>
    if i < s.p.nth then
      match s.p.th i with
      | .calling t =>
        if s.begun t then .no
        else
          let s := { s with begun := upd s.begun t true }
          match s.job t with
          | .node n => (call s n).bind fun s => .ok { s with phase := upd s.phase i (.node n) }
          | .drain j => (serial C s j .runJob).bind fun s => .ok { s with phase := upd s.phase i (.drain j) }
      | _ => .no
    else .no
  | .serve i k =>
    match s.phase i with
    | .drain j => serve C s i j k
    | _ => .no
  | .finish i =>
    if isOver s i then
      match ThreadPool.step C.N C.limit s.p (.finish i) with
      | none => .no
      | some p => .ok { s with p := p, phase := upd s.phase i .idle }
    else .no

def exec (C : Cfg) (s : St) : List Act → Out
  | [] => .ok s
  | a :: as => (step C s a).bind (exec C · as)

/-- States reachable by any steps: also new futures, spurious wake-ups, new threads of the pool. -/
inductive Reachable (C : Cfg) : St → Prop
  | init : Reachable C (init C)
  | step {s s' : St} (a : Act) : Reachable C s → step C s a = .ok s' → Reachable C s'

/-- The steps with which the system goes on by itself: no new futures, no spurious wake-ups, no `wake()`, no further threads. -/
def internal : Act → Bool
  | .graph a => match a with
    | .retVal _ _ | .retThrow _ _ | .retFut _ _ | .flatten _ | .reap _ => true
    | _ => false
  | .pool a => match a with
    | .tryPush _ _ | .push _ | .notify _ | .tryPop _ _ | .enter _ | .resume _ => true
    | _ => false
  | _ => true

/-- The configuration makes sense: there is a worker, priorities are known, serial queues exist. -/
structure Cfg.Ok (C : Cfg) : Prop where
  N : 0 < C.N
  prio : ∀ n p, C.exe n = .pool p → p < 3
  serial : ∀ n j, C.exe n = .serial j → j < C.M

end Verif.Layers
