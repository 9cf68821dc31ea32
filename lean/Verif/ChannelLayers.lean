import Verif.Channel.Net
import Verif.Layers
import Mathlib.Data.Nat.Pairing

/-!
# Channels on the executors of the library

The layers put together: a network of processes (`Verif.Channel`) whose steps are executed by the portable thread pool, by serial queues over it and by
`immediate_executor` (`Verif.Layers`). In `Verif.Channel` a step of a process that was given to its executor "may begin at any later time, in some
thread"; here it is a task of the pool or of a serial queue and begins when a thread of the pool gets to it.

An executor does not know what its tasks do. The executors are therefore those of `Verif.Layers`, and the step of process `i` that is thread `j` of
`Verif.Channel` is its task number `Nat.pair i j`: a task that waits for nothing and whose result nobody asks for (an `async`).

Simplifications are those of the parts: in particular the processes are alive, the functions do not block, and the pool is not joined meanwhile.
A thread that calls `immediate_executor` may go on before the step returns, which only adds executions: no step waits for its caller.
-/

namespace Verif.ChannelLayers

/-- The system: number of workers, limit of threads, number of serial queues, the mode of each, and the executor of each process
(channel.hpp:738, 1123-1128). -/
structure Cfg where
  N : Nat
  limit : Nat
  M : Nat
  mode : Nat → SerialQueue.Mode
  exe : Nat → Layers.Exe

/-- The task that is thread `j` for process `i` goes to the executor of process `i`. -/
def Cfg.layers (X : Cfg) : Layers.Cfg where
  N := X.N
  limit := X.limit
  M := X.M
  mode := X.mode
  exe := fun n => X.exe n.unpair.1

structure St where
  c : Channel.St
  l : Layers.St
  /-- the process whose executor was given thread `j` -/
  task : Nat → Option Nat := fun _ => none

def init (G : Channel.Net) (X : Cfg) : St := { c := Channel.init G, l := Layers.init X.layers }

inductive Act where
  /-- a user does something with a sender or receiver -/
  | user (a : Channel.Act)
  /-- the executor of a process is called with thread `j` (channel.hpp:1123-1128) -/
  | call (j : Nat)
  /-- thread `j` takes its next step -/
  | job (j : Nat)
  /-- the function called by thread `j` returns or throws -/
  | ret (j : Nat) (r : Channel.Msg)
  /-- the lambda given to the executor (channel.hpp:1123-1128) returns -/
  | over (j : Nat)
  /-- a step of the executors -/
  | exe (a : Layers.Act)

/-- Nothing of the thread is left to run: it returned, or ended in lines 1107-1109. -/
def ended : Channel.Pc → Bool
  | .none | .dead _ _ => true
  | _ => false

/-- The process whose step is to begin. -/
def begins : Channel.Pc → Option Nat
  | .pop i => some i
  | _ => none

/-- Thread `j` is executed: a thread of the pool, or the one that called `immediate_executor`, is in it. Threads of users, which close senders and
receivers, need no executor. -/
def runs (s : St) (j : Nat) : Bool :=
  match s.task j with
  | some i => s.l.g.pc (Nat.pair i j) = .running
  | none => (begins (s.c.pc j)).isNone

/-- The executors take a step. -/
def layers (X : Cfg) (s : St) (a : Layers.Act) : Option St :=
  match Layers.step X.layers s.l a with
  | .ok l => some { s with l := l }
  | _ => none

def isUser : Channel.Act → Bool
  | .job _ | .ret _ _ => false
  | _ => true

def isGraph : Layers.Act → Bool
  | .graph _ => true
  | _ => false

def step (G : Channel.Net) (X : Cfg) (s : St) : Act → Option St
  | .user a => if isUser a then (Channel.step G s.c a).map fun c => { s with c := c } else none
  | .call j =>
    match begins (s.c.pc j), s.task j with
    | some i, none =>
      (layers X s (.graph (.async (Nat.pair i j) (Nat.pair i j)))).map fun s => { s with task := Layers.upd s.task j (some i) }
    | _, _ => none
  | .job j => if runs s j then (Channel.step G s.c (.job j)).map fun c => { s with c := c } else none
  | .ret j r => if runs s j then (Channel.step G s.c (.ret j r)).map fun c => { s with c := c } else none
  | .over j =>
    match s.task j with
    | some i => if ended (s.c.pc j) then layers X s (.graph (.retVal (Nat.pair i j) 0)) else none
    | none => none
  | .exe a => if isGraph a then none else layers X s a

def exec (G : Channel.Net) (X : Cfg) (s : St) : List Act → Option St
  | [] => some s
  | a :: as => (step G X s a).bind fun s' => exec G X s' as

/-- States reachable by any steps. -/
inductive Reachable (G : Channel.Net) (X : Cfg) : St → Prop
  | init : Reachable G X (init G X)
  | step {s s' : St} (a : Act) : Reachable G X s → step G X s a = some s' → Reachable G X s'

/-- The steps with which the system goes on by itself: users do nothing, there are no spurious wake-ups and no further threads of the pool. -/
def internal : Act → Bool
  | .user _ => false
  | .exe a => Layers.internal a
  | _ => true

/-- The configuration makes sense: there is a worker, priorities are known, serial queues exist. -/
structure Cfg.Ok (X : Cfg) : Prop where
  N : 0 < X.N
  prio : ∀ i p, X.exe i = .pool p → p < 3
  serial : ∀ i j, X.exe i = .serial j → j < X.M

end Verif.ChannelLayers
