import Verif.Sync.Clock
import Verif.Channel.Defined

/-!
# Happens-before in networks of channels (include/stlab/concurrency/channel.hpp)

The transition system of `Verif.Channel.Net` with vector clocks. Each step of it is one critical section of a `_process_mutex`, one access to an atomic,
or code of a thread alone. The threads are the jobs given to the executors, each as a thread of its own, and the threads of users. Clocks are passed on

* by locking a `_process_mutex` that another thread unlocked (lines 602-607, 615-623, 632, 793-799, 809-814, 828-833, 838-849, 859-870, 1144-1154);
* from the thread that calls an executor to the job (lines 608, 624, 800, 819, 851, 1123-1128);
* by anything users do to synchronise threads.

Simplification: what more the atomics and `_downstream_mutex` pass on is left out, as is that jobs may be executed by the same thread; this only takes away order.
The rest is as in `Verif.Channel.Net`.
-/

namespace Verif.Sync.Channel

open Verif.Channel (Net Pc)

structure St where
  s : Verif.Channel.St
  /-- the clocks of the threads -/
  vc : Nat → Clock := fun _ _ => 0
  /-- the clocks of those who unlocked the `_process_mutex` of the processes -/
  mp : Nat → Clock := fun _ _ => 0
  /-- when the function of a process or the list of its receivers was used -/
  uses : Nat → List Clock := fun _ => []
  /-- when the messages were sent to a slot -/
  sent : Nat → Nat → List Clock := fun _ _ => []
  /-- when the calls of the function of a process ended -/
  rets : Nat → List Clock := fun _ => []

/-- Job `j` as a thread. -/
def job (j : Nat) : Nat := 2 * j + 1

/-- Thread `u` of a user. -/
def user (u : Nat) : Nat := 2 * u

inductive Act where
  /-- a step of the network; `u` is the thread of the user, if it is a step of a user -/
  | net (a : Verif.Channel.Act) (u : Nat)
  /-- what thread `t` did becomes known to thread `t'` -/
  | sync (t t' : Nat)

/-- The thread that takes the step. -/
def who : Verif.Channel.Act → Nat → Nat
  | .job j, _ => job j
  | .ret j _, _ => job j
  | _, u => user u

/-- The process whose `_process_mutex` is locked in the step. -/
def locks (G : Net) (s : Verif.Channel.St) : Verif.Channel.Act → Option Nat
  | .job j => match s.pc j with
    | .pop i => some i
    | .cts1 i (k :: _) _ | .cts2 i (k :: _) _ => G.up i k
    | .free _ _ (e :: _) _ => some e.1
    | .susp i _ _ => some i
    | .send _ _ (e :: _) => some e.1
    | .own1 i | .own2 i | .taskDone i => some i
    | .close2 d _ => some d
    | .ready2 i => some i
    | _ => none
  | .send i _ _ => some i
  | _ => none

/-- The step uses `_process` or `_downstream` of process `i` (see `Verif.Channel.accesses`). -/
def touches (s : Verif.Channel.St) (i : Nat) : Verif.Channel.Act → Bool
  | .job j => match s.pc j with
    | .call i' _ | .bcast i' _ | .free i' _ _ _ | .send i' _ _ => i = i'
    | .taskDone i' => i = i' && s.final i'
    | .clear _ | .close2 _ _ => s.clr i = some j
    | _ => false
  | .ret j _ => match s.pc j with
    | .busy i' => i = i'
    | _ => false
  | _ => false

/-- The step sends a message to slot `k` of process `i`. -/
def sends (s : Verif.Channel.St) (i k : Nat) : Verif.Channel.Act → Bool
  | .job j => match s.pc j with
    | .send _ _ (e :: _) => e = (i, k)
    | _ => false
  | .send i' _ _ => i = i' && k = 0
  | _ => false

/-- The step is the end of a call of the function of process `i`. -/
def returns (s : Verif.Channel.St) (i : Nat) : Verif.Channel.Act → Bool
  | .ret j _ => match s.pc j with
    | .busy i' => i = i'
    | _ => false
  | _ => false

/-- The clock of thread `w` in its next step, in which it locks the mutex of `l`. -/
def clock (σ : St) (w : Nat) (l : Option Nat) : Clock :=
  let c := match l with
    | some i => join (σ.vc w) (σ.mp i)
    | none => σ.vc w
  upd c w (c w + 1)

def step (G : Net) (σ : St) : Act → Option St
  | .net a u =>
    match Verif.Channel.step G σ.s a with
    | none => none
    | some s' =>
      let w := who a u
      let l := locks G σ.s a
      let c := clock σ w l
      some
        { s := s'
          vc := fun x => if x = w ∨ (x % 2 = 1 ∧ σ.s.next ≤ x / 2 ∧ x / 2 < s'.next) then c else σ.vc x
          mp := fun i => if l = some i then c else σ.mp i
          uses := fun i => if touches σ.s i a then σ.uses i ++ [c] else σ.uses i
          sent := fun i k => if sends σ.s i k a then σ.sent i k ++ [c] else σ.sent i k
          rets := fun i => if returns σ.s i a then σ.rets i ++ [c] else σ.rets i }
  | .sync t t' => some { σ with vc := upd σ.vc t' (join (σ.vc t') (σ.vc t)) }

def init (G : Net) : St := { s := Verif.Channel.init G }

def exec (G : Net) (σ : St) : List Act → Option St
  | [] => some σ
  | a :: as => (step G σ a).bind fun σ' => exec G σ' as

/-- States reachable by any steps. -/
inductive Reachable (G : Net) : St → Prop
  | init : Reachable G (init G)
  | step {σ σ' : St} (a : Act) : Reachable G σ → step G σ a = some σ' → Reachable G σ'

end Verif.Sync.Channel
