import Verif.Sync.Clock
import Verif.Channel.Defined

/-!
# Happens-before in a process with `await` and `yield` (include/stlab/concurrency/channel.hpp)

The transition system of `Verif.Channel.Process` with vector clocks. The threads are the jobs given to the executors, each as a thread of its own, and other
threads: those of users that send, and those that take messages out of the queues downstream. Clocks are passed on

* by locking the `_process_mutex` of the process (lines 602-607, 615-623, 793-799, 809-814, 828-833, 838-849, 859-870, 1144-1154) or of a process downstream
  (lines 615-623 when a result is sent, 859-870 when it is taken);
* from the thread that calls an executor to the job (lines 608, 624, 800, 819, 851, 1027, 1051, 1123-1128);
* by anything the other threads do to synchronise.

Simplification: what more the atomics, `_downstream_mutex` and `_timeout_function_control` pass on is left out, as is that jobs may be executed by the same
thread and that `minimum_free_buffer` locks; this only takes away order. The process object is read in line 837 before `_process_mutex` is locked in line 838,
which is one step here; the claims about this access are therefore about the clock the thread has before the step.
-/

namespace Verif.Sync.Process

open Verif.Process (Proc Pc)

/-- A `_process_mutex`: that of the process, or of the process `k` downstream. -/
inductive Mtx where
  | own
  | recv (k : Nat)
  deriving DecidableEq, Repr

structure St (σ : Type) where
  s : Verif.Process.St σ
  /-- the clocks of the threads -/
  vc : Nat → Clock := fun _ _ => 0
  /-- the clocks of those who unlocked the mutexes -/
  mx : Mtx → Clock := fun _ _ => 0
  /-- the thread that takes messages out of the queue of process `k` downstream -/
  thr : Nat → Nat := fun _ => 0
  /-- when the process object or the list of receivers was used; `true`: it may have been changed -/
  uses : List (Bool × Clock) := []
  /-- when the messages were sent -/
  sent : List Clock := []
  /-- when the results were yielded (or thrown) -/
  ylds : List Clock := []

/-- Job `j` as a thread. -/
def job (j : Nat) : Nat := 2 * j + 1

/-- Another thread. -/
def other (u : Nat) : Nat := 2 * u

inductive Act where
  /-- a step of the process or around it; `u` is the other thread, if it is not a step of a job -/
  | proc (a : Verif.Process.Act) (u : Nat)
  /-- what thread `t` did becomes known to thread `t'` -/
  | sync (t t' : Nat)

/-- The thread that takes the step. -/
def who (thr : Nat → Nat) : Verif.Process.Act → Nat → Nat
  | .job j, _ => job j
  | .fail j, _ => job j
  | .cts k, _ => thr k
  | _, u => other u

/-- The mutex that is locked in the step. -/
def locks {σ : Type} (n : Nat) (s : Verif.Process.St σ) : Verif.Process.Act → Option Mtx
  | .job j => match s.pc j with
    | .pop | .bcast _ _ | .own1 _ | .own2 _ | .taskDone | .close2 | .ready2 => some .own
    | .send _ _ k => if k < n ∧ s.down = true then some (.recv k) else none
    | _ => none
  | .send _ => some .own
  | .pop k => some (.recv k)
  | .cts _ => some .own
  | _ => none

/-- The step may change the process object, or clears it and the receivers (see `Verif.Process.accesses`). -/
def writes {σ : Type} (s : Verif.Process.St σ) : Verif.Process.Act → Bool
  | .job j => match s.pc j with
    | .inErr | .inAwait _ | .inClose _ | .inYield _ | .clear => true
    | _ => false
  | _ => false

/-- The step reads the process object or the receivers. -/
def reads {σ : Type} (s : Verif.Process.St σ) : Verif.Process.Act → Bool
  | .job j => match s.pc j with
    | .loop | .handle _ | .decide | .own2 _ | .later | .timeout2 | .bcast _ _ | .send _ _ _ => true
    | _ => false
  | .cts k => s.cts k = .second
  | _ => false

/-- The step sends a message. -/
def sends : Verif.Process.Act → Bool
  | .send _ => true
  | _ => false

/-- The clock of thread `w` in its next step, in which it locks `l`. -/
def clock {σ : Type} (τ : St σ) (w : Nat) (l : Option Mtx) : Clock :=
  let c := match l with
    | some m => join (τ.vc w) (τ.mx m)
    | none => τ.vc w
  upd c w (c w + 1)

def step {σ : Type} (P : Proc σ) (n : Nat) (τ : St σ) : Act → Option (St σ)
  | .proc a u =>
    match Verif.Process.step P n τ.s a with
    | .ok s' =>
      let w := who τ.thr a u
      let l := locks n τ.s a
      let c := clock τ w l
      some
        { s := s'
          vc := fun x => if x = w ∨ (x % 2 = 1 ∧ τ.s.next ≤ x / 2 ∧ x / 2 < s'.next) then c else τ.vc x
          mx := fun m => if l = some m then c else τ.mx m
          thr := match a with
            | .pop k => upd τ.thr k w
            | _ => τ.thr
          uses := if writes τ.s a = true ∨ reads τ.s a = true then τ.uses ++ [(writes τ.s a, c)] else τ.uses
          sent := if sends a = true then τ.sent ++ [c] else τ.sent
          ylds := if s'.outs.length = τ.s.outs.length then τ.ylds else τ.ylds ++ [c] }
    | _ => none
  | .sync t t' => some { τ with vc := upd τ.vc t' (join (τ.vc t') (τ.vc t)) }

def init {σ : Type} (P : Proc σ) : St σ := { s := Verif.Process.init P }

def exec {σ : Type} (P : Proc σ) (n : Nat) (τ : St σ) : List Act → Option (St σ)
  | [] => some τ
  | a :: as => (step P n τ a).bind fun τ' => exec P n τ' as

/-- States reachable by any steps. -/
inductive Reachable {σ : Type} (P : Proc σ) (n : Nat) : St σ → Prop
  | init : Reachable P n (init P)
  | step {τ τ' : St σ} (a : Act) : Reachable P n τ → step P n τ a = some τ' → Reachable P n τ'

end Verif.Sync.Process
