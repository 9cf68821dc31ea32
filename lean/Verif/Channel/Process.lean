import Verif.Channel.Term

/-!
# Processes with `await` and `yield` (include/stlab/concurrency/channel.hpp lines 612-1167)

Transition system of one `shared_process` whose process object has `await`, `yield` and `state` (the `step` of lines
992-1074), between senders and receivers:

* the process object is any type `σ` with functions for its members; each of them may throw;
* the users of its senders send, copy and drop them at any time; one receiver object becomes ready at any time;
* there are `n` processes downstream with buffer size 1. Each takes one message after the other out of its queue, and
  calls `clear_to_send` for it (lines 865-869, 883, 1102) before it takes the next.

Simplifications: there is no process upstream, so that line 883 does nothing in the process itself; timers go off at any
time; the sizes of the queues downstream are read in one step.
-/

namespace Verif.Process

open Verif.Channel (Msg sumTo upd)

/-- `process_state_scheduled`, lines 61-67 -/
inductive PState where
  /-- `await` until nanoseconds::max() -/
  | forever
  /-- `await` with another time -/
  | timed
  /-- `await` until nanoseconds::min() -/
  | expired
  /-- `yield` at nanoseconds::min() -/
  | now
  /-- `yield` at another time -/
  | later
  deriving DecidableEq, Repr

def PState.isYield : PState → Bool
  | .now | .later => true
  | _ => false

/-- The process object. A member function that returns `false` has thrown. -/
structure Proc (σ : Type) where
  start : σ
  state : σ → PState
  await : σ → Nat → σ × Bool
  yield : σ → σ × Msg
  /-- the identity if it has no `close` -/
  close : σ → σ × Bool
  setError : Option (σ → σ × Bool)

/-- Who calls `broadcast`. -/
inductive By where
  | step
  /-- the task for a delayed `yield`, lines 1027-1032 -/
  | later
  /-- the task for a time-out, lines 1051-1069 -/
  | timeout
  deriving DecidableEq, Repr

/-- Where a thread is. -/
inductive Pc where
  | none
  /-- lines 997-1002 -/
  | start
  /-- line 1009 -/
  | loop
  /-- `pop_from_queue`, lines 854-871 -/
  | pop
  /-- line 887; a message has been taken -/
  | handle (m : Msg)
  /-- in `set_error` -/
  | inErr
  /-- in `await` -/
  | inAwait (v : Nat)
  /-- in `close`; `m`: a message was taken -/
  | inClose (m : Bool)
  /-- lines 1013-1070 -/
  | decide
  /-- in `yield` -/
  | inYield (b : By)
  /-- lines 1136-1154 -/
  | bcast (b : By) (r : Msg)
  /-- line 1160; `k`: the first receiver still to be sent to -/
  | send (b : By) (r : Msg) (k : Nat)
  /-- `clear_to_send` from line 1162: lines 828-833 -/
  | own1 (b : By)
  /-- lines 839-851 -/
  | own2 (b : By)
  /-- `_timeout_function_active = false` after `try_broadcast`, line 1065 -/
  | inactive
  /-- `task_done`, lines 806-819 -/
  | taskDone
  /-- lines 820-824 -/
  | clear
  /-- going to release `_timeout_function_control` -/
  | unlock
  /-- the timer of a delayed `yield` has been set -/
  | later
  /-- the timer of a time-out has been set -/
  | timeout
  /-- lines 1062-1063 -/
  | timeout2
  /-- `remove_sender`, lines 601-608 -/
  | close2
  /-- `remove_receiver`, lines 792-799 -/
  | ready2
  deriving DecidableEq, Repr

/-- Where the process downstream is that calls `clear_to_send`. -/
inductive Cts where
  | none
  | first
  | second
  deriving DecidableEq, Repr

structure St (σ : Type) where
  q : List Msg := []
  running : Bool := false
  susp : Nat := 0
  closeQ : Bool := false
  final : Bool := false
  /-- the owner of `_timeout_function_control` -/
  lock : Option Nat := none
  active : Bool := false
  snd : Nat := 1
  ready : Bool := false
  proc : Option σ
  /-- the downstream exists -/
  down : Bool := true
  /-- the queues downstream -/
  dq : Nat → List Msg := fun _ => []
  cts : Nat → Cts := fun _ => .none
  pc : Nat → Pc := fun _ => .none
  next : Nat := 0
  /-- ghost: the thread that has been started by `run` or a timer for a delayed `yield`, until it can start another -/
  main : Option Nat := none
  /-- all messages sent -/
  inp : List Msg := []
  /-- the messages given to the process object -/
  took : List Msg := []
  /-- what has been yielded or thrown -/
  outs : List Msg := []
  /-- what has been sent to the processes downstream -/
  sent : Nat → List Msg := fun _ => []
  /-- how often `close` has been called -/
  closes : Nat := 0
  /-- how often `close` has been called while there was a sender -/
  early : Nat := 0

variable {σ : Type}

def goto (j : Nat) (p : Pc) (s : St σ) : St σ := { s with pc := upd s.pc j p }

/-- A new thread. -/
def spawn (p : Pc) (s : St σ) : St σ := { s with pc := upd s.pc s.next p, next := s.next + 1 }

/-- `run`, lines 1123-1128: the executor runs `step` on any thread at any time. -/
def run (s : St σ) : St σ := { spawn .start s with main := some s.next }

/-- `enqueue`, lines 612-625. -/
def enqueue (m : Msg) (s : St σ) : St σ :=
  let s := { s with q := s.q ++ [m], inp := s.inp ++ [m] }
  if s.ready = true ∧ (s.running = false ∨ s.active = true) then run { s with running := true } else s

/-- Lines 838-851 of `clear_to_send`, if the process object exists. -/
def ctsCrit (P : Proc σ) (x : σ) (s : St σ) : St σ :=
  let s := { s with susp := s.susp - 1 }
  if s.susp = 0 then
    if (P.state x).isYield ∨ s.q ≠ [] ∨ s.closeQ = true then run s else { s with running := false }
  else s

inductive Act where
  /-- thread `j` takes its next step -/
  | job (j : Nat)
  /-- the lock of `_timeout_function_control` is not available to thread `j`, or try_lock fails spuriously -/
  | fail (j : Nat)
  | send (m : Msg)
  | copySender
  | dropSender
  /-- the last receiver becomes ready or is destroyed -/
  | ready
  /-- process `k` downstream takes a message -/
  | pop (k : Nat)
  /-- it goes on in `clear_to_send` -/
  | cts (k : Nat)
  deriving DecidableEq, Repr

inductive Out (σ : Type) where
  | no
  /-- an empty `_process` is used -/
  | ub
  | ok (s : St σ)

/-- `minimum_free_buffer() <= 1` (lines 675-683, 631-637): buffer size 1, and none of the receivers has more messages than
that. The subtraction wraps around if it has. -/
def suspend (n : Nat) (s : St σ) : Bool := n = 0 || (List.range n).any fun k => (s.dq k).length ≤ 1

/-- Thread `j` is through with `broadcast`. -/
def back (j : Nat) : By → St σ → St σ
  | .step, s => goto j .unlock s
  | .later, s => goto j .none s
  | .timeout, s => goto j .inactive s

/-- What thread `j` does next. -/
def stepJob (P : Proc σ) (n j : Nat) (s : St σ) : Out σ :=
  match s.pc j with
  | .none => .no
  | .start =>
    if s.lock = none then .ok (goto j .loop { s with lock := some j, active := false }) else .no
  | .loop => match s.proc with
    | none => .ub
    | some x => .ok (goto j (if (P.state x).isYield then .decide else .pop) s)
  | .pop => match s.q with
    -- lines 860-862, 896-900
    | [] => .ok (goto j (.inClose false) { s with
        closeQ := false, final := s.closeQ, closes := s.closes + 1, early := s.early + if s.snd = 0 then 0 else 1 })
    | m :: q => .ok (goto j (.handle m) { s with q := q })
  | .handle m => match s.proc with
    | none => .ub
    | some _ =>
      let s' := { s with took := s.took ++ [m] }
      match m, P.setError with
      | .err, some _ => .ok (goto j .inErr s')
      | .err, none => .ok (goto j (.inClose true) { s' with
          closes := s.closes + 1, early := s.early + if s.snd = 0 then 0 else 1 })
      | .val v, _ => .ok (goto j (.inAwait v) s')
  | .inErr => match s.proc, P.setError with
    | some x, some f =>
      if (f x).2 then .ok (goto j .loop { s with proc := some (f x).1 })
      else .ok (goto j (.bcast .step .err) { s with proc := some (f x).1, outs := s.outs ++ [.err] })
    | _, _ => .ub
  | .inAwait v => match s.proc with
    | some x =>
      if (P.await x v).2 then .ok (goto j .loop { s with proc := some (P.await x v).1 })
      else .ok (goto j (.bcast .step .err) { s with proc := some (P.await x v).1, outs := s.outs ++ [.err] })
    | none => .ub
  | .inClose m => match s.proc with
    -- line 303
    | none => .ok (goto j (if m then .loop else .decide) s)
    | some x =>
      if (P.close x).2 then .ok (goto j (if m then .loop else .decide) { s with proc := some (P.close x).1 })
      else .ok (goto j (.bcast .step .err) { s with proc := some (P.close x).1, outs := s.outs ++ [.err] })
  | .decide => match s.proc with
    | none => .ub
    | some x => match P.state x with
      | .now | .expired => .ok (goto j (.inYield .step) s)
      | .later => .ok (goto j .unlock { spawn .later s with main := some s.next })
      | .forever => .ok (goto j .taskDone s)
      | .timed => .ok (goto j .unlock (spawn .timeout { s with active := true, main := none }))
  | .inYield b => match s.proc with
    | none => .ub
    | some x => .ok (goto j (.bcast b (P.yield x).2) { s with proc := some (P.yield x).1, outs := s.outs ++ [(P.yield x).2] })
  | .bcast b r =>
    .ok (goto j (.send b r 0) { s with susp := if suspend n s then (if s.down then n else 0) + 1 else 1 })
  | .send b r k =>
    if k < n ∧ s.down = true then
      .ok (goto j (.send b r (k + 1)) { s with dq := upd s.dq k (s.dq k ++ [r]), sent := upd s.sent k (s.sent k ++ [r]) })
    else .ok (goto j (.own1 b) s)
  | .own1 b => if s.final then .ok (back j b { s with main := none }) else .ok (goto j (.own2 b) s)
  | .own2 b => match s.proc with
    | none => .ub
    | some x => .ok (back j b (ctsCrit P x { s with main := none }))
  | .inactive => .ok (goto j .unlock { s with active := false })
  | .taskDone =>
    let r : Bool := s.q ≠ [] ∨ s.closeQ = true
    let s := { s with running := r, main := none }
    let s := if r then run s else s
    .ok (goto j (if s.final then .clear else .unlock) s)
  | .clear => .ok (goto j .unlock { s with down := false, proc := none })
  | .unlock => .ok (goto j .none { s with lock := none })
  | .later => match s.proc with
    -- line 1078
    | none => .ok (goto j .none s)
    | some _ => .ok (goto j (.inYield .later) s)
  | .timeout => if s.lock = none then .ok (goto j .timeout2 { s with lock := some j }) else .no
  | .timeout2 => match s.proc with
    | none => .ub
    | some x => .ok (goto j (if (P.state x).isYield then .unlock else .inYield .timeout) s)
  | .close2 =>
    let r : Bool := s.ready = true ∧ s.running = false
    let s := { s with closeQ := true, running := s.running || r }
    let s := goto j .none s
    .ok (if r then run s else s)
  | .ready2 =>
    let r : Bool := (s.q ≠ [] ∨ s.closeQ = true) ∧ s.running = false
    let s := { s with running := s.running || r }
    let s := goto j .none s
    .ok (if r then run s else s)

def step (P : Proc σ) (n : Nat) (s : St σ) : Act → Out σ
  | .job j => stepJob P n j s
  | .fail j => match s.pc j with
    -- lines 997-1001
    | .start => .ok (run (goto j .none s))
    | _ => .no
  | .send m => if s.snd ≠ 0 then .ok (enqueue m s) else .no
  | .copySender => if s.snd ≠ 0 then .ok { s with snd := s.snd + 1 } else .no
  | .dropSender =>
    if s.snd = 0 then .no
    else if s.snd = 1 then .ok (spawn .close2 { s with snd := 0 }) else .ok { s with snd := s.snd - 1 }
  | .ready => if s.ready then .no else .ok (spawn .ready2 { s with ready := true })
  | .pop k => match s.dq k with
    | _ :: q => if s.cts k = .none then
        .ok { s with dq := upd s.dq k q, cts := upd s.cts k (if q = [] then .first else .none) } else .no
    | [] => .no
  | .cts k => match s.cts k with
    | .none => .no
    | .first => .ok { s with cts := upd s.cts k (if s.final then .none else .second) }
    | .second => match s.proc with
      | none => .ub
      | some x => .ok (ctsCrit P x { s with cts := upd s.cts k .none })

def init (P : Proc σ) : St σ := { proc := some P.start }

def exec (P : Proc σ) (n : Nat) (s : St σ) : List Act → Option (St σ)
  | [] => some s
  | a :: as => match step P n s a with
    | .ok s' => exec P n s' as
    | _ => none

inductive Reachable (P : Proc σ) (n : Nat) : St σ → Prop where
  | init : Reachable P n (init P)
  | step {s s' : St σ} {a : Act} : Reachable P n s → step P n s a = .ok s' → Reachable P n s'

end Verif.Process
