import Verif.Channel.ProcessProps

/-!
# Sources: processes with `yield` and without `await` (include/stlab/concurrency/channel.hpp lines 909-990)

`channel<void>(executor) | source` makes a process that yields one result after the other on its own (lines 1274-1284,
1509-1521). Transition system of one such `shared_process`, with `n` processes downstream whose buffer sizes are any numbers.

* The process object is any type `σ` with functions for `state` and `yield`. It changes only in `yield`, so its state is the same
  at lines 927 and 930, and lines 953-985 are not reached: they would need a state that is `await` in line 930 but was not in
  line 927.
* The receiver object becomes ready at any time. There are no senders: the only one belongs to the process of `channel<void>`,
  which exists as long as this one and never sends or closes. So the queue is empty, `_process_close_queue` and `_process_final` are
  false.
* Each process downstream takes a message out of its queue at any time, and calls `clear_to_send` for it (lines 865-869, 883, 1102)
  if its queue is not longer than its buffer size less one; it may be run by several threads (see C40).
* `clear_to_send` asks for the state in line 837, without a lock, before its critical section.
* Timers go off at any time, try_lock may fail at any time.
-/

namespace Verif.Source

open Verif.Channel (Msg sumTo upd freeBuffer usub sizeMax)

/-- `process_state_scheduled`, lines 61-67; `await` with any time. -/
inductive SState where
  | await
  /-- `yield` at nanoseconds::min() -/
  | now
  /-- `yield` at another time -/
  | later
  deriving DecidableEq, Repr

def SState.isYield : SState → Bool
  | .await => false
  | _ => true

/-- The process object; `yield` throws if the result is `err`. -/
structure Src (σ : Type) where
  start : σ
  state : σ → SState
  yield : σ → σ × Msg

inductive Pc where
  | none
  /-- `remove_receiver`, lines 792-799 -/
  | ready2
  /-- lines 914-919 -/
  | start
  /-- lines 927-949 -/
  | decide
  /-- in `yield`; `t`: in the task of a delayed `yield` (lines 944-948, 1078), without the lock -/
  | inYield (t : Bool)
  /-- `minimum_free_buffer` (lines 675-683): receiver `k` is next, `acc` the minimum so far -/
  | free (t : Bool) (r : Msg) (k acc : Nat)
  /-- line 1160; `k`: the first receiver still to be sent to -/
  | send (t : Bool) (r : Msg) (k : Nat)
  /-- `clear_to_send` from line 1162: line 837 -/
  | own1 (t : Bool)
  /-- lines 838-851; `ps`: the state was `yield` -/
  | own2 (t : Bool) (ps : Bool)
  /-- going to release `_timeout_function_control` -/
  | unlock
  /-- the timer of a delayed `yield` has been set -/
  | later
  deriving DecidableEq, Repr

structure St (σ : Type) where
  x : σ
  ready : Bool := false
  running : Bool := false
  susp : Nat := 0
  /-- the owner of `_timeout_function_control` -/
  lock : Option Nat := none
  pc : Nat → Pc := fun _ => .none
  next : Nat := 0
  /-- the queues downstream -/
  dq : Nat → List Msg := fun _ => []
  /-- calls of `clear_to_send` by receiver `k` that are going to ask for the state -/
  cr : Nat → Nat := fun _ => 0
  /-- ... that have asked and got `yield` -/
  cy : Nat → Nat := fun _ => 0
  /-- ... and got `await` -/
  ca : Nat → Nat := fun _ => 0
  /-- what has been yielded or thrown -/
  outs : List Msg := []
  /-- what has been sent to the processes downstream -/
  sent : Nat → List Msg := fun _ => []

variable {σ : Type}

def goto (j : Nat) (p : Pc) (s : St σ) : St σ := { s with pc := upd s.pc j p }

/-- A new thread. -/
def spawn (p : Pc) (s : St σ) : St σ := { s with pc := upd s.pc s.next p, next := s.next + 1 }

/-- Lines 838-851 of `clear_to_send`. -/
def crit (ps : Bool) (s : St σ) : St σ :=
  let s := { s with susp := s.susp - 1 }
  if s.susp = 0 then
    -- line 1123
    if ps then spawn .start s else { s with running := false }
  else s

inductive Act where
  /-- thread `j` takes its next step -/
  | job (j : Nat)
  /-- try_lock fails -/
  | fail (j : Nat)
  /-- the last receiver object becomes ready or is destroyed -/
  | ready
  /-- process `k` downstream takes a message -/
  | pop (k : Nat)
  /-- it asks for the state in `clear_to_send` -/
  | ask (k : Nat)
  /-- the rest of `clear_to_send` -/
  | cts (k : Nat) (ps : Bool)
  deriving DecidableEq, Repr

/-- Thread `j` is through with `broadcast`. -/
def back (j : Nat) (t : Bool) (s : St σ) : St σ := goto j (if t then .none else .unlock) s

/-- What thread `j` does next. -/
def stepJob (P : Src σ) (n : Nat) (buf : Nat → Nat) (j : Nat) (s : St σ) : Option (St σ) :=
  match s.pc j with
  | .none => none
  | .ready2 =>
    let r : Bool := s.running = false
    let s := goto j .none { s with running := true }
    some (if r then spawn .start s else s)
  | .start => if s.lock = none then some (goto j .decide { s with lock := some j }) else none
  | .decide => match P.state s.x with
    | .await => some (goto j .unlock s)
    | .now => some (goto j (.inYield false) s)
    | .later => some (goto j .unlock (spawn .later s))
  | .later => some (goto j (.inYield true) s)
  | .inYield t =>
    some (goto j (.free t (P.yield s.x).2 0 (if n = 0 then 0 else sizeMax)) { s with x := (P.yield s.x).1, outs := s.outs ++ [(P.yield s.x).2] })
  | .free t r k acc =>
    if k < n then some (goto j (.free t r (k + 1) (min acc (freeBuffer (buf k) (s.dq k).length))) s)
    -- lines 1144-1154
    else some (goto j (.send t r 0) { s with susp := if acc ≤ 1 then n + 1 else 1 })
  | .send t r k =>
    if k < n then
      some (goto j (.send t r (k + 1)) { s with dq := upd s.dq k (s.dq k ++ [r]), sent := upd s.sent k (s.sent k ++ [r]) })
    else some (goto j (.own1 t) s)
  | .own1 t => some (goto j (.own2 t (P.state s.x).isYield) s)
  | .own2 t ps => some (back j t (crit ps s))
  | .unlock => some (goto j .none { s with lock := none })

def step (P : Src σ) (n : Nat) (buf : Nat → Nat) (s : St σ) : Act → Option (St σ)
  | .job j => stepJob P n buf j s
  -- lines 915-917
  | .fail j => if s.pc j = .start then some (spawn .start (goto j .none s)) else none
  | .ready => if s.ready then none else some (spawn .ready2 { s with ready := true })
  | .pop k => match s.dq k with
    | [] => none
    | _ :: q => some { s with dq := upd s.dq k q, cr := upd s.cr k (s.cr k + if q.length ≤ usub (buf k) 1 then 1 else 0) }
  | .ask k =>
    if s.cr k = 0 then none
    else if (P.state s.x).isYield then some { s with cr := upd s.cr k (s.cr k - 1), cy := upd s.cy k (s.cy k + 1) }
    else some { s with cr := upd s.cr k (s.cr k - 1), ca := upd s.ca k (s.ca k + 1) }
  | .cts k ps =>
    if ps then
      if s.cy k = 0 then none else some (crit true { s with cy := upd s.cy k (s.cy k - 1) })
    else
      if s.ca k = 0 then none else some (crit false { s with ca := upd s.ca k (s.ca k - 1) })

def init (P : Src σ) : St σ := { x := P.start }

def exec (P : Src σ) (n : Nat) (buf : Nat → Nat) (s : St σ) : List Act → Option (St σ)
  | [] => some s
  | a :: as => (step P n buf s a).bind fun s' => exec P n buf s' as

inductive Reachable (P : Src σ) (n : Nat) (buf : Nat → Nat) : St σ → Prop where
  | init : Reachable P n buf (init P)
  | step {s s' : St σ} {a : Act} : Reachable P n buf s → step P n buf s a = some s' → Reachable P n buf s'

end Verif.Source
