import Verif.Channel.Term

/-!
# A process the receivers of which may go away

A process with a plain function (channel.hpp lines 1091-1121) and `n` processes attached to it, with buffer size 1, each of which may
be destroyed at any moment: the user drops its receiver, and the sender in `_downstream` has only a `weak_ptr` to it. The entry
remains in `_downstream`. Each critical section is a step, and each of the two calls of `free_buffer` in line 681 is.
Simplified: messages are counted only; the process is ready; closing and errors are left out (see Net.lean); `clear_to_send` of
a receiver and the taking of its message are one step.
-/

namespace Verif.Fanout

open Verif.Channel (upd)

/-- `std::size_t` has 64 bits. -/
def maxSize : Nat := 2 ^ 64 - 1

/-- `free_buffer`, lines 631-637, for buffer size 1 and `q` messages in the queue. -/
def free (q : Nat) : Nat := (1 + 2 ^ 64 - q) % 2 ^ 64

inductive Pc where
  /-- no thread is in `step` or is going to be -/
  | idle
  /-- `step` has been given to the executor -/
  | start
  /-- `minimum_free_buffer`, at the first call of `free_buffer` for receiver `k`; `v`: the minimum so far -/
  | min (k v : Nat)
  /-- at the second call -/
  | min2 (k v : Nat)
  /-- lines 1144-1154 -/
  | susp (v : Nat)
  /-- line 1160 -/
  | send (k : Nat)
  /-- line 1162 -/
  | own
  deriving DecidableEq, Repr

structure St where
  q : Nat := 0
  running : Bool := false
  susp : Nat := 0
  pc : Pc := .idle
  /-- receiver `k` exists -/
  alive : Nat → Bool := fun _ => true
  /-- its queue -/
  dq : Nat → Nat := fun _ => 0
  /-- ghost: how many messages have been sent -/
  inp : Nat := 0
  /-- ghost: how often the function has been called -/
  calls : Nat := 0
  /-- ghost: how many results have been sent to receiver `k` -/
  sent : Nat → Nat := fun _ => 0

inductive Act where
  /-- a message is sent -/
  | send
  /-- the thread in `step` goes on -/
  | go
  /-- receiver `k` takes a message and calls `clear_to_send` -/
  | pop (k : Nat)
  /-- receiver `k` is destroyed -/
  | die (k : Nat)
  deriving DecidableEq, Repr

inductive Out where
  | no
  /-- an empty optional is dereferenced -/
  | ub
  | ok (s : St)

/-- `clear_to_send`, lines 827-852. -/
def cts (s : St) : St :=
  let s := { s with susp := s.susp - 1 }
  if s.susp = 0 then
    if s.q ≠ 0 then { s with pc := .start } else { s with running := false }
  else s

/-- The process with `n` receivers; `mo`: the result cannot be copied, and `n` is 1 (lines 686-709; `size()` is 1 even if there is
no receiver). -/
def step (mo : Bool) (n : Nat) (s : St) : Act → Out
  -- lines 612-625
  | .send =>
    let s := { s with q := s.q + 1, inp := s.inp + 1 }
    if s.running then .ok s else .ok { s with running := true, pc := .start }
  | .go => match s.pc with
    | .idle => .no
    -- lines 854-871, 806-819
    | .start => if s.q = 0 then .ok { s with running := false, pc := .idle }
        else .ok { s with q := s.q - 1, calls := s.calls + 1, pc := if n = 0 then .susp 0 else .min 0 maxSize }
    | .min k v =>
      if k < n then
        if s.alive k then .ok { s with pc := .min2 k v } else .ok { s with pc := if mo then .susp 0 else .min (k + 1) v }
      else .ok { s with pc := .susp v }
    | .min2 k v => if s.alive k then .ok { s with pc := .min (k + 1) (Nat.min v (free (s.dq k))) } else .ub
    | .susp v => .ok { s with susp := if v ≤ 1 then n + 1 else 1, pc := .send 0 }
    | .send k =>
      if k < n then
        if s.alive k then .ok { s with dq := upd s.dq k (s.dq k + 1), sent := upd s.sent k (s.sent k + 1), pc := .send (k + 1) }
        else .ok { s with pc := .send (k + 1) }
      else .ok { s with pc := .own }
    | .own => .ok (cts { s with pc := .idle })
  | .pop k => if k < n ∧ s.alive k = true ∧ s.dq k ≠ 0 then
      let s := { s with dq := upd s.dq k (s.dq k - 1) }
      if s.dq k = 0 then .ok (cts s) else .ok s
    else .no
  | .die k => if s.alive k then .ok { s with alive := upd s.alive k false, dq := upd s.dq k 0 } else .no

def exec (mo : Bool) (n : Nat) (s : St) : List Act → Option St
  | [] => some s
  | a :: as => match step mo n s a with
    | .ok s' => exec mo n s' as
    | _ => none

/-- The states that can be reached; `dies`: receivers may be destroyed. -/
inductive Reachable (mo : Bool) (n : Nat) (dies : Bool) : St → Prop where
  | init : Reachable mo n dies {}
  | step {s s' : St} {a : Act} : Reachable mo n dies s → step mo n s a = .ok s' → (dies = false → ∀ k, a ≠ .die k) →
      Reachable mo n dies s'

end Verif.Fanout
