import Verif.Sync.Clock

/-!
# What the tasks of a serial queue know of each other (include/stlab/concurrency/serial_queue.hpp)

`Verif.SerialQueue` shows that the tasks of a serial queue are called one after the other, in the order of their submission. For tasks
that use common data without a mutex this is not enough: on several threads, what one task wrote has to be visible in the next, that is, the end
of each task has to happen before the begin of the next one in the sense of the memory model. This is the same transition system with the
threads that execute the steps and their clocks.

The executor of the queue may be any that orders the call of the executor before the begin of the function given to it (as the thread
pool does, see `Verif.Sync.Pool`), and that runs each function once. A function it runs at once, on the calling thread, is one run by another thread
here, with less order between the threads. Each critical section of `_m` is one step: the mutex keeps others out. Users may synchronise their threads in other ways (`sync`).

Members: `_queue` and `_running`. `_executor` and `_kickstart` are not written after construction.
-/

namespace Verif.Sync.Serial

inductive Mode where
  | single
  | all
  deriving DecidableEq, Repr

inductive Loc where
  | queue
  | running
  deriving DecidableEq, Repr

structure Access where
  loc : Loc
  write : Bool
  stamp : Stamp
  deriving DecidableEq, Repr

/-- Where a thread is in `single()` (serial_queue.hpp:89-97) or `all()` (serial_queue.hpp:77-87). -/
inductive Pc where
  | none
  /-- about to fetch tasks (lines 80, 92) -/
  | begin
  /-- the tasks fetched and not called yet -/
  | loop (ts : List Nat)
  /-- in the call of task `k` -/
  | calling (k : Nat) (ts : List Nat)
  /-- `empty()` returned false: about to call `_executor` (lines 86, 96) -/
  | resubmit
  deriving DecidableEq, Repr

structure St where
  vc : Nat → Clock
  /-- the clock of `_m` -/
  lm : Clock
  running : Bool
  queue : List Nat
  /-- threads in `enqueue` that are about to call `_executor` (lines 130-132), once for each call -/
  kicks : List Nat
  /-- functions given to the executor, with the clock of the thread that did it -/
  pending : List Clock
  pc : Nat → Pc
  /-- the calls of `enqueue`: task `k` is the `k`th -/
  subs : List Stamp
  /-- the tasks begun, in order, with what the thread knew then -/
  begun : List (Nat × Clock)
  /-- the tasks ended, in order -/
  ended : List (Nat × Stamp)
  /-- the task in the local variable `f` of `single()` (line 90), of thread `t` -/
  held : Nat → Option Nat
  /-- the tasks destroyed, in order -/
  gone : List (Nat × Stamp)
  acc : List Access

/-- Thread 0 has constructed the queue (lines 135-136). -/
def init : St where
  vc := tick (fun _ _ => 0) 0
  lm := fun _ => 0
  running := false
  queue := []
  kicks := []
  pending := []
  pc := fun _ => .none
  subs := []
  begun := []
  ended := []
  held := fun _ => none
  gone := []
  acc := [⟨.queue, true, ⟨0, 1⟩⟩, ⟨.running, true, ⟨0, 1⟩⟩]

inductive Act where
  /-- thread `t` does something else -/
  | work (t : Nat)
  /-- thread `t` synchronises with thread `u` in some way outside of the queue: `u` goes on after `t` -/
  | sync (t u : Nat)
  /-- the critical section of `enqueue` (lines 121-128), by thread `t` -/
  | enqueue (t : Nat)
  /-- thread `t` calls `_executor` in line 131 -/
  | kick (t : Nat)
  /-- the executor lets thread `t` run the function at place `i` -/
  | start (t i : Nat)
  /-- thread `t` takes its next step in `single()` or `all()` -/
  | next (t : Nat)
  /-- thread `t` destroys `f` at the end of `single()` (line 97) -/
  | drop (t : Nat)
  deriving DecidableEq, Repr

inductive Out where
  | no
  /-- `pop_front` of an empty queue (lines 57-61) -/
  | ub
  /-- data race -/
  | race
  | ok (s : St)

def Out.bind : Out → (St → Out) → Out
  | .ok s, f => f s
  | o, _ => o

/-- Thread `t` reads or writes a member. -/
def access (s : St) (t : Nat) (l : Loc) (w : Bool) : Out :=
  if s.acc.any fun a => a.loc = l && (a.write || w) && ¬ a.stamp.le (s.vc t) then .race
  else .ok { s with vc := tick s.vc t, acc := ⟨l, w, ⟨t, s.vc t t + 1⟩⟩ :: s.acc }

def lock (s : St) (t : Nat) : St := { s with vc := acquire s.vc t s.lm }

def unlock (s : St) (t : Nat) : St := { s with lm := join s.lm (s.vc t) }

/-- `fetch`: lines 92 and 80. -/
def fetch (m : Mode) (q : List Nat) : Option (List Nat × List Nat) :=
  match m with
  | .single => match q with
    | [] => none
    | k :: q => some ([k], q)
  | .all => some (q, [])

/-- A thread knows the construction of the queue: it was given a copy of the `serial_queue_t` or of its executor. -/
def knows (s : St) (t : Nat) : Prop := 1 ≤ s.vc t 0

instance (s : St) (t : Nat) : Decidable (knows s t) := inferInstanceAs (Decidable (_ ≤ _))

def step (m : Mode) (s : St) : Act → Out
  | .work t => .ok { s with vc := tick s.vc t }
  | .sync t u => .ok { s with vc := acquire s.vc u (s.vc t) }
  | .enqueue t =>
    if knows s t then
      (access (lock s t) t .queue true).bind fun s => (access s t .running true).bind fun s =>
        .ok (unlock { s with queue := s.queue ++ [s.subs.length], subs := s.subs ++ [⟨t, s.vc t t⟩], running := true,
                             kicks := if s.running then s.kicks else t :: s.kicks } t)
    else .no
  | .kick t => if t ∈ s.kicks then .ok { s with kicks := s.kicks.erase t, pending := s.vc t :: s.pending } else .no
  | .start t i =>
    match s.pending[i]? with
    | some c =>
      if s.pc t = .none ∧ s.held t = none then .ok { s with pending := s.pending.eraseIdx i, vc := acquire s.vc t c, pc := upd s.pc t .begin } else .no
    | none => .no
  | .next t =>
    match s.pc t with
    | .none => .no
    | .begin =>
      (access (lock s t) t .queue true).bind fun s =>
        match fetch m s.queue with
        | none => .ub
        | some (ts, q) => .ok (unlock { s with queue := q, pc := upd s.pc t (.loop ts) } t)
    | .loop (k :: ts) => .ok { s with begun := s.begun ++ [(k, s.vc t)], vc := tick s.vc t, pc := upd s.pc t (.calling k ts) }
    | .calling k ts =>
      let s : St := { s with ended := s.ended ++ [(k, ⟨t, s.vc t t + 1⟩)], vc := tick s.vc t, pc := upd s.pc t (.loop ts) }
      match m with
      | .single => .ok { s with held := upd s.held t (some k) }
      -- the temporary of line 83 is destroyed at once
      | .all => .ok { s with gone := s.gone ++ [(k, ⟨t, s.vc t t + 1⟩)], vc := tick s.vc t }
    | .loop [] =>
      -- `empty()` (lines 63-75)
      (access (lock s t) t .queue false).bind fun s =>
        if s.queue = [] then
          (access s t .running true).bind fun s => .ok (unlock { s with running := false, pc := upd s.pc t .none } t)
        else .ok (unlock { s with pc := upd s.pc t .resubmit } t)
    | .resubmit => .ok { s with pending := s.vc t :: s.pending, pc := upd s.pc t .none }
  | .drop t =>
    match s.held t with
    | some k =>
      if s.pc t = .none then
        .ok { s with gone := s.gone ++ [(k, ⟨t, s.vc t t + 1⟩)], vc := tick s.vc t, held := upd s.held t none }
      else .no
    | none => .no

inductive Reachable (m : Mode) : St → Prop where
  | init : Reachable m init
  | step {s s' : St} {a : Act} : Reachable m s → step m s a = .ok s' → Reachable m s'

end Verif.Sync.Serial
