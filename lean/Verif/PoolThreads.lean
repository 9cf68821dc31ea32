/-!
# The threads of `priority_task_system` (include/stlab/concurrency/default_executor.hpp:320-441)

The number of threads, their creation by `add_thread` and their end in `join`. The queues are abstract: a thread that looks
into them may find a task or none. A task may call `add_thread` (through `await`, await.hpp line 43), and so may any other
thread. Reading the end of `_threads` in line 387 is one step; `emplace_back` into the reserved memory is another.
-/

namespace Verif.PoolThreads

/-! ## Sizes -/

/-- `std::clamp(v, lo, hi)`; undefined if `hi < lo`. -/
def clamp (v lo hi : Nat) : Option Nat := if hi < lo then none else if v < lo then lo else if hi < v then hi else v

/-- Lines 322-328; `max` is `STLAB_TASK_POOL_MAXIMUM()`, `hw` the result of `std::thread::hardware_concurrency()`, which is 0
if it is unknown. `none` is undefined behaviour. -/
def hardwareConcurrency (max hw : Nat) : Option Nat := if 0 < max then clamp max 1 hw else some (Nat.max 1 hw)

/-- `_count`, line 331. -/
def count (h : Nat) : Nat := Nat.max 1 (h - 1)

/-- `_thread_limit`, line 336. -/
def threadLimit (h : Nat) : Nat := Nat.max 9 (h * 4 + 1)

/-! ## Threads -/

inductive Pc where
  /-- not created -/
  | none
  /-- looking into the queues, lines 351-353, 418-420 -/
  | scan
  /-- calling a task -/
  | calling
  /-- in `pop()` of its own queue (line 356) or in `wait()` of its own waiter (line 426) -/
  | waiting
  | exited
  deriving DecidableEq, Repr

/-- Where `join` is. -/
inductive Join where
  | idle
  /-- `done()` has been called for all queues and waiters, lines 383-386 -/
  | done
  /-- about to join thread `k`; `m` is the end of `_threads` read at the beginning, line 387 -/
  | join (k m : Nat)
  /-- after `_q.clear()`, line 390 -/
  | cleared
  deriving DecidableEq, Repr

structure St where
  /-- `_threads.size()` -/
  n : Nat
  pc : Nat → Pc
  joined : Nat → Bool := fun _ => false
  jp : Join := .idle

inductive Act where
  /-- some thread calls `add_thread` -/
  | add
  /-- thread `i` finds a task -/
  | find (i : Nat)
  /-- thread `i` finds no task and is going to wait -/
  | wait (i : Nat)
  /-- thread `i` is woken, or woken spuriously, or its queue is not empty -/
  | wake (i : Nat)
  /-- thread `i` sees `_done` -/
  | exit (i : Nat)
  /-- the task ends -/
  | finish (i : Nat)
  /-- `join` takes its next step -/
  | join
  deriving DecidableEq, Repr

inductive Out where
  | no
  | ub
  | ok (s : St)

def upd {α : Type} (f : Nat → α) (k : Nat) (v : α) : Nat → α := fun i => if i = k then v else f i

/-- The pool with `c` queues and at most `limit` threads. -/
def step (c limit : Nat) (s : St) : Act → Out
  -- lines 409-429
  | .add =>
    if s.n = limit then .ok s
    else .ok { s with n := s.n + 1, pc := upd s.pc s.n .scan }
  | .find i => if s.pc i = .scan then
      -- `_q` is empty after `clear`
      if s.jp = .cleared then .ub else .ok { s with pc := upd s.pc i .calling }
    else .no
  | .wait i => if s.pc i = .scan then
      if s.jp = .cleared then .ub
      -- the index into `_waiters`, lines 344, 426
      else if c ≤ i ∧ limit - c ≤ i - c then .ub
      else .ok { s with pc := upd s.pc i .waiting }
    else .no
  | .wake i => if s.pc i = .waiting then
      if s.jp = .cleared ∧ i < c then .ub else .ok { s with pc := upd s.pc i .scan }
    else .no
  | .exit i => if s.pc i = .waiting ∧ s.jp ≠ .idle then .ok { s with pc := upd s.pc i .exited } else .no
  | .finish i => if s.pc i = .calling then .ok { s with pc := upd s.pc i .scan } else .no
  | .join => match s.jp with
    | .idle => .ok { s with jp := .done }
    | .done => .ok { s with jp := .join 0 s.n }
    | .join k m =>
      if k < m then
        if s.pc k = .exited then .ok { s with joined := upd s.joined k true, jp := .join (k + 1) m } else .no
      else .ok { s with jp := .cleared }
    | .cleared => .no

/-- Lines 370-375 -/
def init (c : Nat) : St := { n := c, pc := fun i => if i < c then .scan else .none }

def exec (c limit : Nat) (s : St) : List Act → Out
  | [] => .ok s
  | a :: as => match step c limit s a with
    | .ok s' => exec c limit s' as
    | o => o

/-- The states that can be reached. If `late` is false, `add_thread` is not called once `join` has been. -/
inductive Reachable (c limit : Nat) (late : Bool) : St → Prop where
  | init : Reachable c limit late (init c)
  | step {s s' : St} {a : Act} : Reachable c limit late s → step c limit s a = .ok s' →
      (late = false → a = .add → s.jp = .idle) → Reachable c limit late s'

end Verif.PoolThreads
