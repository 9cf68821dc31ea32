/-!
# How deep calls are nested (include/stlab/concurrency/future.hpp, include/stlab/concurrency/serial_queue.hpp)

`immediate_executor` (include/stlab/concurrency/immediate_executor.hpp lines 28-33) calls what it is given at once, on the stack of its caller. Here
are the stacks, for three kinds of calls: a future that is resolved starts its continuations, which resolve futures; a future that is given up destroys its
shared state, which owns the future it continues; a serial queue gives its executor the next job.
-/

namespace Verif.Depth

/-! ## Resolving futures -/

namespace Resolve

/-- Futures and the continuations attached to them before they are resolved. -/
structure Graph where
  /-- `_then` of a future (future.hpp lines 334, 463), each entry given by the future for its result -/
  children : Nat → List Nat
  /-- is the continuation for the `immediate_executor`? -/
  inl : Nat → Bool

/-- A task being called: `rest` is none while its function is called (lines 1021-1022), then what is left of the loop over `_then` (lines 395-397, 1646-1647). -/
structure Frame where
  task : Nat
  rest : Option (List Nat)
  deriving DecidableEq, Repr

structure St where
  /-- the stacks of the threads, innermost call first -/
  stack : Nat → List Frame := fun _ => []
  /-- tasks with executors that have threads of their own -/
  queue : List Nat

inductive Act where
  /-- a thread without anything to do takes task `k` -/
  | start (t k : Nat)
  /-- a thread goes on -/
  | go (t : Nat)
  deriving DecidableEq, Repr

def upd (f : Nat → List Frame) (t : Nat) (x : List Frame) : Nat → List Frame := fun u => if u = t then x else f u

def step (G : Graph) (s : St) : Act → Option St
  | .start t k =>
    if s.stack t = [] ∧ k ∈ s.queue then some { s with stack := upd s.stack t [⟨k, none⟩], queue := s.queue.erase k } else none
  | .go t => match s.stack t with
    | [] => none
    -- the function returns and `set_value` takes the continuations (lines 1023, 1640-1645)
    | ⟨k, none⟩ :: fs => some { s with stack := upd s.stack t (⟨k, some (G.children k)⟩ :: fs) }
    -- the next continuation is given to its executor
    | ⟨k, some (c :: cs)⟩ :: fs =>
      if G.inl c then some { s with stack := upd s.stack t (⟨c, none⟩ :: ⟨k, some cs⟩ :: fs) }
      else some { stack := upd s.stack t (⟨k, some cs⟩ :: fs), queue := s.queue ++ [c] }
    | ⟨_, some []⟩ :: fs => some { s with stack := upd s.stack t fs }

/-- Initially tasks are with executors. -/
inductive Reachable (G : Graph) (roots : List Nat) : St → Prop where
  | init : Reachable G roots { queue := roots }
  | step {s s' : St} {a : Act} : Reachable G roots s → step G s a = some s' → Reachable G roots s'

def depth (s : St) (t : Nat) : Nat := (s.stack t).length

end Resolve

/-! ## Giving up futures that are not ready -/

namespace Cancel

/-- Shared states of futures that are not ready. The function of a continuation owns the future it continues (future.hpp lines 347-350). -/
structure St where
  /-- how many futures the user owns for a state -/
  handles : Nat → Nat
  /-- the states whose function still owns its future -/
  held : List Nat
  /-- destructors being called, innermost first; true if the function has been destroyed -/
  stack : List (Nat × Bool) := []
  /-- the states that have been destroyed, or are about to be -/
  gone : List Nat := []

/-- `use_count()` of state `k`. -/
def owners (parent : Nat → Option Nat) (s : St) (k : Nat) : Nat := s.handles k + s.held.countP fun c => parent c = some k

inductive Act where
  | copy (k : Nat)
  | drop (k : Nat)
  /-- the innermost destructor goes on -/
  | go
  deriving DecidableEq, Repr

def set (f : Nat → Nat) (k x : Nat) : Nat → Nat := fun j => if j = k then x else f j

/-- An owner of `k` has gone: the last one calls the destructor. -/
def release (parent : Nat → Option Nat) (s : St) (k : Nat) : St :=
  if owners parent s k = 0 then { s with stack := (k, false) :: s.stack, gone := k :: s.gone } else s

def step (parent : Nat → Option Nat) (s : St) : Act → Option St
  | .copy k => if s.stack = [] ∧ 0 < s.handles k then some { s with handles := set s.handles k (s.handles k + 1) } else none
  | .drop k =>
    if s.stack = [] ∧ 0 < s.handles k then some (release parent { s with handles := set s.handles k (s.handles k - 1) } k) else none
  | .go => match s.stack with
    | [] => none
    -- `_f` with the future in it is destroyed (line 613)
    | (k, false) :: fs =>
      let s := { s with stack := (k, true) :: fs, held := s.held.filter (· ≠ k) }
      match parent k with
      | none => some s
      | some p => some (release parent s p)
    | (_, true) :: fs => some { s with stack := fs }

/-- Initially each of the continuations owns its future. -/
inductive Reachable (parent : Nat → Option Nat) (handles : Nat → Nat) (all : List Nat) : St → Prop where
  | init : Reachable parent handles all { handles := handles, held := all }
  | step {s s' : St} {a : Act} : Reachable parent handles all s → step parent s a = some s' → Reachable parent handles all s'

end Cancel

/-! ## Serial queues -/

namespace Serial

/-- A task, given by the tasks it appends to the queue. -/
inductive Tsk where
  | mk (subs : List Tsk)

def Tsk.subs : Tsk → List Tsk
  | .mk l => l

/-- A call of `single()` (serial_queue.hpp lines 89-97) or `all()` (lines 77-87). -/
inductive Frame where
  /-- the queue is about to be looked at -/
  | entry
  /-- a task is being called, which still appends these; then come those in `local_queue` -/
  | task (subs : List Tsk) (loc : List Tsk)
  /-- after the call of `_executor` in the last line -/
  | last

structure St where
  stack : List Frame := []
  queue : List Tsk := []
  running : Bool := false
  /-- calls of `single()` or `all()` that the executor has not made yet -/
  jobs : Nat := 0
  /-- tasks called so far -/
  calls : Nat := 0

inductive Act where
  /-- a task is appended from outside -/
  | enqueue (x : Tsk)
  /-- an executor with a thread calls a job -/
  | job
  | go

/-- `_executor(...)`: the `immediate_executor` calls the job, any other keeps it for a thread. -/
def give (inl : Bool) (s : St) : St :=
  if inl then { s with stack := .entry :: s.stack } else { s with jobs := s.jobs + 1 }

/-- lines 118-133 -/
def append (inl : Bool) (s : St) (x : Tsk) : St :=
  let s' := { s with queue := s.queue ++ [x], running := true }
  if s.running then s' else give inl s'

/-- The end of `single()` and `all()`: `if (!empty()) _executor(...)` (lines 63-75, 86, 96). -/
def finish (inl : Bool) (s : St) (fs : List Frame) : St :=
  if s.queue.isEmpty then { s with stack := .last :: fs, running := false } else give inl { s with stack := .last :: fs }

def step (inl all : Bool) (s : St) : Act → Option St
  | .enqueue x => if s.stack.isEmpty then some (append inl s x) else none
  | .job => if s.stack.isEmpty ∧ 0 < s.jobs then some { s with stack := [.entry], jobs := s.jobs - 1 } else none
  | .go => match s.stack with
    | [] => none
    | .entry :: fs => match s.queue with
      | [] => none
      | x :: q =>
        if all then some { s with queue := [], stack := .task x.subs q :: fs, calls := s.calls + 1 }
        else some { s with queue := q, stack := .task x.subs [] :: fs, calls := s.calls + 1 }
    | .task (y :: ys) loc :: fs => some (append inl { s with stack := .task ys loc :: fs } y)
    | .task [] (x :: q) :: fs => some { s with stack := .task x.subs q :: fs, calls := s.calls + 1 }
    | .task [] [] :: fs => some (finish inl s fs)
    | .last :: fs => some { s with stack := fs }

inductive Reachable (inl all : Bool) : St → Prop where
  | init : Reachable inl all {}
  | step {s s' : St} {a : Act} : Reachable inl all s → step inl all s a = some s' → Reachable inl all s'

end Serial

end Verif.Depth
