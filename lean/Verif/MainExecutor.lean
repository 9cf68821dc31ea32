/-!
# `main_executor` (include/stlab/concurrency/main_executor.hpp)

The three implementations give the function to a queue of the platform, which calls it on the main thread. The contracts of the platforms are part of the model:

* Qt (lines 45-88): `postEvent` appends the event to the queue of the thread of its receiver, the main thread (line 56). The event loop takes the events in order, lets the receiver
  handle each (lines 69-78), and deletes it with the receiver and the function it owns (lines 51-52). Code called by the event loop may run an event loop itself.
  Events that are left when the application ends are deleted. `QCoreApplication::instance()` is null after that.
* libdispatch (lines 94-107): the main queue calls the functions in order, one at a time, and never while other code of the main thread is running.
* Emscripten (lines 111-149): `emscripten_async_run_in_main_runtime_thread` calls its function at once if called on the main thread; otherwise the main thread calls it later, in order, when it is
  idle or at any cancellation point of the code it is running. `emscripten_async_call` (with delay 0) appends to the queue of the run loop, which calls functions in order and only
  when no other code is running on the main thread.

Functions are numbered in the order in which they are given to the executor.
-/

namespace Verif.MainExecutor

inductive Platform where
  | qt
  | dispatch
  | emscripten
  deriving DecidableEq, Repr

/-- What the main thread is doing. -/
inductive Frame where
  /-- code that is not a function of the executor -/
  | other
  | task (k : Nat)
  deriving DecidableEq, Repr

structure St where
  /-- for each function whether it was given to the executor on the main thread -/
  posted : List Bool := []
  /-- functions on their way to the main thread (Emscripten) -/
  proxy : List Nat := []
  /-- the queue of the run loop -/
  queue : List Nat := []
  /-- the calls on the main thread, the innermost first -/
  stack : List Frame := []
  /-- functions called -/
  started : List Nat := []
  /-- functions that have returned -/
  finished : List Nat := []
  /-- functions deleted -/
  freed : List Nat := []
  /-- the application has ended (Qt) -/
  gone : Bool := false

inductive Act where
  /-- `main_executor(f)`, on the main thread or another one -/
  | post (main : Bool)
  /-- the main thread calls the outer lambda (lines 135-146) -/
  | proxied
  /-- the main thread calls other code -/
  | other
  /-- the run loop calls the next function -/
  | turn
  /-- the innermost call on the main thread returns -/
  | ret
  /-- the application ends (Qt) -/
  | quit
  deriving DecidableEq, Repr

inductive Out where
  | no
  | ub
  | ok (s : St)

/-- The run loop may take a function: it is idle, or code on the main thread runs an event loop (Qt). -/
def loop (p : Platform) (s : St) : Bool := s.stack.isEmpty || p = .qt

def step (p : Platform) (s : St) : Act → Out
  | .post main =>
    if s.gone then .ub
    else if main ∧ s.stack = [] then .no
    else
      let k := s.posted.length
      let s := { s with posted := s.posted ++ [main] }
      match p with
      -- lines 83-86, 101
      | .qt | .dispatch => .ok { s with queue := s.queue ++ [k] }
      -- line 134
      | .emscripten => if main then .ok { s with queue := s.queue ++ [k] } else .ok { s with proxy := s.proxy ++ [k] }
  | .proxied =>
    match s.proxy with
    | [] => .no
    -- lines 136-145
    | k :: ks => .ok { s with proxy := ks, queue := s.queue ++ [k] }
  | .other => if loop p s then .ok { s with stack := .other :: s.stack } else .no
  | .turn =>
    match s.queue with
    | [] => .no
    | k :: ks => if loop p s then .ok { s with queue := ks, started := s.started ++ [k], stack := .task k :: s.stack } else .no
  | .ret =>
    match s.stack with
    | [] => .no
    | .other :: fs => .ok { s with stack := fs }
    -- lines 73, 103-104, 142-143
    | .task k :: fs => .ok { s with stack := fs, finished := s.finished ++ [k], freed := s.freed ++ [k] }
  | .quit => if p = .qt ∧ s.stack = [] then .ok { s with gone := true, freed := s.freed ++ s.queue, queue := [] } else .no

inductive Reachable (p : Platform) : St → Prop where
  | init : Reachable p {}
  | step {s s' : St} {a : Act} : Reachable p s → step p s a = .ok s' → Reachable p s'

end Verif.MainExecutor
