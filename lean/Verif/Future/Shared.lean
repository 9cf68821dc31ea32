/-!
# The shared state of a future (include/stlab/concurrency/future.hpp)

Transition system of one shared state `shared_base<T>` with copyable `T` (lines 322-449) together with everything
that refers to it: any number of future objects, the packaged task and the promise that resolve it, continuations
attached to it, and any number of threads. Each critical section is one step; the unsynchronised writes and reads
of `_result` and `_exception` are separate steps and are undefined behaviour when they could race.

The reference count of the `std::shared_ptr` is represented by the list of its owners (`hold`), `use_count()`
being the length of that list. A continuation `k` stands for the shared state made by `recover`
(lines 343-362): it owns its future `_p` until it has run, or until its own last future is destroyed ("canceled").

Simplifications: a future object is not read by two threads at once (reading through a copy is the same);
executors call the tasks they are given at any later moment, or never.
-/

namespace Verif.Shared

/-- Exceptions: those of the user, and `future_error(broken_promise)`. -/
inductive Err where
  | user (e : Nat)
  | broken
  deriving DecidableEq, Repr

/-- What a future is resolved with. -/
inductive Outcome where
  | val (v : Nat)
  | exc (e : Err)
  deriving DecidableEq, Repr

/-- What a reader of the result gets. -/
inductive Seen where
  | out (o : Outcome)
  /-- a value somebody else has moved from -/
  | movedFrom
  deriving DecidableEq, Repr

/-- Owners of a `shared_ptr` to the state. -/
inductive Holder where
  /-- future object `f` -/
  | fut (f : Nat)
  /-- the future `_p` captured by continuation `k` (lines 347-350) -/
  | cont (k : Nat)
  /-- the entry `k` made by `_detach()` (lines 380-384) -/
  | det (k : Nat)
  /-- the local `p` of a call of `packaged_task` `h` (line 672) -/
  | inv (h : Nat)
  /-- the local `p` of a resolving call through handle `h` (lines 577, 590, 599, 658, 681) -/
  | res (h : Nat)
  deriving DecidableEq, Repr

/-- A `packaged_task` (lines 641-686) or `promise` (lines 568-606); the flag tells whether its `weak_ptr` refers
to the state. -/
inductive Handle where
  | none
  | task (ptr : Bool)
  | prom (ptr : Bool)
  deriving DecidableEq, Repr

/-- Where a resolving call is: `set_value` (lines 1637-1655) or `_set_exception` (lines 386-398). -/
inductive RPc where
  | none
  /-- about to write `_result` or `_exception` -/
  | write (o : Outcome)
  /-- about to enter the critical section -/
  | lock (o : Outcome)
  /-- about to hand the rest of `then` to the executors -/
  | drain (ks : List Nat)
  deriving DecidableEq, Repr

/-- A future object. -/
inductive FSt where
  /-- does not exist, or empty -/
  | none
  | held
  /-- in `get_try`, before the critical section; the flag is the argument `unique` of `get_try_r` -/
  | read1 (u : Bool)
  /-- in `get_try`, after the critical section, the state being ready -/
  | read2 (u : Bool)
  /-- its value has been moved out by `get_try() &&`; may only be destroyed -/
  | used
  deriving DecidableEq, Repr

/-- Where a continuation is. -/
inductive CPc where
  | none
  /-- packaged (line 347), before the critical section (line 354) -/
  | made
  /-- in `_then` -/
  | queued
  /-- `recover` saw a ready state and is about to call the executor (line 359) -/
  | direct
  /-- in the local `then` of the resolving call -/
  | inflight
  /-- given to its executor -/
  | sched
  /-- called, its function not yet applied -/
  | running
  /-- `unique_usage(_p)` evaluated (line 845) -/
  | checked (u : Bool)
  | done
  deriving DecidableEq, Repr

/-- What an observer sees. -/
inductive Event where
  /-- the user's function packaged in the task is called -/
  | invoked
  /-- the state becomes ready -/
  | resolved (o : Outcome)
  /-- continuation `k` is attached -/
  | attached (k : Nat)
  /-- continuation `k` is given to its executor -/
  | scheduled (k : Nat)
  /-- the function of `then` continuation `k` gets `x` -/
  | ran (k : Nat) (x : Seen)
  /-- the function of `recover` continuation `k` gets the future, as future object `f` -/
  | gave (k f : Nat)
  /-- `get_try` on future object `f` returns (or throws) `x` -/
  | got (f : Nat) (x : Seen)
  /-- `get_try` on future object `f` returns nothing -/
  | notReady (f : Nat)
  deriving DecidableEq, Repr

structure St where
  hold : List Holder := [.fut 0]
  /-- `_result` -/
  res : Option Nat := .none
  /-- `_exception` -/
  exc : Option Err := .none
  /-- `_ready` -/
  ready : Bool := false
  /-- `_then` -/
  thens : List Nat := []
  /-- `_result` holds a moved-from value -/
  moved : Bool := false
  handle : Nat → Handle := fun h => if h = 0 then .task true else .none
  rs : Nat → RPc := fun _ => .none
  fut : Nat → FSt := fun f => if f = 0 then .held else .none
  cpc : Nat → CPc := fun _ => .none
  canceled : Nat → Bool := fun _ => false
  /-- entries made by `_detach()` -/
  isDet : Nat → Bool := fun _ => false
  /-- ghost -/
  trace : List Event := []

/-- `package` returns a packaged task (handle 0) and a future (future object 0) (lines 976-1031). -/
def init : St := {}

def upd {α : Type} (f : Nat → α) (k : Nat) (v : α) : Nat → α := fun i => if i = k then v else f i

/-- Steps. -/
inductive Act where
  /-- call packaged task `h` (lines 671-676, 617-622), making promise `h'` -/
  | invoke (h h' : Nat)
  /-- that call returns -/
  | invEnd (h : Nat)
  /-- `std::move(h).set_value(v)` (lines 589-594) -/
  | setVal (h v : Nat)
  /-- `set_exception` of a promise (lines 598-603) or a packaged task (lines 680-685) -/
  | setExc (h e : Nat)
  /-- the destructor of a promise (lines 576-581) or packaged task (lines 657-662) -/
  | destroy (h : Nat)
  /-- move construction of `h'` from `h` (lines 583, 667) -/
  | moveCtor (h' h : Nat)
  /-- move assignment of `h` to `h'` (lines 584, 668) -/
  | moveAssign (h' h : Nat)
  /-- write `_result` (line 1652) or `_exception` (line 387) -/
  | rWrite (h : Nat)
  /-- critical section of the resolving call (lines 1640-1645, 389-393) -/
  | rLock (h : Nat)
  /-- give one continuation to its executor (lines 1646-1647, 395-397) -/
  | rSched (h : Nat)
  /-- the resolving call returns -/
  | rEnd (h : Nat)
  /-- copy future object `f` to `g` -/
  | copy (f g : Nat)
  /-- destroy, reset or overwrite future object `f` -/
  | drop (f : Nat)
  /-- `recover`/`then` of continuation `k` on future object `f`, copying it (lines 785-788, 727-734) or moving
  from it (lines 805-809, 756-763); up to the critical section -/
  | attach (f k : Nat) (move : Bool)
  /-- critical section of `recover` for `k` (lines 353-357) -/
  | cLock (k : Nat)
  /-- `recover` gives `k` to its executor (line 359) -/
  | cDirect (k : Nat)
  /-- `f.detach()` (lines 827, 380-384) -/
  | detach (f k : Nat)
  /-- the last future of the shared state of `k` is destroyed -/
  | cancel (k : Nat)
  /-- the executor calls `k` (lines 671-676) -/
  | run (k : Nat)
  /-- `unique_usage` for the `then` function of `k` (lines 845, 220-223) -/
  | cCheck (k : Nat)
  /-- the `then` function of `k` gets the value or exception (lines 406-420) -/
  | cRead (k : Nat)
  /-- the `recover` function of `k` gets the future, as future object `f` (line 349) -/
  | cGive (k f : Nat)
  /-- `get_try`, of an lvalue (line 839) or an rvalue (line 841) -/
  | getTry (f : Nat) (rv : Bool)
  /-- critical section of `get_try` (lines 423-427, 438-442) -/
  | gLock (f : Nat)
  /-- read the result (lines 428-431, 443-446) -/
  | gRead (f : Nat)
  deriving DecidableEq, Repr

inductive Out where
  | no
  | ub
  | ok (s : St)

/-- Start a resolving call through the `weak_ptr` of `h`, if the state still exists. -/
def startRes (s : St) (h : Nat) (hd : Handle) (o : Outcome) : St :=
  if s.hold = [] then { s with handle := upd s.handle h hd }
  else { s with handle := upd s.handle h hd, rs := upd s.rs h (.write o), hold := .res h :: s.hold }

/-- What is read from `_exception` and `_result`; `none` is undefined behaviour. -/
def look (s : St) : Option Seen :=
  if s.ready then
    match s.exc, s.res with
    | some e, _ => some (.out (.exc e))
    | .none, some v => some (if s.moved then .movedFrom else .out (.val v))
    | .none, .none => .none
  else .none

/-- Is a value (not an exception) there to be moved out? -/
def takes (s : St) (u : Bool) : Bool := u && s.exc.isNone

def step (s : St) : Act → Out
  | .invoke h h' =>
    match s.handle h, s.handle h' with
    | .task true, .none =>
      if s.rs h' ≠ .none ∨ s.rs h ≠ .none then .no
      else if s.hold = [] then .ok s
      else if .invoked ∈ s.trace then .ub  -- assert(_f && "packaged task invoked twice")
      else .ok { s with handle := upd (upd s.handle h (.task false)) h' (.prom true),
                        hold := .inv h :: s.hold, trace := s.trace ++ [.invoked] }
    | _, _ => .no
  | .invEnd h => if .inv h ∈ s.hold then .ok { s with hold := s.hold.erase (.inv h) } else .no
  | .setVal h v =>
    match s.handle h with
    | .prom true => if s.rs h ≠ .none then .no else .ok (startRes s h (.prom false) (.val v))
    | _ => .no
  | .setExc h e =>
    match s.handle h with
    | .prom true => if s.rs h ≠ .none then .no else .ok (startRes s h (.prom false) (.exc (.user e)))
    | .task true => if s.rs h ≠ .none then .no else .ok (startRes s h (.task false) (.exc (.user e)))
    | _ => .no
  | .destroy h =>
    match s.handle h with
    | .none => .no
    | .task p | .prom p =>
      if s.rs h ≠ .none then .no
      else if p then .ok (startRes s h .none (.exc .broken))
      else .ok { s with handle := upd s.handle h .none }
  | .moveCtor h' h =>
    if s.rs h' ≠ .none ∨ s.rs h ≠ .none then .no else
    match s.handle h', s.handle h with
    | .none, .task p => .ok { s with handle := upd (upd s.handle h (.task false)) h' (.task p) }
    | .none, .prom p => .ok { s with handle := upd (upd s.handle h (.prom false)) h' (.prom p) }
    | _, _ => .no
  | .moveAssign h' h =>
    if h = h' ∨ s.rs h' ≠ .none ∨ s.rs h ≠ .none then .no else
    match s.handle h', s.handle h with
    | .task _, .task p => .ok { s with handle := upd (upd s.handle h (.task false)) h' (.task p) }
    | .prom _, .prom p => .ok { s with handle := upd (upd s.handle h (.prom false)) h' (.prom p) }
    | _, _ => .no
  | .rWrite h =>
    match s.rs h with
    | .write o =>
      if s.ready then .ub  -- readers may be reading it
      else match o with
        | .val v => .ok { s with res := some v, rs := upd s.rs h (.lock o) }
        | .exc e => .ok { s with exc := some e, rs := upd s.rs h (.lock o) }
    | _ => .no
  | .rLock h =>
    match s.rs h with
    | .lock o => .ok { s with ready := true, thens := [], rs := upd s.rs h (.drain s.thens),
                              cpc := fun k => if k ∈ s.thens then .inflight else s.cpc k,
                              trace := s.trace ++ [.resolved o] }
    | _ => .no
  | .rSched h =>
    match s.rs h with
    | .drain (k :: ks) =>
      if s.isDet k then
        -- the executor of a detach entry drops the task, which owns the state
        .ok { s with rs := upd s.rs h (.drain ks), cpc := upd s.cpc k .done, hold := s.hold.erase (.det k) }
      else .ok { s with rs := upd s.rs h (.drain ks), cpc := upd s.cpc k .sched,
                        trace := s.trace ++ [.scheduled k] }
    | _ => .no
  | .rEnd h =>
    match s.rs h with
    | .drain [] => .ok { s with rs := upd s.rs h .none, hold := s.hold.erase (.res h) }
    | _ => .no
  | .copy f g =>
    match s.fut f, s.fut g with
    | .held, .none => .ok { s with fut := upd s.fut g .held, hold := .fut g :: s.hold }
    | _, _ => .no
  | .drop f =>
    match s.fut f with
    | .held | .used => .ok { s with fut := upd s.fut f .none, hold := s.hold.erase (.fut f) }
    | _ => .no
  | .attach f k move =>
    match s.fut f, s.cpc k with
    | .held, .none =>
      if move then .ok { s with fut := upd s.fut f .none, cpc := upd s.cpc k .made,
                                hold := .cont k :: s.hold.erase (.fut f), trace := s.trace ++ [.attached k] }
      else .ok { s with cpc := upd s.cpc k .made, hold := .cont k :: s.hold, trace := s.trace ++ [.attached k] }
    | _, _ => .no
  | .cLock k =>
    match s.cpc k with
    | .made =>
      if s.ready then .ok { s with cpc := upd s.cpc k .direct }
      else .ok { s with cpc := upd s.cpc k .queued, thens := s.thens ++ [k] }
    | _ => .no
  | .cDirect k =>
    match s.cpc k with
    | .direct => .ok { s with cpc := upd s.cpc k .sched, trace := s.trace ++ [.scheduled k] }
    | _ => .no
  | .detach f k =>
    match s.fut f, s.cpc k with
    | .held, .none =>
      if s.ready then .ok s
      else .ok { s with cpc := upd s.cpc k .queued, isDet := upd s.isDet k true, thens := s.thens ++ [k],
                        hold := .det k :: s.hold }
    | _, _ => .no
  | .cancel k =>
    if s.isDet k ∨ s.canceled k then .no else
    match s.cpc k with
    | .queued | .direct | .inflight | .sched =>
      .ok { s with canceled := upd s.canceled k true, hold := s.hold.erase (.cont k) }
    | _ => .no  -- during `recover` the local `fut` exists; once called, the task keeps the state alive
  | .run k =>
    match s.cpc k with
    | .sched => if s.canceled k then .ok { s with cpc := upd s.cpc k .done }
                else .ok { s with cpc := upd s.cpc k .running }
    | _ => .no
  | .cCheck k =>
    match s.cpc k with
    | .running => .ok { s with cpc := upd s.cpc k (.checked (s.hold.length == 1)) }
    | _ => .no
  | .cRead k =>
    match s.cpc k with
    | .checked u =>
      match look s with
      | .none => .ub
      | some x => .ok { s with cpc := upd s.cpc k .done, hold := s.hold.erase (.cont k),
                               moved := s.moved || takes s u, trace := s.trace ++ [.ran k x] }
    | _ => .no
  | .cGive k f =>
    match s.cpc k, s.fut f with
    | .running, .none => .ok { s with cpc := upd s.cpc k .done, fut := upd s.fut f .held,
                                      hold := .fut f :: s.hold.erase (.cont k), trace := s.trace ++ [.gave k f] }
    | _, _ => .no
  | .getTry f rv =>
    match s.fut f with
    | .held => .ok { s with fut := upd s.fut f (.read1 (rv && s.hold.length == 1)) }
    | _ => .no
  | .gLock f =>
    match s.fut f with
    | .read1 u => if s.ready then .ok { s with fut := upd s.fut f (.read2 u) }
                  else .ok { s with fut := upd s.fut f .held, trace := s.trace ++ [.notReady f] }
    | _ => .no
  | .gRead f =>
    match s.fut f with
    | .read2 u =>
      match look s with
      | .none => .ub
      | some x => .ok { s with fut := upd s.fut f (if takes s u then .used else .held),
                               moved := s.moved || takes s u, trace := s.trace ++ [.got f x] }
    | _ => .no

def exec (s : St) : List Act → Option St
  | [] => some s
  | a :: as => match step s a with
    | .ok s' => exec s' as
    | _ => .none

/-- States reachable from a newly packaged task. -/
def Reachable (s : St) : Prop := ∃ as, exec init as = some s

end Verif.Shared
