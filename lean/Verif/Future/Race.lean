/-!
# Data races on the shared state of a future (include/stlab/concurrency/future.hpp)

The other models of futures take the steps of all threads one after the other. This one asks whether they may: two accesses to the
same member of a `shared_base` (lines 322-449, and 453-560 for results that cannot be copied), one of them a write, must be ordered by "happens before" in the
sense of the C++ memory model; otherwise they are a data race, and the behaviour of the program is undefined.

"Happens before" is computed with vector clocks. Each access by thread `t` gets the next time of `t`; the access happens before
what thread `u` does next, if the clock of `u` has that time for `t`. Clocks are passed on

* with the mutex `_mutex` (`lm`) and the atomic `_ready` (`lr`),
* with the reference count of the `std::shared_ptr` when an owner goes (`lc`; decrements are acquire-release, so that the
  destruction of the state happens after all its uses), but not when the count is read: `use_count()` is a relaxed load,
* with tasks given to an executor, and by the user with future objects and tasks handed from thread to thread.

Copying a `std::shared_ptr` and locking a `std::weak_ptr` order nothing.

A continuation that an executor runs at once, on the thread that gives it, is a continuation run by another thread here; with less
order between the threads. `detach()` (lines 380-384) is `attach` on a copy, with a continuation that does nothing.

Members: `_result`, `_exception`, `_then`. `_executor` is not written after construction, and `_f` is only used by the thread that
has the packaged task. The destruction of the state writes all of them.
-/

namespace Verif.Race

abbrev Clock := Nat → Nat

def join (a b : Clock) : Clock := fun i => max (a i) (b i)

def upd {α : Type} (f : Nat → α) (k : Nat) (v : α) : Nat → α := fun i => if i = k then v else f i

inductive Loc where
  | result
  | exception
  | thens
  deriving DecidableEq, Repr

structure Access where
  loc : Loc
  write : Bool
  thread : Nat
  time : Nat
  deriving DecidableEq, Repr

inductive Pc where
  | idle
  /-- `_p.lock()` succeeded (lines 577, 590, 599, 658, 672, 681): about to write `_result` (`v`) or `_exception` -/
  | resolving (v : Bool)
  /-- before the critical section of `value_::proceed` or `_set_exception` (lines 1641-1645, 389-393) -/
  | publishing
  /-- giving the continuations to their executors (lines 1646-1647, 394-397) -/
  | submitting
  /-- in `get_try() &&` (line 841): `unique_usage` has been evaluated -/
  | trying (u : Bool)
  /-- in `get_try_r` (lines 435-448) or `get_ready_r` (lines 413-420), `_ready` was seen: about to take the result -/
  | taking (u : Bool)
  deriving DecidableEq, Repr

structure St where
  vc : Nat → Clock
  lm : Clock
  lr : Clock
  lc : Clock
  /-- the threads that have a future object, once for each object -/
  objs : List Nat
  /-- number of continuations in `_then`; each has a future object (lines 347-350) -/
  stored : Nat
  /-- the thread that resolves the future, as long as it has the `std::shared_ptr` it got from `_p.lock()` -/
  temp : Option Nat
  /-- number of continuations moved out of `_then` by that thread -/
  taken : Nat
  /-- continuations given to executors, with the clock of the thread that did it -/
  tasks : List Clock
  /-- the thread that has the packaged task or the promise -/
  producer : Option Nat
  ready : Bool
  /-- what was stored: a value, or an exception -/
  value : Bool
  /-- the thread knows that the future is ready: it was told by `is_ready` or `get_try`, it runs a continuation, or it was told by a
  thread that knew -/
  sees : Nat → Bool
  pc : Nat → Pc
  /-- a future object has been copied -/
  copied : Bool
  acc : List Access

/-- `package` (lines 976-1031): thread 0 makes the state, and has the future and the packaged task. -/
def init : St where
  vc := upd (fun _ _ => 0) 0 (upd (fun _ => 0) 0 1)
  lm := fun _ => 0
  lr := fun _ => 0
  lc := fun _ => 0
  objs := [0]
  stored := 0
  temp := none
  taken := 0
  tasks := []
  producer := some 0
  ready := false
  value := false
  sees := fun _ => false
  pc := fun _ => .idle
  copied := false
  acc := [⟨.result, true, 0, 1⟩, ⟨.exception, true, 0, 1⟩, ⟨.thens, true, 0, 1⟩]

inductive Act where
  /-- thread `t` hands a future object to thread `u` -/
  | give (t u : Nat)
  /-- thread `t` hands the packaged task or promise to thread `u` -/
  | giveTask (t u : Nat)
  | copy (t : Nat)
  /-- thread `t` destroys a future object -/
  | drop (t : Nat)
  /-- `then`, `recover` and the like (lines 344-363, 366-378): on a copy, or on the object itself (`mv`) -/
  | attach (t : Nat) (mv : Bool)
  /-- the critical section of `get_try() const&` (lines 422-427, 839) -/
  | look (t : Nat)
  /-- `is_ready` (lines 403, 837) -/
  | isReady (t : Nat)
  /-- `get_ready() const&`, `exception()`, or `get_try() const&` after its critical section (lines 406-411, 428-431, 843, 853-856) -/
  | read (t : Nat)
  /-- `error()` (lines 847-850) -/
  | error (t : Nat)
  /-- `get_try() &&` (line 841) -/
  | rvalueTry (t : Nat)
  /-- `get_ready() &&` (line 845), also what continuations made by `then` call (lines 732, 747, 761, 776) -/
  | rvalueReady (t : Nat)
  /-- the packaged task is run or destroyed, or the promise is fulfilled or destroyed: with a value or an exception -/
  | resolve (t : Nat) (v : Bool)
  /-- an executor lets thread `t` run the continuation at place `i` -/
  | start (t i : Nat)
  /-- thread `t` takes its next step -/
  | next (t : Nat)
  deriving DecidableEq, Repr

inductive Out where
  | no
  /-- data race -/
  | race
  | ok (s : St)

def Out.bind : Out → (St → Out) → Out
  | .ok s, f => f s
  | o, _ => o

/-- `use_count()`. -/
def useCount (s : St) : Nat := s.objs.length + s.stored + s.temp.toList.length + s.taken + s.tasks.length

/-- Thread `t` reads or writes member `l`. -/
def access (s : St) (t : Nat) (l : Loc) (w : Bool) : Out :=
  if s.acc.any fun a => a.loc = l && (a.write || w) && s.vc t a.thread < a.time then .race
  else .ok { s with vc := upd s.vc t (upd (s.vc t) t (s.vc t t + 1)), acc := ⟨l, w, t, s.vc t t + 1⟩ :: s.acc }

def lock (s : St) (t : Nat) : St := { s with vc := upd s.vc t (join (s.vc t) s.lm) }

def unlock (s : St) (t : Nat) : St := { s with lm := join s.lm (s.vc t) }

/-- `~shared_ptr`: `s` is the state without the owner that goes. If it was the last one the state is destroyed. -/
def release (s : St) (t : Nat) : Out :=
  let c := join (s.vc t) s.lc
  let s : St := { s with vc := upd s.vc t c, lc := c }
  if useCount s = 0 then
    (access s t .result true).bind fun s => (access s t .exception true).bind fun s => access s t .thens true
  else .ok s

/-- Taking the value or the exception: `_exception` is read first (lines 409, 418, 429, 444). -/
def take (s : St) (t : Nat) (w : Bool) : Out :=
  (access s t .exception false).bind fun s => if s.value then access s t .result w else .ok s

/-- `acq`: `use_count()` is an acquire load, as in no implementation. `mo`: the result cannot be copied (lines 453-560); then futures
cannot be copied either, the result is always moved out (`get_ready_r` and `get_try_r` ignore their argument, lines 539-557), and
lvalues behave like rvalues (lines 537, 546). `detach()` on an lvalue (lines 512-515) is left out in this case. -/
def step (acq mo : Bool) (s : St) : Act → Out
  | .give t u =>
    if s.pc t = .idle ∧ s.pc u = .idle ∧ t ∈ s.objs then
      .ok { s with objs := u :: s.objs.erase t, vc := upd s.vc u (join (s.vc u) (s.vc t)),
                   sees := upd s.sees u (s.sees u || s.sees t) }
    else .no
  | .giveTask t u =>
    if s.pc t = .idle ∧ s.pc u = .idle ∧ s.producer = some t then
      .ok { s with producer := some u, vc := upd s.vc u (join (s.vc u) (s.vc t)) }
    else .no
  | .copy t => if mo = false ∧ s.pc t = .idle ∧ t ∈ s.objs then .ok { s with objs := t :: s.objs, copied := true } else .no
  | .drop t => if s.pc t = .idle ∧ t ∈ s.objs then release { s with objs := s.objs.erase t } t else .no
  | .attach t mv =>
    if (mo = false ∨ mv = true) ∧ s.pc t = .idle ∧ t ∈ s.objs then
      let s : St := if mv then { s with objs := s.objs.erase t } else { s with copied := true }
      let s := lock s t
      if s.ready then .ok { unlock s t with tasks := s.vc t :: s.tasks }
      else (access s t .thens true).bind fun s => .ok (unlock { s with stored := s.stored + 1 } t)
    else .no
  | .look t =>
    if s.pc t = .idle ∧ t ∈ s.objs then .ok { unlock (lock s t) t with sees := upd s.sees t (s.sees t || s.ready) } else .no
  | .isReady t =>
    if s.pc t = .idle ∧ t ∈ s.objs then
      if s.ready then .ok { s with vc := upd s.vc t (join (s.vc t) s.lr), sees := upd s.sees t true } else .ok s
    else .no
  | .read t => if mo = false ∧ s.pc t = .idle ∧ t ∈ s.objs ∧ s.sees t then take s t false else .no
  | .error t => if s.pc t = .idle ∧ t ∈ s.objs then access s t .exception false else .no
  | .rvalueTry t =>
    if s.pc t = .idle ∧ t ∈ s.objs then
      .ok { s with pc := upd s.pc t (.trying (mo || useCount s = 1)), vc := if acq then upd s.vc t (join (s.vc t) s.lc) else s.vc }
    else .no
  | .rvalueReady t =>
    if s.pc t = .idle ∧ t ∈ s.objs ∧ s.sees t then
      .ok { s with pc := upd s.pc t (.taking (mo || useCount s = 1)), vc := if acq then upd s.vc t (join (s.vc t) s.lc) else s.vc }
    else .no
  | .resolve t v =>
    if s.pc t = .idle ∧ s.producer = some t then
      if useCount s = 0 then .ok { s with producer := none }
      else .ok { s with producer := none, temp := some t, pc := upd s.pc t (.resolving v) }
    else .no
  | .start t i =>
    match s.tasks[i]? with
    | some c =>
      if s.pc t = .idle then
        .ok { s with tasks := s.tasks.eraseIdx i, objs := t :: s.objs, vc := upd s.vc t (join (s.vc t) c), sees := upd s.sees t true }
      else .no
    | none => .no
  | .next t =>
    match s.pc t with
    | .idle => .no
    | .resolving v =>
      (access s t (if v then .result else .exception) true).bind fun s =>
        .ok { s with value := v, pc := upd s.pc t .publishing }
    | .publishing =>
      (access (lock s t) t .thens true).bind fun s =>
        .ok (unlock { s with ready := true, lr := join s.lr (s.vc t), taken := s.stored, stored := 0,
                             pc := upd s.pc t .submitting } t)
    | .submitting =>
      if s.taken = 0 then release { s with temp := none, pc := upd s.pc t .idle } t
      else .ok { s with taken := s.taken - 1, tasks := s.vc t :: s.tasks }
    | .trying u =>
      let s := unlock (lock s t) t
      if s.ready then .ok { s with sees := upd s.sees t true, pc := upd s.pc t (.taking u) }
      else .ok { s with pc := upd s.pc t .idle }
    | .taking u => (take s t u).bind fun s => .ok { s with pc := upd s.pc t .idle }

def exec (acq mo : Bool) (s : St) : List Act → Out
  | [] => .ok s
  | a :: as => (step acq mo s a).bind fun s => exec acq mo s as

end Verif.Race
