import Verif.Future.Shared

/-!
# `when_all` and `when_any` (include/stlab/concurrency/future.hpp lines 1063-1611)

Transition system of one call of `when_all` or `when_any` on `n` futures, in the four variants: a pack of futures
(`when_all_shared`, `when_any_shared`) and a range of futures (`common_context` with `single_trigger` and `all_trigger`).
The calling thread attaches a continuation to every argument in turn and keeps the future of each continuation in
`_holds`; the arguments are resolved by others at any time; executors run the continuations in any order on any thread.

Simplifications: values are numbers (`void` arguments, which only set a placeholder, are values too); storing a value
does not throw (see Verif.Future.WhenThrow for that); the critical section of `_guard` is one step, and so is the call of the packaged task `_f`, which runs the
function given by the user. `when_any_shared<S, void>` (lines 1146-1186) differs from the general case in keeping `_guard`
locked while it calls `_f` (lines 1157-1167); it is not modelled separately.
-/

namespace Verif.When

open Verif.Shared (Err Outcome upd)

/-- The variants. -/
inductive Mode where
  /-- `when_all(executor, f, futures...)`, lines 1249-1263 -/
  | allPack
  /-- `when_any(executor, f, futures...)`, lines 1307-1311 -/
  | anyPack
  /-- `when_all(executor, f, range)`, lines 1573-1590 -/
  | allRange
  /-- `when_any(executor, f, range)`, lines 1598-1611 -/
  | anyRange
  deriving DecidableEq, Repr

def Mode.isAll : Mode → Bool
  | .allPack | .allRange => true
  | _ => false

/-- `when_all_shared` (lines 1064-1071), `when_any_shared` (lines 1103-1112), `common_context` (lines 1475-1480) with
`context_result` (lines 1368-1395), without `_holds` and `_f`. -/
structure Ctx where
  /-- `_args` of `when_all_shared`, `_results` of a range `when_all` -/
  slots : Nat → Option Nat := fun _ => none
  /-- `_arg` of `when_any_shared`, `_results` of a range `when_any` -/
  arg : Option Nat := none
  /-- `_index`; none: numeric_limits::max() or the initial 0 -/
  index : Option Nat := none
  exc : Option Err := none
  single : Bool := false
  remaining : Nat

/-- Which of `_holds` are reset by the critical section. -/
inductive Reset where
  | keep
  | all
  | allBut (i : Nat)
  deriving DecidableEq, Repr

/-- The critical section of `done(f, i)` or `failure(error, i)`: new context, holds to reset, whether to call `_f`. -/
def crit (m : Mode) (c : Ctx) (i : Nat) : Outcome → Ctx × Reset × Bool
  | .val v => match m with
    -- lines 1078-1084
    | .allPack =>
      if c.exc = none then
        ({ c with slots := upd c.slots i (some v), remaining := c.remaining - 1 }, .keep, c.remaining - 1 = 0)
      else (c, .keep, false)
    -- lines 1130-1137
    | .anyPack =>
      if c.index = none then ({ c with arg := some v, index := some i }, .keep, true) else (c, .keep, false)
    -- lines 1450-1458, 1329
    | .allRange =>
      ({ c with slots := upd c.slots i (some v), remaining := c.remaining - 1 }, .keep, c.remaining - 1 = 0)
    -- lines 1425-1439, 1320-1321
    | .anyRange =>
      if c.single = false then ({ c with single := true, arg := some v, index := some i }, .allBut i, true)
      else (c, .keep, false)
  | .exc e => match m with
    -- lines 1087-1099
    | .allPack => if c.exc = none then ({ c with exc := some e }, .all, true) else (c, .keep, false)
    -- lines 1114-1124
    | .anyPack =>
      if c.remaining - 1 = 0 then ({ c with remaining := c.remaining - 1, exc := some e }, .keep, true)
      else ({ c with remaining := c.remaining - 1 }, .keep, false)
    -- lines 1425-1439, 1392
    | .allRange =>
      if c.single = false then ({ c with single := true, exc := some e }, .allBut i, true) else (c, .keep, false)
    -- lines 1461-1471, 1392
    | .anyRange =>
      if c.remaining - 1 = 0 then ({ c with remaining := c.remaining - 1, exc := some e }, .keep, true)
      else ({ c with remaining := c.remaining - 1 }, .keep, false)

/-- What calling `_f` does. -/
inductive Res where
  /-- the function of the user is called with these values and this index -/
  | call (xs : List Nat) (i : Option Nat)
  | throw (e : Err)
  /-- rethrowing an empty exception_ptr, dereferencing an empty optional -/
  | ub
  deriving DecidableEq, Repr

/-- The first `n` results, if all are there. -/
def collect (f : Nat → Option Nat) : Nat → Option (List Nat)
  | 0 => some []
  | n + 1 => match collect f n, f n with
    | some xs, some x => some (xs ++ [x])
    | _, _ => none

/-- `apply_when_all_args` (lines 1188-1205), `apply_when_any_arg` (lines 1207-1214), `execute` (lines 1484-1489). -/
def call (m : Mode) (n : Nat) (c : Ctx) : Res :=
  match m with
  | .allPack => match collect c.slots n with
    | some xs => .call xs none
    | none => match c.exc with
      | some e => .throw e
      | none => .ub
  | .anyPack => match c.exc with
    | some e => .throw e
    | none => match c.arg, c.index with
      | some v, some i => .call [v] (some i)
      | _, _ => .ub
  -- a result that was never stored is a default constructed value, here 0 (lines 1377-1382)
  | .allRange => match c.exc with
    | some e => .throw e
    | none => .call ((List.range n).map fun i => (c.slots i).getD 0) none
  | .anyRange => match c.exc with
    | some e => .throw e
    | none => .call [c.arg.getD 0] (some (c.index.getD 0))

/-- A continuation made by `attach_when_arg_` (lines 1216-1231) or `attach_tasks` (lines 1503-1518). -/
inductive Pc where
  | none
  /-- attached; the argument is not ready -/
  | queued
  /-- with the executor -/
  | sched
  /-- being called, owning the context (lines 1220, 1507) -/
  | running (o : Outcome)
  /-- past the critical section, going to call `_f` -/
  | fire
  | done
  /-- dropped by the executor -/
  | lost
  deriving DecidableEq, Repr

/-- The future of a continuation. -/
inductive Hold where
  | none
  /-- local variable of the attaching function -/
  | loc
  /-- in `_holds` -/
  | stored
  | reset
  deriving DecidableEq, Repr

inductive Event where
  /-- argument `i` is resolved -/
  | argRes (i : Nat) (o : Outcome)
  /-- the context learns about it -/
  | seen (i : Nat) (o : Outcome)
  /-- the function of the user is called -/
  | called (xs : List Nat) (idx : Option Nat)
  /-- the result is resolved with an exception without calling the function -/
  | failed (e : Err)
  /-- the last future for the result is destroyed -/
  | dropped
  /-- the executor drops continuation `i` without calling it -/
  | discarded (i : Nat)
  deriving DecidableEq, Repr

structure St where
  ctx : Ctx
  arg : Nat → Option Outcome := fun _ => none
  pc : Nat → Pc := fun _ => .none
  hold : Nat → Hold := fun _ => .none
  /-- number of arguments attached so far -/
  att : Nat := 0
  /-- `_f` has been called -/
  fired : Bool := false
  /-- somebody owns the future for the result -/
  kept : Bool := true
  /-- continuations being called -/
  running : List Nat := []
  trace : List Event := []

def init (n : Nat) : St := { ctx := { remaining := n } }

/-- The context is owned by the function `when_all`/`when_any` while it runs, by the function object for the result until
that has been called, and by the continuations being called. -/
def St.alive (s : St) (n : Nat) : Bool :=
  s.att < n || (s.att = n && (0 < n && s.hold (n - 1) = .loc)) || (s.kept && !s.fired) || !s.running.isEmpty

/-- The future of continuation `i` is owned. -/
def St.held (s : St) (n i : Nat) : Bool := s.hold i = .loc || (s.hold i = .stored && s.alive n)

inductive Act where
  | resolve (i : Nat) (o : Outcome)
  /-- the next argument gets its continuation (`recover`) -/
  | attach
  /-- its future is stored in `_holds` (lines 1229-1230, 1516-1517) -/
  | store
  | run (i : Nat)
  | crit (i : Nat)
  | fire (i : Nat)
  | drop
  | discard (i : Nat)
  deriving DecidableEq, Repr

inductive Out where
  | no
  | ub
  | ok (s : St)

def resets : Reset → (Nat → Hold) → Nat → Hold
  | .keep, h => h
  | .all, h => fun j => if h j = .stored then .reset else h j
  | .allBut i, h => fun j => if j ≠ i ∧ h j = .stored then .reset else h j

def step (m : Mode) (n : Nat) (s : St) : Act → Out
  | .resolve i o =>
    if s.arg i = none ∧ i < n then
      .ok { s with arg := upd s.arg i (some o), trace := s.trace ++ [.argRes i o],
                   pc := if s.pc i = .queued then upd s.pc i .sched else s.pc }
    else .no
  | .attach =>
    if s.att < n ∧ (∀ i, i < s.att → s.hold i ≠ .loc) then
      .ok { s with att := s.att + 1, hold := upd s.hold s.att .loc,
                   pc := upd s.pc s.att (if s.arg s.att = none then .queued else .sched) }
    else .no
  | .store =>
    if 0 < s.att ∧ s.hold (s.att - 1) = .loc then .ok { s with hold := upd s.hold (s.att - 1) .stored } else .no
  | .run i =>
    if s.pc i ≠ .sched then .no
    -- canceled, or `_w.lock()` fails
    else if s.held n i = false ∨ s.alive n = false then .ok { s with pc := upd s.pc i .done }
    else match s.arg i with
      | none => .ub
      | some o => .ok { s with pc := upd s.pc i (.running o), running := i :: s.running }
  | .crit i =>
    match s.pc i with
    | .running o =>
      let r := crit m s.ctx i o
      .ok { s with ctx := r.1, hold := resets r.2.1 s.hold, trace := s.trace ++ [.seen i o],
                   pc := upd s.pc i (if r.2.2 then .fire else .done),
                   running := if r.2.2 then s.running else s.running.erase i }
    | _ => .no
  | .fire i =>
    if s.pc i ≠ .fire then .no
    else if s.kept = false then .ok { s with pc := upd s.pc i .done, running := s.running.erase i }
    -- the function object has been destroyed after the first call (line 1027)
    else if s.fired then .ub
    else match call m n s.ctx with
      | .ub => .ub
      | .call xs idx => .ok { s with pc := upd s.pc i .done, fired := true, running := s.running.erase i,
                                     trace := s.trace ++ [.called xs idx] }
      | .throw e => .ok { s with pc := upd s.pc i .done, fired := true, running := s.running.erase i,
                                 trace := s.trace ++ [.failed e] }
  | .drop =>
    if s.att = n ∧ (n = 0 ∨ s.hold (n - 1) ≠ .loc) ∧ s.kept then
      .ok { s with kept := false, trace := s.trace ++ [.dropped] }
    else .no
  | .discard i =>
    if s.pc i = .sched then .ok { s with pc := upd s.pc i .lost, trace := s.trace ++ [.discarded i] } else .no

def exec (m : Mode) (n : Nat) (s : St) : List Act → Option St
  | [] => some s
  | a :: as => match step m n s a with
    | .ok s' => exec m n s' as
    | _ => .none

def Reachable (m : Mode) (n : Nat) (s : St) : Prop := ∃ as, exec m n (init n) as = some s

/-! `when_all` and `when_any` on an empty range do not make a context. -/

namespace Empty

structure St where
  /-- the packaged task is with the executor -/
  sched : Bool
  /-- somebody owns the future for the result -/
  kept : Bool := true
  trace : List Event := []

/-- `when_all` (lines 1581-1586) makes a package of `context_result(f, 0)` and gives it to the executor; `when_any`
(lines 1605-1607, 1033-1041) returns a future that is ready with the error. -/
def init : Mode → St
  | .allRange => { sched := true }
  | _ => { sched := false, trace := [.failed .broken] }

inductive Act where
  /-- the executor calls the task -/
  | run
  /-- the executor destroys the task without calling it -/
  | discard
  /-- the last future for the result is destroyed -/
  | drop
  deriving DecidableEq, Repr

/-- The package does nothing if its future does not exist any more (line 671); if it is destroyed without having been
called, its future gets a broken promise (lines 657-662). What the function is called with is `_results`, initially
empty (lines 1377-1382). -/
def step (s : St) : Act → Option St
  | .run =>
    if s.sched then
      if s.kept then match call .allRange 0 { remaining := 0 } with
        | .call xs idx => some { s with sched := false, trace := s.trace ++ [.called xs idx] }
        | .throw e => some { s with sched := false, trace := s.trace ++ [.failed e] }
        | .ub => none
      else some { s with sched := false }
    else none
  | .discard =>
    if s.sched then
      some { s with sched := false, trace := s.trace ++ [.discarded 0] ++ if s.kept then [.failed .broken] else [] }
    else none
  | .drop => if s.kept then some { s with kept := false, trace := s.trace ++ [.dropped] } else none

def exec (s : St) : List Act → Option St
  | [] => some s
  | a :: as => (step s a).bind (exec · as)

def Reachable (m : Mode) (s : St) : Prop := ∃ as, exec (init m) as = some s

end Empty

end Verif.When
