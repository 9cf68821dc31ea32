import Verif.Sync.Mem

/-!
# Data races in `await` and `await_for` (include/stlab/concurrency/await.hpp, lines 54-133)

`Verif.Future.Await` says what the functions return. Here the question is which accesses to the variables that the waiting thread shares with the continuation are
ordered, and whether these variables exist when they are used. Thread 0 waits; any thread may resolve the future, and that thread runs the continuation, since
it is given to `immediate_executor` (thread 0 itself does if the future became ready before the continuation was attached).

Attaching the continuation, resolving the future, and asking whether it is ready are atomic and synchronise through the mutex or the atomic flag of the shared state
(`Verif.Future.Race`). A critical section is one step: waiting for the condition variable ends one critical section, and waking up, for any reason, begins the next.
-/

namespace Verif.Sync.Await

/-- The continuation. -/
inductive Cont where
  | none
  /-- attached by a thread that knew `c` -/
  | queued (c : Clock)
  /-- about to run on thread `t` -/
  | ready (t : Nat)
  /-- `await_for` only: owns a share of the guarded data (line 127) -/
  | owner (t : Nat)
  /-- `await_for` only: the result is set and the mutex is released (line 99) -/
  | stored (t : Nat)
  /-- `await_for` only: `set` returned -/
  | leaving (t : Nat)
  | done

/-- The thread that waits. -/
inductive Wait where
  | start
  /-- the variables are constructed -/
  | made
  /-- the continuation runs inside `recover` -/
  | nested
  /-- waits for the result -/
  | waiting
  /-- the wait is over -/
  | over
  /-- the function has returned -/
  | returned
  deriving DecidableEq, Repr

/-! ## `await` -/

namespace Plain

/-- The variables of lines 59-61. -/
inductive Loc where
  | m
  | condition
  | result
  deriving DecidableEq, Repr

def locs : List Loc := [.m, .condition, .result]

structure St where
  mem : Mem Loc
  /-- what `m` knows -/
  lm : Clock
  /-- when the future was resolved, and what that thread knew then -/
  resolved : Option (Stamp × Clock)
  wait : Wait
  cont : Cont
  /-- `result` has a value -/
  has : Bool

def init : St where
  mem := ⟨fun _ _ => 0, []⟩
  lm := fun _ => 0
  resolved := none
  wait := .start
  cont := .none
  has := false

inductive Act where
  /-- thread `t` does something else -/
  | work (t : Nat)
  /-- thread `t` synchronises with thread `u` in some way: `u` goes on after `t` -/
  | sync (t u : Nat)
  /-- thread `t` resolves the future -/
  | resolve (t : Nat)
  /-- lines 57-61 -/
  | start
  /-- line 63 -/
  | attach
  /-- lines 64-68 -/
  | run
  /-- lines 70-71: the thread that waits locks `m`, for the first time or after it woke up -/
  | look
  /-- the variables are destroyed -/
  | ret
  deriving DecidableEq, Repr

/-- The variables of `await` exist. -/
def alive : Wait → Bool
  | .start | .returned => false
  | _ => true

def step (s : St) : Act → Out St
  | .work t => .ok { s with mem := { s.mem with vc := tick s.mem.vc t } }
  | .sync t u => .ok { s with mem := { s.mem with vc := acquire s.mem.vc u (s.mem.vc t) } }
  | .resolve t =>
    match s.resolved with
    | some _ => .no
    | none =>
      let vc := tick s.mem.vc t
      let r := some (⟨t, s.mem.vc t t + 1⟩, vc t)
      match s.cont with
      | .queued c => .ok { s with mem := { s.mem with vc := acquire vc t c }, resolved := r, cont := .ready t }
      | _ => .ok { s with mem := { s.mem with vc := vc }, resolved := r }
  | .start =>
    match s.wait, s.resolved with
    -- line 57
    | .start, some (_, c) => .ok { s with mem := { s.mem with vc := acquire s.mem.vc 0 c }, wait := .returned }
    -- lines 59-61
    | .start, none => Mem.try_ (s.mem.accesses 0 (locs.map fun l => (l, true))) fun m => .ok { s with mem := m, wait := .made }
    | _, _ => .no
  | .attach =>
    match s.wait, s.resolved with
    | .made, some (_, c) => .ok { s with mem := { s.mem with vc := acquire s.mem.vc 0 c }, wait := .nested, cont := .ready 0 }
    | .made, none => .ok { s with wait := .waiting, cont := .queued (s.mem.vc 0) }
    | _, _ => .no
  | .run =>
    match s.cont with
    | .ready t =>
      if alive s.wait then
        Mem.try_ (s.mem.critical t .m s.lm [(.result, true), (.condition, false)]) fun (m, lm) =>
          .ok { s with mem := m, lm := lm, has := true, cont := .done, wait := if s.wait = .nested then .waiting else s.wait }
      else .ub
    | _ => .no
  | .look =>
    if s.wait = .waiting then
      if s.has then
        -- the result is moved from `result` before `m` is unlocked (line 72)
        Mem.try_ (s.mem.critical 0 .m s.lm [(.result, false), (.result, true)]) fun (m, lm) => .ok { s with mem := m, lm := lm, wait := .over }
      else Mem.try_ (s.mem.critical 0 .m s.lm [(.result, false), (.condition, false)]) fun (m, lm) => .ok { s with mem := m, lm := lm }
    else .no
  | .ret =>
    if s.wait = .over then
      Mem.try_ (s.mem.accesses 0 (locs.map fun l => (l, true))) fun m => .ok { s with mem := m, wait := .returned }
    else .no

inductive Reachable : St → Prop where
  | init : Reachable init
  | step {s s' : St} {a : Act} : Reachable s → step s a = .ok s' → Reachable s'

end Plain

/-! ## `await_for` -/

namespace Timed

/-- The members of `blocking_get_guarded` (lines 88-91). -/
inductive Loc where
  | timedOut
  | result
  | condition
  | mutex
  deriving DecidableEq, Repr

def locs : List Loc := [.timedOut, .result, .condition, .mutex]

structure St where
  mem : Mem Loc
  /-- what `_mutex` knows -/
  lm : Clock
  /-- what the number of owners of the guarded data knows -/
  rc : Clock
  resolved : Option (Stamp × Clock)
  wait : Wait
  cont : Cont
  /-- the number of owners -/
  owners : Nat
  timedOut : Bool
  /-- `_result` has a value -/
  has : Bool
  /-- `await_for` returns (or has returned) a result, not `hold` -/
  got : Bool
  /-- how often the members were destroyed -/
  destroyed : Nat

def init : St where
  mem := ⟨fun _ _ => 0, []⟩
  lm := fun _ => 0
  rc := fun _ => 0
  resolved := none
  wait := .start
  cont := .none
  owners := 0
  timedOut := false
  has := false
  got := false
  destroyed := 0

inductive Act where
  | work (t : Nat)
  | sync (t u : Nat)
  | resolve (t : Nat)
  /-- lines 122-124 -/
  | start
  /-- line 126 -/
  | attach
  /-- line 127: the continuation asks for a share of the data -/
  | lock
  /-- lines 95-99 -/
  | set
  /-- line 100 -/
  | notify
  /-- the continuation gives up its share -/
  | drop
  /-- lines 111-114: the thread that waits locks `_mutex`, for the first time or after it woke up; is the time over? -/
  | look (time : Bool)
  /-- `await_for` gives up its share (line 133) -/
  | ret
  deriving DecidableEq, Repr

/-- Thread `t` gives up a share of the data; the last owner destroys it. -/
def release (s : St) (t : Nat) : Out St :=
  let rc := join s.rc (s.mem.vc t)
  if s.owners = 1 then
    Mem.try_ (Mem.accesses { s.mem with vc := acquire s.mem.vc t rc } t (locs.map fun l => (l, true))) fun m =>
      .ok { s with mem := m, rc := rc, owners := 0, destroyed := s.destroyed + 1 }
  else .ok { s with rc := rc, owners := s.owners - 1 }

def Out.map (o : Out St) (f : St → St) : Out St :=
  match o with
  | .ok s => .ok (f s)
  | o => o

/-- The continuation is over. -/
def finish (s : St) : St := { s with cont := .done, wait := if s.wait = .nested then .waiting else s.wait }

def step (s : St) : Act → Out St
  | .work t => .ok { s with mem := { s.mem with vc := tick s.mem.vc t } }
  | .sync t u => .ok { s with mem := { s.mem with vc := acquire s.mem.vc u (s.mem.vc t) } }
  | .resolve t =>
    match s.resolved with
    | some _ => .no
    | none =>
      let vc := tick s.mem.vc t
      let r := some (⟨t, s.mem.vc t t + 1⟩, vc t)
      match s.cont with
      | .queued c => .ok { s with mem := { s.mem with vc := acquire vc t c }, resolved := r, cont := .ready t }
      | _ => .ok { s with mem := { s.mem with vc := vc }, resolved := r }
  | .start =>
    match s.wait, s.resolved with
    -- line 122
    | .start, some (_, c) => .ok { s with mem := { s.mem with vc := acquire s.mem.vc 0 c }, wait := .returned, got := true }
    -- line 124
    | .start, none =>
      Mem.try_ (s.mem.accesses 0 (locs.map fun l => (l, true))) fun m => .ok { s with mem := m, wait := .made, owners := 1 }
    | _, _ => .no
  | .attach =>
    match s.wait, s.resolved with
    | .made, some (_, c) => .ok { s with mem := { s.mem with vc := acquire s.mem.vc 0 c }, wait := .nested, cont := .ready 0 }
    | .made, none => .ok { s with wait := .waiting, cont := .queued (s.mem.vc 0) }
    | _, _ => .no
  | .lock =>
    match s.cont with
    | .ready t => if s.owners = 0 then .ok (finish s) else .ok { s with cont := .owner t, owners := s.owners + 1 }
    | _ => .no
  | .set =>
    match s.cont with
    | .owner t =>
      if s.destroyed ≠ 0 then .ub
      else if s.timedOut then
        Mem.try_ (s.mem.critical t .mutex s.lm [(.timedOut, false)]) fun (m, lm) => .ok { s with mem := m, lm := lm, cont := .leaving t }
      else
        Mem.try_ (s.mem.critical t .mutex s.lm [(.timedOut, false), (.result, true)]) fun (m, lm) =>
          .ok { s with mem := m, lm := lm, has := true, cont := .stored t }
    | _ => .no
  | .notify =>
    match s.cont with
    | .stored t =>
      if s.destroyed ≠ 0 then .ub
      else Mem.try_ (s.mem.access t .condition false) fun m => .ok { s with mem := m, cont := .leaving t }
    | _ => .no
  | .drop =>
    match s.cont with
    | .leaving t => Out.map (release s t) finish
    | _ => .no
  | .look time =>
    if s.wait = .waiting then
      if s.destroyed ≠ 0 then .ub
      else if s.has then
        Mem.try_ (s.mem.critical 0 .mutex s.lm [(.result, false), (.timedOut, true), (.timedOut, false), (.result, true)]) fun (m, lm) =>
          .ok { s with mem := m, lm := lm, wait := .over, timedOut := false, got := true }
      else if time then
        Mem.try_ (s.mem.critical 0 .mutex s.lm [(.result, false), (.timedOut, true), (.timedOut, false)]) fun (m, lm) =>
          .ok { s with mem := m, lm := lm, wait := .over, timedOut := true }
      else Mem.try_ (s.mem.critical 0 .mutex s.lm [(.result, false), (.condition, false)]) fun (m, lm) => .ok { s with mem := m, lm := lm }
    else .no
  | .ret => if s.wait = .over then Out.map (release s 0) fun s => { s with wait := .returned } else .no

inductive Reachable : St → Prop where
  | init : Reachable init
  | step {s s' : St} {a : Act} : Reachable s → step s a = .ok s' → Reachable s'

end Timed

end Verif.Sync.Await
