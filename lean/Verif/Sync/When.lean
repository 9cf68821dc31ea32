import Verif.Sync.Clock

/-!
# Data races in when_all and when_any (include/stlab/concurrency/future.hpp, lines 1063-1562)

`Verif.Future.When` says what `when_all` and `when_any` deliver. The arguments are resolved on different threads, and what arrives is
kept in a context object shared by the continuations of the arguments: members are written under `_guard`, and read by the
function that makes the result after `_guard` was unlocked. This model asks which of these accesses are ordered, with clocks (`Verif.Sync.Clock`).

The context is `when_all_shared` (lines 1063-1100), `when_any_shared` (1102-1144), its variant for `void` (1146-1186), or `common_context`
(1474-1499) with `single_trigger` and `all_trigger` (1423-1472) for ranges. Each critical section of `_guard` is one step.

A continuation of an argument is run after it was attached and after the argument was resolved: whoever gives it to the executor has locked the mutex of
the argument after both (lines 353-357, 388-396), see `Verif.Future.Race`. A function that the executor runs at once, on the calling thread, is one run by another thread
here, with less order between the threads. Continuations may be dropped: nothing has to happen here.

The context is destroyed by the last owner, who knows what the other owners did: the counts of `std::shared_ptr` are acquire-release. The owners are the
call of `when_all` or `when_any`, the continuations that run, and the task that makes the result (lines 1256-1257, 1530).
-/

namespace Verif.Sync.When

inductive Variant where
  /-- `when_all` of futures -/
  | packAll
  /-- `when_any` of futures -/
  | packAny
  /-- `when_any` of `future<void>`s -/
  | packAnyVoid
  /-- `when_all` of a range -/
  | rangeAll
  /-- `when_any` of a range -/
  | rangeAny
  deriving DecidableEq, Repr

inductive Loc where
  /-- `_args` at `i`, `_results[i]`; `_arg` and `_results` of `when_any` are `arg 0` -/
  | arg (i : Nat)
  /-- `_exception` -/
  | exc
  /-- `_index` -/
  | index
  /-- `_remaining` -/
  | remaining
  /-- `_single_event` -/
  | single
  /-- `_holds[i]` -/
  | hold (i : Nat)
  /-- `_f` -/
  | task
  deriving DecidableEq, Repr

structure Access where
  loc : Loc
  write : Bool
  stamp : Stamp
  deriving DecidableEq, Repr

/-- The members of the context, as far as they matter. -/
structure Data where
  /-- the arguments stored -/
  args : Nat → Bool
  /-- the argument whose error is in `_exception` -/
  exc : Option Nat
  /-- the argument whose result `when_any` has -/
  index : Option Nat
  remaining : Nat
  single : Bool

/-- Lines 1066-1071, 1106-1112, 1476-1481. -/
def Data.init (n : Nat) : Data := ⟨fun _ => false, none, none, n, false⟩

/-- What a critical section does: its accesses, the members after it, and `run`. -/
structure Sect where
  acc : List (Loc × Bool)
  data : Data
  run : Bool

/-- All other futures held are reset (lines 1430-1432). -/
def others (n i : Nat) : List (Loc × Bool) := ((List.range n).filter (· ≠ i)).map fun j => (.hold j, true)

/-- The critical section of `done` or `failure` (argument `i` has a result or an error). -/
def sect (v : Variant) (n : Nat) (d : Data) (i : Nat) (ok : Bool) : Sect :=
  match v, ok with
  -- lines 1078-1082
  | .packAll, true =>
    if d.exc.isSome then ⟨[(.exc, false)], d, false⟩
    else ⟨[(.exc, false), (.arg i, true), (.remaining, true)],
      { d with args := upd d.args i true, remaining := d.remaining - 1 }, d.remaining = 1⟩
  -- lines 1090-1096
  | .packAll, false =>
    if d.exc.isSome then ⟨[(.exc, false)], d, false⟩
    else ⟨(.exc, false) :: (List.range n).map (fun j => (.hold j, true)) ++ [(.exc, true)], { d with exc := some i }, true⟩
  -- lines 1130-1135
  | .packAny, true =>
    if d.index.isSome then ⟨[(.index, false)], d, false⟩
    else ⟨[(.index, false), (.arg 0, true), (.index, true)], { d with args := upd d.args 0 true, index := some i }, true⟩
  -- lines 1173-1177
  | .packAnyVoid, true =>
    if d.index.isSome then ⟨[(.index, false)], d, false⟩
    else ⟨[(.index, false), (.index, true)], { d with index := some i }, true⟩
  -- lines 1117-1121, 1159-1165
  | .packAny, false | .packAnyVoid, false =>
    if d.remaining = 1 then ⟨[(.remaining, true), (.exc, true)], { d with remaining := 0, exc := some i }, true⟩
    else ⟨[(.remaining, true)], { d with remaining := d.remaining - 1 }, false⟩
  -- lines 1452-1456, 1327-1329
  | .rangeAll, true =>
    ⟨[(.arg i, true), (.remaining, true)], { d with args := upd d.args i true, remaining := d.remaining - 1 }, d.remaining = 1⟩
  -- lines 1428-1436, 1392
  | .rangeAll, false =>
    if d.single then ⟨[(.single, false)], d, false⟩
    else ⟨(.single, false) :: others n i ++ [(.single, true), (.exc, true)], { d with single := true, exc := some i }, true⟩
  -- lines 1428-1436, 1318-1321
  | .rangeAny, true =>
    if d.single then ⟨[(.single, false)], d, false⟩
    else ⟨(.single, false) :: others n i ++ [(.single, true), (.arg 0, true), (.index, true)],
      { d with single := true, args := upd d.args 0 true, index := some i }, true⟩
  -- lines 1463-1468
  | .rangeAny, false =>
    if d.remaining = 1 then ⟨[(.remaining, true), (.exc, true)], { d with remaining := 0, exc := some i }, true⟩
    else ⟨[(.remaining, true)], { d with remaining := d.remaining - 1 }, false⟩

/-- What the function that makes the result does before it calls the user's function: the accesses, and whether it calls it (`true`) or throws the error.
`none`: undefined behaviour (no error to throw, or no result). The results are moved out of the context. -/
def exec (v : Variant) (n : Nat) (d : Data) : Option (List (Loc × Bool) × Bool) :=
  match v with
  -- lines 1193-1199
  | .packAll =>
    match (List.range n).find? fun i => !d.args i with
    | some i =>
      if d.exc.isSome then some (((List.range (i + 1)).map fun j => (.arg j, false)) ++ [(.exc, false)], false) else none
    | none => some (((List.range n).map fun j => (.arg j, false)) ++ (List.range n).map fun j => (.arg j, true), true)
  -- lines 1208-1214, 1141-1143
  | .packAny =>
    if d.exc.isSome then some ([(.exc, false)], false)
    else if d.args 0 then some ([(.exc, false), (.arg 0, true), (.index, false)], true)
    else none
  -- lines 1208-1214, 1183-1185
  | .packAnyVoid => if d.exc.isSome then some ([(.exc, false)], false) else some ([(.exc, false), (.index, false)], true)
  -- lines 1484-1489, 1361-1366
  | .rangeAll =>
    if d.exc.isSome then some ([(.exc, false)], false) else some ((.exc, false) :: (List.range n).map (fun j => (.arg j, true)), true)
  -- lines 1484-1489, 1353-1358
  | .rangeAny =>
    if d.exc.isSome then some ([(.exc, false)], false) else some ([(.exc, false), (.arg 0, true), (.index, false)], true)

inductive Pc where
  | none
  /-- in the continuation of argument `i` (lines 1220-1227, 1507-1513) -/
  | cont (i : Nat) (ok : Bool)
  /-- about to call `_f` -/
  | decided
  /-- in the function that makes the result -/
  | making
  /-- about to return from the continuation -/
  | leaving
  deriving DecidableEq, Repr

structure St where
  vc : Nat → Clock
  /-- the clock of `_guard` -/
  lm : Clock
  /-- the thread that is in `_f()` and has locked `_guard` (line 1166) -/
  holder : Option Nat
  data : Data
  pc : Nat → Pc
  /-- arguments resolved: result or error, and when -/
  resolved : Nat → Option (Bool × Stamp)
  /-- what the thread knew that resolved it -/
  rvc : Nat → Clock
  /-- arguments with continuation, and what thread 0 knew -/
  attached : Nat → Option Clock
  started : List Nat
  /-- the arguments whose critical section is done, in order -/
  entered : List (Nat × Bool)
  /-- the owners of the context: the call of `when_all`, the task, and the threads in continuations -/
  creating : Bool
  task : Bool
  runners : List Nat
  /-- what the owners knew that are none any more -/
  rc : Clock
  /-- a thread is in the function that makes the result -/
  busy : Bool
  /-- the calls of it: whether the user's function was called, and what the thread knew -/
  begun : List (Bool × Clock)
  destroyed : Bool
  acc : List Access

/-- All members. -/
def locs (n : Nat) : List Loc :=
  .exc :: .index :: .remaining :: .single :: .task :: .arg 0 :: ((List.range n).map .arg ++ (List.range n).map .hold)

/-- Thread 0 has made the context and the task (lines 1255-1258, 1529-1532), and will attach the continuations. -/
def init (n : Nat) : St where
  vc := tick (fun _ _ => 0) 0
  lm := fun _ => 0
  holder := none
  data := .init n
  pc := fun _ => .none
  resolved := fun _ => none
  rvc := fun _ _ => 0
  attached := fun _ => none
  started := []
  entered := []
  creating := true
  task := true
  runners := []
  rc := fun _ => 0
  busy := false
  begun := []
  destroyed := false
  acc := (locs n).map fun l => ⟨l, true, ⟨0, 1⟩⟩

inductive Act where
  /-- thread `t` does something else -/
  | work (t : Nat)
  /-- thread `t` synchronises with thread `u` in some way: `u` goes on after `t` -/
  | sync (t u : Nat)
  /-- thread `t` resolves argument `i` -/
  | resolve (t i : Nat) (ok : Bool)
  /-- thread 0 attaches the continuation of argument `i` (lines 1218-1228, 1505-1514) -/
  | attach (i : Nat)
  /-- thread 0 stores the future of it (lines 1229-1230, 1516-1517) -/
  | hold (i : Nat)
  /-- thread 0 returns the future of the result (lines 1262, 1281, 1301, 1539, 1559) -/
  | created
  /-- the executor lets thread `t` run the continuation of argument `i` -/
  | start (t i : Nat)
  /-- the next step of thread `t` in a continuation -/
  | next (t : Nat)
  /-- thread `t` destroys the task: the result is there, or nobody wants it -/
  | drop (t : Nat)
  deriving DecidableEq, Repr

inductive Out where
  | no
  | ub
  /-- data race -/
  | race
  | ok (s : St)

def Out.bind : Out → (St → Out) → Out
  | .ok s, f => f s
  | o, _ => o

/-- Thread `t` reads or writes a member. -/
def access (s : St) (t : Nat) (l : Loc) (w : Bool) : Out :=
  if s.acc.any fun a => a.loc = l && (a.write || w) && ¬ a.stamp.le (s.vc t) then .race
  else .ok { s with vc := tick s.vc t, acc := ⟨l, w, ⟨t, s.vc t t + 1⟩⟩ :: s.acc }

def accesses (s : St) (t : Nat) : List (Loc × Bool) → Out
  | [] => .ok s
  | l :: ls => (access s t l.1 l.2).bind fun s => accesses s t ls

def lock (s : St) (t : Nat) : St := { s with vc := acquire s.vc t s.lm }

def unlock (s : St) (t : Nat) : St := { s with lm := join s.lm (s.vc t) }

/-- Thread `t` gives up a share of the context; `s` is the state without it. The last one destroys the context. -/
def release (n : Nat) (s : St) (t : Nat) : Out :=
  let s := { s with rc := join s.rc (s.vc t) }
  if s.creating || s.task || !s.runners.isEmpty then .ok s
  else accesses { s with vc := acquire s.vc t s.rc, destroyed := true } t ((locs n).map fun l => (l, true))

def step (v : Variant) (n : Nat) (s : St) : Act → Out
  | .work t => .ok { s with vc := tick s.vc t }
  | .sync t u => .ok { s with vc := acquire s.vc u (s.vc t) }
  | .resolve t i ok =>
    if s.resolved i = none then
      .ok { s with vc := tick s.vc t, resolved := upd s.resolved i (some (ok, ⟨t, s.vc t t + 1⟩)), rvc := upd s.rvc i (tick s.vc t t) }
    else .no
  | .attach i =>
    if s.creating ∧ i < n ∧ s.attached i = none then .ok { s with attached := upd s.attached i (some (s.vc 0)) } else .no
  | .hold i =>
    if s.creating ∧ i < n ∧ s.holder = none then
      (accesses (lock s 0) 0 [(.hold i, true)]).bind fun s => .ok (unlock s 0)
    else .no
  | .created => if s.creating then release n { s with creating := false } 0 else .no
  | .start t i =>
    match s.resolved i, s.attached i with
    | some (ok, _), some c =>
      if s.pc t = .none ∧ i ∉ s.started ∧ s.destroyed = false then
        .ok { s with vc := acquire (acquire s.vc t (s.rvc i)) t c, pc := upd s.pc t (.cont i ok), started := i :: s.started,
                     runners := t :: s.runners }
      else .no
    | _, _ => .no
  | .next t =>
    match s.pc t with
    | .none => .no
    | .cont i ok =>
      if s.holder = none then
        let r := sect v n s.data i ok
        (accesses (lock s t) t r.acc).bind fun s =>
          let s := { s with data := r.data, entered := s.entered ++ [(i, ok)], pc := upd s.pc t (if r.run then .decided else .leaving) }
          -- line 1159: the lock is released at the end of the function
          if v = .packAnyVoid ∧ ok = false ∧ r.run = true then .ok { s with holder := some t } else .ok (unlock s t)
      else .no
    | .decided =>
      -- `_f()`: `_p.lock()`, `_p.reset()`, and the task (lines 670-674)
      (access s t .task true).bind fun s =>
        if s.task then
          match exec v n s.data with
          | none => .ub
          | some (ls, b) =>
            (accesses s t ls).bind fun s => .ok { s with begun := s.begun ++ [(b, s.vc t)], busy := true, pc := upd s.pc t .making }
        else .ok { s with pc := upd s.pc t .making }
    | .making =>
      let s := { s with busy := false, pc := upd s.pc t .leaving }
      if s.holder = some t then .ok { unlock s t with holder := none } else .ok s
    | .leaving => release n { s with pc := upd s.pc t .none, runners := s.runners.erase t } t
  | .drop t => if s.task ∧ s.busy = false ∧ 1 ≤ s.vc t 0 then release n { s with task := false } t else .no

inductive Reachable (v : Variant) (n : Nat) : St → Prop where
  | init : Reachable v n (init n)
  | step {s s' : St} {a : Act} : Reachable v n s → step v n s a = .ok s' → Reachable v n s'

end Verif.Sync.When
