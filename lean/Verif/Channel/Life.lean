import Verif.Small.Handles

/-!
# Processes, who owns them, and attaching processes to receivers (include/stlab/concurrency/channel.hpp)

Any graph of processes that a program builds with `channel` (lines 1264-1285), `operator|` of a receiver (lines 1509-1538)
and `zip_with`, `zip`, `merge_channel` (`merge_helper`, lines 1240-1254), together with any history of its receivers. The
receivers and their counts are those of `Small/Handles`.

A process is owned by the receivers that have it in `_p` (line 1453), by the processes that have it in `_upstream` (line 757)
and, for a time, by a caller that has locked a weak pointer to it (lines 945, 969, 1029, 1053, 1125, 1572, 1576, 1601, 1608, 1614). It is destroyed
with its last owner. Senders have weak pointers (line 1555).

What a process does with its messages is left open here: it may start if its count of receivers is 0 and may then broadcast
anything (so there are more executions than in the code). A broadcast is one step, and so is the destruction of a process
with all that it owned. `map` is called with the process alive.
-/

namespace Verif.Life

open Handles (Handle)

/-- What of a `shared_process` matters here. -/
structure Proc where
  /-- the result is neither copyable nor `void`, lines 687-688 -/
  mo : Bool
  /-- the object exists -/
  alive : Bool
  /-- `_upstream`, line 757 -/
  up : List Nat
  /-- `_downstream`: the process and the index of the sender, lines 735, 659, 689; for results that cannot be
  copied there is at most one -/
  down : List (Nat × Nat)
  /-- `_sender_count`, line 752 -/
  snd : Nat
  /-- `_process_running` has been set once -/
  started : Bool
  /-- `_process_final` and `_downstream.clear()`, lines 821-825 -/
  closed : Bool
  /-- everything that has been appended to `_queue`, with the index of the sender -/
  inbox : List (Nat × Nat)
  /-- everything that has been broadcast -/
  outs : List Nat
  deriving DecidableEq, Repr

def Proc.none : Proc := ⟨false, false, [], [], 0, false, false, [], []⟩

structure St where
  hs : Handles.St
  pr : Nat → Proc
  /-- locked weak pointers -/
  locks : List (Option Nat)

/-- The number of processes that have been made. -/
def St.n (s : St) : Nat := s.hs.cnt.length

/-- What a process has as result. -/
inductive Kind where
  | copyable
  | moveOnly
  | void
  deriving DecidableEq, Repr

inductive Op where
  /-- `channel<T>(executor)`, lines 1264-1285 -/
  | chan (res : Kind)
  /-- default construction, copy, move, assignment, `swap`, `set_ready`, destruction of receivers, lines 1472-1497 -/
  | obj (a : Handles.Op)
  /-- `r | f`, lines 1509-1520, where `f` has such results -/
  | pipe (i : Nat) (res : Kind)
  /-- `merge_helper`, lines 1240-1254 -/
  | merge (is : List Nat) (res : Kind)
  /-- a weak pointer is locked: by a job of the executor (line 1125) or by a sender (line 1608) -/
  | lock (p : Nat)
  /-- the result of the lock goes out of scope -/
  | unlock (k : Nat)
  /-- a copy of the sender of a channel, lines 1575-1577 -/
  | addSender (p : Nat)
  /-- a sender of a channel is closed or destroyed, lines 1571-1573, 1600-1604 -/
  | removeSender (p : Nat)
  /-- a call of a sender of a channel, lines 1606-1610 -/
  | send (p v : Nat)
  /-- the process is run for the first time, lines 600-609, 614-624, 791-800 -/
  | start (p : Nat)
  /-- `broadcast`, lines 1130-1164 -/
  | emit (p v : Nat)
  /-- the end of `task_done` if `_process_final`, lines 821-825 -/
  | finish (p : Nat)
  deriving DecidableEq, Repr

inductive Err where
  | brokenChannel
  | processAlreadyRunning
  deriving DecidableEq, Repr

inductive Out where
  | ok (s : St)
  /-- an exception -/
  | error (e : Err)
  /-- undefined behaviour: a null pointer is dereferenced or an assertion fails -/
  | ub
  /-- not a call that this state allows -/
  | invalid

def upd (f : Nat → Proc) (p : Nat) (x : Proc) : Nat → Proc := fun q => if q = p then x else f q

/-- Some owner of the process exists. -/
def owned (s : St) (p : Nat) : Bool :=
  s.hs.objs.any (fun o => match o with
    | some h => h.p == some p
    | none => false) ||
  s.locks.any (· == some p) ||
  (List.range s.n).any fun q => (s.pr q).alive && (s.pr q).up.contains p

/-- The senders in `_downstream` are destroyed: those to processes that exist take themselves off `_sender_count`,
lines 1571-1573 and 598-600. -/
def dropSenders (d : List (Nat × Nat)) (f : Nat → Proc) : Nat → Proc := fun q =>
  if (f q).alive then { f q with snd := (f q).snd - d.countP (·.1 == q) } else f q

/-- The senders in `_downstream` are called in order: those to processes that exist enqueue the value, lines 670-673,
700-703, 1606-1610 and 613-629. -/
def deliver (d : List (Nat × Nat)) (v : Nat) (f : Nat → Proc) : Nat → Proc := fun q =>
  if (f q).alive then { f q with inbox := (f q).inbox ++ (d.filter (·.1 == q)).map fun e => (e.2, v) } else f q

/-- The destructor of process `p` except for `_upstream`. -/
def kill (s : St) (p : Nat) : St :=
  { s with pr := dropSenders (s.pr p).down (upd s.pr p { s.pr p with alive := false, down := [] }) }

/-- An owner of process `p` is gone: if it was the last then `p` is destroyed, and with it `_upstream`. -/
def release : Nat → St → Nat → St
  | 0, s, _ => s
  | f + 1, s, p => if (s.pr p).alive && !owned s p then (s.pr p).up.foldl (release f) (kill s p) else s

/-- The process that an operation takes from a receiver without giving it to another. -/
def lost (s : Handles.St) : Handles.Op → List Nat
  | .assign _ j => ((s.get j).bind (·.p)).toList
  | .moveAssign i j => if i = j then [] else ((s.get j).bind (·.p)).toList
  | .destroy i => ((s.get i).bind (·.p)).toList
  | _ => []

/-- A new process with a receiver. -/
def add (s : St) (res : Kind) (x : Proc) : St :=
  { s with
    hs := { objs := s.hs.objs ++ [some ⟨some s.n, false⟩], cnt := s.hs.cnt ++ [if res = .void then none else some 1] }
    pr := upd s.pr s.n x }

/-- `map(sender<T>(q))` for the upstream processes in order, lines 1166-1175, 1215-1221: `append_receiver`,
lines 661-664, adds the sender, but lines 692-694 replace the one that is there, by the move assignment of senders, line 1646,
which tells the process of the old one nothing. -/
def map (q : Nat) : List Nat → Nat → (Nat → Proc) → (Nat → Proc)
  | [], _, f => f
  | p :: ps, k, f => map q ps (k + 1) (upd f p { f p with down := (if (f p).mo then [] else (f p).down) ++ [(q, k)] })

/-- A process with the upstream processes `ps`: lines 768-776, 1515-1519, 1244-1253. -/
def attach (s : St) (ps : List Nat) (res : Kind) : St :=
  let t := add s res ⟨res == .moveOnly, true, ps, [], ps.length, false, false, [], []⟩
  { t with pr := map s.n ps 0 t.pr }

/-- The processes of receivers; nothing if one is not there, `none` if one has no process. -/
def targets (s : Handles.St) : List Nat → Option (Option (List Nat))
  | [] => some (some [])
  | i :: is => match s.get i, targets s is with
    | some h, some (some ps) => match h.p with
      | some p => some (some (p :: ps))
      | none => some none
    | some _, some none => some none
    | _, _ => none

def isObj : Handles.Op → Bool
  | .make _ => false
  | .close _ => false
  | _ => true

/-- The process runs or may be started: `_receiver_count` is 0, and stays 0 if the result is `void`. -/
def idle (s : St) (p : Nat) : Bool :=
  match s.hs.cnt[p]? with
  | some (some c) => c == 0
  | some none => true
  | none => false

def step (s : St) : Op → Out
  | .chan v => .ok (add s v ⟨v == .moveOnly, true, [], [], if v = .void then 0 else 1, false, false, [], []⟩)
  | .obj a => if isObj a then
      match Handles.step s.hs a with
      | .ok h => .ok ((lost s.hs a).foldl (release s.n) { s with hs := h })
      | .ub => .ub
      | .invalid => .invalid
    else .invalid
  | .pipe i v => match s.hs.get i with
    | none => .invalid
    | some h => match h.p with
      | none => .error .brokenChannel
      | some p => if h.ready then .error .processAlreadyRunning else .ok (attach s [p] v)
  | .merge is v => match targets s.hs is with
    | none => .invalid
    | some none => .ub
    | some (some ps) => if ps = [] then .invalid else .ok (attach s ps v)
  | .lock p => if (s.pr p).alive then .ok { s with locks := s.locks ++ [some p] } else .invalid
  | .unlock k => match s.locks[k]? with
    | some (some p) => .ok (release s.n { s with locks := s.locks.set k none } p)
    | _ => .invalid
  | .addSender p => if (s.pr p).up = [] ∧ 0 < (s.pr p).snd then
      .ok { s with pr := upd s.pr p { s.pr p with snd := (s.pr p).snd + 1 } } else .invalid
  | .removeSender p => if (s.pr p).up = [] ∧ 0 < (s.pr p).snd then
      .ok { s with pr := upd s.pr p { s.pr p with snd := (s.pr p).snd - 1 } } else .invalid
  | .send p v => if (s.pr p).up = [] ∧ 0 < (s.pr p).snd then
      .ok (if (s.pr p).alive then { s with pr := upd s.pr p { s.pr p with inbox := (s.pr p).inbox ++ [(0, v)] } } else s)
    else .invalid
  | .start p => if (s.pr p).alive ∧ idle s p then .ok { s with pr := upd s.pr p { s.pr p with started := true } }
    else .invalid
  | .emit p v => if (s.pr p).alive ∧ (s.pr p).started ∧ ¬(s.pr p).closed then
      .ok { s with pr := deliver (s.pr p).down v (upd s.pr p { s.pr p with outs := (s.pr p).outs ++ [v] }) }
    else .invalid
  | .finish p => if (s.pr p).alive ∧ (s.pr p).started ∧ ¬(s.pr p).closed ∧ (s.pr p).snd = 0 then
      .ok { s with pr := dropSenders (s.pr p).down (upd s.pr p { s.pr p with closed := true, down := [] }) }
    else .invalid

/-- An exception leaves the program where it was. -/
def exec (s : St) : List Op → Out
  | [] => .ok s
  | a :: as => match step s a with
    | .ok t => exec t as
    | .error _ => exec s as
    | .ub => .ub
    | .invalid => .invalid

def init : St := ⟨Handles.init, fun _ => .none, []⟩

def Reachable (s : St) : Prop := ∃ as, exec init as = .ok s

end Verif.Life
