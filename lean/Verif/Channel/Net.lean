/-!
# Networks of channel processes (include/stlab/concurrency/channel.hpp)

Transition system of any network of function processes (processes without `yield`, lines 1091-1121): `channel()`
(lines 1264-1273), `receiver::operator|` (lines 1509-1538) and the merges `zip_with`, `merge_channel<round_robin_t>`,
`merge_channel<unordered_t>` (lines 1240-1254), with any buffer sizes, any number of sender and receiver objects, and any
number of threads. Every critical section and every access to an atomic counter is one step.

The network `Net` is given; it may be any that these functions can build. It is complete before the state is considered:
`operator|` throws if its receiver is ready, and nothing flows through a process as long as some receiver is not.

Simplifications:
* the call of the executor that follows a critical section is part of it (a later call is the same as an executor that
  takes longer);
* the processes are alive as long as the state is considered: the receivers of the last processes are kept, or are the
  owners of the whole network;
* the result of the function of a process is chosen by the environment, so functions may have state; it may be an
  exception;
* ghost fields (`owed`, `sown`, `main`, `rdyJob`, `clsJob`, `clr`, `inp`, `pops`, `calls`, `outs`) record history and are not
  read by any step.
-/

namespace Verif.Channel

/-- `std::variant<T, std::exception_ptr>` (line 404). -/
inductive Msg where
  | val (v : Nat)
  | err
  deriving DecidableEq, Repr

/-- The queue strategies, lines 401-582. -/
inductive Strat where
  | dflt
  | zip
  | rr
  | unord
  deriving DecidableEq, Repr

/-- `std::numeric_limits<std::size_t>::max()` -/
def sizeMax : Nat := 2 ^ 64 - 1

/-- Subtraction of `std::size_t`. -/
def usub (a b : Nat) : Nat := if b ≤ a then a - b else 2 ^ 64 - (b - a)

/-- A slot of a downstream process: the process and the index of the queue. -/
abbrev Edge := Nat × Nat

/-- A network. -/
structure Net where
  strat : Nat → Strat
  /-- `sizeof...(Args)` -/
  slots : Nat → Nat
  /-- `_upstream` (line 757); nothing for a process made by `channel()` -/
  up : Nat → Nat → Option Nat
  /-- `_downstream` (line 735) after all calls of `map` -/
  down : Nat → List Edge
  /-- `_process_buffer_size` (line 755) -/
  buf : Nat → Nat
  /-- the number of receivers, `_receiver_count` (line 753), when the network is complete -/
  recv : Nat → Nat

/-- What `channel()`, `operator|` and the merges build: every process has its upstream processes made before. -/
structure Net.Wf (G : Net) : Prop where
  edges : ∀ i d k, (d, k) ∈ G.down i ↔ G.up d k = some i ∧ k < G.slots d
  nodup : ∀ i, (G.down i).Nodup
  order : ∀ i d k, G.up d k = some i → i < d
  slots : ∀ i, 0 < G.slots i
  dflt : ∀ i, G.strat i = .dflt → G.slots i = 1
  head : ∀ i k, k < G.slots i → G.up i k = none → G.strat i = .dflt

/-- A sender object: one of the user, or the one that process `i` holds for slot `k`. -/
inductive SOwner where
  | ext (n : Nat)
  | up (i k : Nat)
  deriving DecidableEq, Repr

/-- What a suspended process waits for: the end of its own broadcast, or a downstream slot. -/
inductive Credit where
  | own
  | edge (d k : Nat)
  deriving DecidableEq, Repr

/-- The messages given to one invocation, with the slots they come from. -/
abbrev Args := List (Nat × Msg)

/-- Where a thread is that runs a step of process `i`, or removes a sender or a receiver. -/
inductive Pc where
  | none
  /-- given to the executor (lines 1123-1128), or at the begin of `step` (line 1098) -/
  | pop (i : Nat)
  /-- about to call `clear_to_send` for the upstream of the first of `ks` (lines 1101-1104), at line 829 -/
  | cts1 (i : Nat) (ks : List Nat) (m : Option Args)
  /-- the same, at line 838 -/
  | cts2 (i : Nat) (ks : List Nat) (m : Option Args)
  /-- ended in lines 1107-1109, as there is an error among the messages: nothing of the process is left to run, but it stays
  marked as running -/
  | dead (i : Nat) (m : Args)
  /-- about to call the function (line 1113) -/
  | call (i : Nat) (m : Args)
  /-- in the function -/
  | busy (i : Nat)
  /-- in `broadcast` at line 1139 -/
  | bcast (i : Nat) (r : Msg)
  /-- in `minimum_free_buffer` (lines 675-683) with the rest of the senders and the minimum so far -/
  | free (i : Nat) (r : Msg) (rest : List Edge) (acc : Nat)
  /-- at line 1145 with the decision whether to suspend -/
  | susp (i : Nat) (r : Msg) (b : Bool)
  /-- in `_downstream.send` (line 1160) with the rest of the senders -/
  | send (i : Nat) (r : Msg) (rest : List Edge)
  /-- in the call of `clear_to_send` at line 1162, at line 829 -/
  | own1 (i : Nat)
  /-- the same, at line 838 -/
  | own2 (i : Nat)
  /-- in `task_done` (line 810) -/
  | taskDone (i : Nat)
  /-- destroying senders (lines 822, 1571-1573), at line 600 -/
  | clear (rest : List (Nat × SOwner))
  /-- in `remove_sender` at line 603 for process `d`; more senders to be destroyed afterwards -/
  | close2 (d : Nat) (rest : List (Nat × SOwner))
  /-- in `remove_receiver` at line 794 -/
  | ready2 (i : Nat)
  deriving DecidableEq, Repr

structure St where
  /-- `_queue` -/
  q : Nat → Nat → List Msg
  /-- `_index` of round robin (line 485) -/
  idx : Nat → Nat
  /-- `_process_running` -/
  running : Nat → Bool
  /-- `_process_suspend_count` -/
  susp : Nat → Nat
  /-- `_process_close_queue` -/
  closeQ : Nat → Bool
  /-- `_process_final` -/
  final : Nat → Bool
  /-- `_sender_count` -/
  snd : Nat → Nat
  /-- `_receiver_count` -/
  rcv : Nat → Nat
  /-- `_downstream` -/
  down : Nat → List Edge
  pc : Nat → Pc
  next : Nat
  /-- what process `i` waits for -/
  owed : Nat → List Credit
  /-- the sender objects for process `i` -/
  sown : Nat → List SOwner
  /-- the last thread started for process `i`, unless it has finished -/
  main : Nat → Option Nat
  /-- the thread in `remove_receiver` -/
  rdyJob : Nat → Option Nat
  /-- the thread in `remove_sender` -/
  clsJob : Nat → Option Nat
  /-- the thread that destroys the senders of a closed process -/
  clr : Nat → Option Nat
  /-- all messages sent to a slot -/
  inp : Nat → Nat → List Msg
  /-- all messages taken out of the queue, one entry for each `pop_from_queue` that found some -/
  pops : Nat → List Args
  /-- the arguments of all calls of the function -/
  calls : Nat → List Args
  /-- all results of the function -/
  outs : Nat → List Msg

def upd {α : Type} (f : Nat → α) (k : Nat) (x : α) : Nat → α := fun i => if i = k then x else f i

/-- `empty()` of the queue: lines 408, 439-441, 489-491, 543-545. -/
def emptyQ (st : Strat) (n idx : Nat) (q : Nat → List Msg) : Bool :=
  match st with
  | .dflt => q 0 = []
  | .zip => (List.range n).any fun k => q k = []
  | .rr => q idx = []
  | .unord => (List.range n).all fun k => q k = []

/-- The queues that `front` and `pop_front` take a message of: lines 410-412, 443-455, 493-503, 547-557. -/
def popSlots (st : Strat) (n idx : Nat) (q : Nat → List Msg) : List Nat :=
  match st with
  | .dflt => [0]
  | .zip => List.range n
  | .rr => [idx]
  | .unord => ((List.range n).find? fun k => q k ≠ []).toList

/-- `front` -/
def popMsg (ks : List Nat) (q : Nat → List Msg) : Args := ks.filterMap fun k => (q k).head?.map fun m => (k, m)

/-- `pop_front` -/
def popQ (ks : List Nat) (q : Nat → List Msg) : Nat → List Msg := fun k => if k ∈ ks then (q k).tail else q k

/-- `pop_front` of round robin, lines 500-502. -/
def popIdx (st : Strat) (n idx : Nat) : Nat :=
  match st with
  | .rr => if idx + 1 = n then 0 else idx + 1
  | _ => idx

/-- `do_cts`, lines 866-868, with `size()` of the queue, lines 414, 457-462, 505-516, 559-571; only the slots that have an
upstream process (line 1102). -/
def ctsSlots (st : Strat) (n : Nat) (buf : Nat) (ks : List Nat) (up : Nat → Option Nat) (q : Nat → List Msg) : List Nat :=
  (List.range n).filter fun k =>
    (if st = .dflt ∨ st = .zip ∨ k ∈ ks then (q k).length else sizeMax) ≤ usub buf 1 ∧ up k ≠ none

/-- `free_buffer`, lines 631-637. -/
def freeBuffer (buf len : Nat) : Nat := if buf = 0 then sizeMax else usub buf len

/-- `_executor([]{ step })`, lines 1123-1128. -/
def run (i : Nat) (s : St) : St :=
  { s with pc := upd s.pc s.next (.pop i), main := upd s.main i (some s.next), next := s.next + 1 }

/-- Thread `j` goes on at `p`. -/
def goto (j : Nat) (p : Pc) (s : St) : St := { s with pc := upd s.pc j p }

def isEmpty (G : Net) (s : St) (i : Nat) : Bool := emptyQ (G.strat i) (G.slots i) (s.idx i) (s.q i)

/-- `enqueue`, lines 612-625. -/
def enqueue (i k : Nat) (m : Msg) (s : St) : St :=
  let s := { s with q := upd s.q i (upd (s.q i) k (s.q i k ++ [m])), inp := upd s.inp i (upd (s.inp i) k (s.inp i k ++ [m])) }
  if s.rcv i = 0 ∧ s.running i = false then run i { s with running := upd s.running i true } else s

/-- Lines 838-851 of `clear_to_send`, on behalf of `c`. -/
def ctsCrit (G : Net) (i : Nat) (c : Credit) (s : St) : St :=
  let s := { s with susp := upd s.susp i (s.susp i - 1), owed := upd s.owed i ((s.owed i).erase c) }
  if s.susp i = 0 then
    if isEmpty G s i = false ∨ s.closeQ i then run i s else { s with running := upd s.running i false }
  else s

/-- `pop_from_queue`, lines 854-871, by thread `j`. -/
def popCrit (G : Net) (j i : Nat) (s : St) : St :=
  if isEmpty G s i then
    goto j (.cts1 i [] none) { s with closeQ := upd s.closeQ i false, final := upd s.final i (s.closeQ i) }
  else
    let ks := popSlots (G.strat i) (G.slots i) (s.idx i) (s.q i)
    let m := popMsg ks (s.q i)
    let q' := popQ ks (s.q i)
    goto j (.cts1 i (ctsSlots (G.strat i) (G.slots i) (G.buf i) ks (G.up i) q') (some m))
      { s with q := upd s.q i q', idx := upd s.idx i (popIdx (G.strat i) (G.slots i) (s.idx i)),
               pops := upd s.pops i (s.pops i ++ [m]) }

/-- `task_done`, lines 806-825, by thread `j`. -/
def taskDone (G : Net) (j i : Nat) (s : St) : St :=
  let r := isEmpty G s i = false ∨ s.closeQ i
  let s := { s with running := upd s.running i r, main := upd s.main i none }
  let s := if r then run i s else s
  if s.final i then
    goto j (.clear ((s.down i).map fun e => (e.1, .up i e.2))) { s with down := upd s.down i [], clr := upd s.clr i (some j) }
  else goto j .none s

/-- One step of thread `j`. -/
def stepJob (G : Net) (j : Nat) (s : St) : Option St :=
  match s.pc j with
  | .none => none
  | .pop i => some (popCrit G j i s)
  | .cts1 i [] (some m) => some (goto j (if m.any fun x => x.2 = .err then .dead i m else .call i m) s)
  | .cts1 i [] none => some (goto j (.taskDone i) s)
  | .cts1 i (k :: ks) m =>
    match G.up i k with
    | some u => some (goto j (if s.final u then .cts1 i ks m else .cts2 i (k :: ks) m) s)
    | none => some (goto j (.cts1 i ks m) s)
  | .cts2 i (k :: ks) m =>
    match G.up i k with
    | some u => some (goto j (.cts1 i ks m) (ctsCrit G u (.edge i k) s))
    | none => some (goto j (.cts1 i ks m) s)
  | .cts2 i [] m => some (goto j (.cts1 i [] m) s)
  | .call i m => some (goto j (.busy i) { s with calls := upd s.calls i (s.calls i ++ [m]) })
  | .busy _ => none
  | .bcast i r => some (goto j (if s.down i = [] then .susp i r true else .free i r (s.down i) sizeMax) s)
  | .free i r [] acc => some (goto j (.susp i r (acc ≤ 1)) s)
  | .free i r (e :: es) acc => some (goto j (.free i r es (min acc (freeBuffer (G.buf e.1) (s.q e.1 e.2).length))) s)
  | .susp i r b =>
    some (goto j (.send i r (s.down i))
      { s with
        susp := upd s.susp i (if b then (s.down i).length + 1 else 1)
        owed := upd s.owed i (.own :: if b then (s.down i).map fun e => .edge e.1 e.2 else []) })
  | .send i r (e :: es) => some (goto j (.send i r es) (enqueue e.1 e.2 r s))
  | .send i _ [] => some (goto j (.own1 i) s)
  | .own1 i => some (goto j (if s.final i then .none else .own2 i) s)
  | .own2 i => some (goto j .none (ctsCrit G i .own { s with main := upd s.main i none }))
  | .taskDone i => some (taskDone G j i s)
  | .clear [] => some (goto j .none s)
  | .clear ((d, o) :: es) =>
    let s := { s with snd := upd s.snd d (s.snd d - 1), sown := upd s.sown d ((s.sown d).erase o) }
    if s.snd d = 0 then some (goto j (.close2 d es) { s with clsJob := upd s.clsJob d (some j) })
    else some (goto j (.clear es) s)
  | .close2 d es =>
    let r := s.rcv d = 0 ∧ s.running d = false
    let s := { s with closeQ := upd s.closeQ d true, running := upd s.running d (s.running d || r),
                      clsJob := upd s.clsJob d none }
    some (goto j (.clear es) (if r then run d s else s))
  | .ready2 i =>
    let r := (isEmpty G s i = false ∨ s.closeQ i) ∧ s.running i = false
    let s := { s with running := upd s.running i (s.running i || r), rdyJob := upd s.rdyJob i none }
    some (goto j .none (if r then run i s else s))
  | .dead _ _ => none

inductive Act where
  /-- thread `j` takes its next step -/
  | job (j : Nat)
  /-- the function called by thread `j` returns (or throws) -/
  | ret (j : Nat) (r : Msg)
  /-- a user's sender `n` of the channel `i` sends a message -/
  | send (i n : Nat) (m : Msg)
  /-- ... is copied -/
  | copySender (i n n' : Nat)
  /-- ... is destroyed or closed -/
  | dropSender (i n : Nat)
  /-- a receiver that is not ready is copied -/
  | copyRecv (i : Nat)
  /-- a receiver that is not ready becomes ready or is destroyed -/
  | dropRecv (i : Nat)
  deriving DecidableEq, Repr

def step (G : Net) (s : St) : Act → Option St
  | .job j => stepJob G j s
  | .ret j r => match s.pc j with
    | .busy i => some (goto j (.bcast i r) { s with outs := upd s.outs i (s.outs i ++ [r]) })
    | _ => none
  | .send i n m => if .ext n ∈ s.sown i then some (enqueue i 0 m s) else none
  | .copySender i n n' =>
    if .ext n ∈ s.sown i ∧ .ext n' ∉ s.sown i then
      some { s with sown := upd s.sown i (.ext n' :: s.sown i), snd := upd s.snd i (s.snd i + 1) }
    else none
  | .dropSender i n =>
    if .ext n ∈ s.sown i then
      let s := { s with snd := upd s.snd i (s.snd i - 1), sown := upd s.sown i ((s.sown i).erase (.ext n)) }
      if s.snd i = 0 then
        some { s with pc := upd s.pc s.next (.close2 i []), clsJob := upd s.clsJob i (some s.next), next := s.next + 1 }
      else some s
    else none
  | .copyRecv i => if s.rcv i ≠ 0 then some { s with rcv := upd s.rcv i (s.rcv i + 1) } else none
  | .dropRecv i =>
    if s.rcv i ≠ 0 then
      let s := { s with rcv := upd s.rcv i (s.rcv i - 1) }
      if s.rcv i = 0 then
        some { s with pc := upd s.pc s.next (.ready2 i), rdyJob := upd s.rdyJob i (some s.next), next := s.next + 1 }
      else some s
    else none

/-- The network when it is complete: each channel has one sender, `ext 0`. -/
def init (G : Net) : St where
  q := fun _ _ => []
  idx := fun _ => 0
  running := fun _ => false
  susp := fun _ => 0
  closeQ := fun _ => false
  final := fun _ => false
  snd := fun i => G.slots i
  rcv := G.recv
  down := G.down
  pc := fun _ => .none
  next := 0
  owed := fun _ => []
  sown := fun i => (List.range (G.slots i)).map fun k => match G.up i k with
    | some u => .up u k
    | none => .ext k
  main := fun _ => none
  rdyJob := fun _ => none
  clsJob := fun _ => none
  clr := fun _ => none
  inp := fun _ _ => []
  pops := fun _ => []
  calls := fun _ => []
  outs := fun _ => []

def exec (G : Net) (s : St) : List Act → Option St
  | [] => some s
  | a :: as => (step G s a).bind fun s' => exec G s' as

def Reachable (G : Net) (s : St) : Prop := ∃ as, exec G (init G) as = some s

/-- The action brings no error into the network that would have to be handled: no exception is sent, and no function
throws whose result goes to another process. -/
def Clean (G : Net) (s : St) : Act → Prop
  | .ret j .err => ∀ i, s.pc j = .busy i → G.down i = []
  | .send _ _ .err => False
  | _ => True

/-- Reachable by such actions. -/
inductive CleanReachable (G : Net) : St → Prop where
  | init : CleanReachable G (init G)
  | step {s s' : St} {a : Act} : CleanReachable G s → Clean G s a → step G s a = some s' → CleanReachable G s'

end Verif.Channel
