/-!
# Relays: a receiver piped into a sender (include/stlab/concurrency/channel.hpp)

Any number of channels (`channel_::create`, lines 1264-1272), senders of the user, and relays `receiver | sender`
(lines 1545-1548): a process the function of which owns a sender and calls it with each message. Channels connected by
relays may form any graph, also a cyclic one.

What is modelled of a sender is which channel it belongs to; construction, moves and assignments of senders are in
`Small/Handles`. Handling of one message by a channel or a relay is one step: that single processes handle
their messages in order, one at a time, and are closed after the last one is the subject of C39-C46. Buffer sizes are
left out: they only delay steps, and do not apply to senders called by functions. A channel has one receiver
object; relays are attached to it before it is set ready, as `operator|` demands (line 1526).
-/

namespace Verif.Relay

/-- The process of a channel. -/
structure Ch where
  /-- `_sender_count` (line 752) -/
  count : Nat := 0
  /-- `_process_close_queue` has been set (line 604) -/
  closed : Bool := false
  /-- `_downstream` has been cleared (lines 820-823) -/
  final : Bool := false
  /-- the process has been destroyed -/
  dead : Bool := false
  /-- `set_ready()` (lines 1492-1495) -/
  ready : Bool := false
  queue : List Nat := []
  /-- all that has been sent to it, by the user or by a relay -/
  arrived : List (Option Nat × Nat) := []
  /-- all it has passed downstream -/
  handled : List Nat := []
  deriving DecidableEq, Repr

inductive RPc where
  | on
  /-- destroyed before it was closed -/
  | dropped
  /-- closed -/
  | ended
  deriving DecidableEq, Repr

/-- A relay process. -/
structure Rl where
  src : Nat
  /-- the channel of the sender captured by its function -/
  dst : Nat
  queue : List Nat := []
  /-- all that its sender has been called with -/
  passed : List Nat := []
  pc : RPc := .on
  deriving DecidableEq, Repr

structure St where
  /-- number of channels made -/
  made : Nat := 0
  ch : Nat → Ch := fun _ => {}
  /-- the senders of the user -/
  user : List Nat := []
  rels : List Rl := []

def upd {α : Type} (f : Nat → α) (k : Nat) (v : α) : Nat → α := fun i => if i = k then v else f i

inductive Act where
  /-- `channel<T>(executor)` -/
  | make
  /-- a copy of a sender of channel `c` (lines 1575-1577) -/
  | copy (c : Nat)
  /-- a sender of channel `c` is destroyed or closed (lines 1571-1573, 1600-1604) -/
  | drop (c : Nat)
  /-- a call of a sender of channel `c` (lines 1606-1610) -/
  | send (c v : Nat)
  /-- `set_ready()` of the receiver of channel `a` -/
  | ready (a : Nat)
  /-- the receivers of channel `a` and all processes downstream of it are destroyed (these own `a`, line 757) -/
  | die (a : Nat)
  /-- `receiver | sender`, with the receiver of channel `a` and a sender of channel `c`, which is moved (lines 1545-1548) -/
  | relay (a c : Nat)
  /-- the receiver returned by that, the only owner of the relay, is destroyed -/
  | dropRelay (r : Nat)
  /-- channel `a` handles a message -/
  | run (a : Nat)
  /-- relay `r` handles a message: it calls its sender (line 1547) -/
  | runRelay (r : Nat)
  /-- channel `a` has handled all messages and is closed (lines 820-823, 860-864) -/
  | finish (a : Nat)
  /-- so is relay `r`, after its source has destroyed the sender to it (line 822); its function is destroyed (line 823) -/
  | finishRelay (r : Nat)
  deriving DecidableEq, Repr

inductive Out where
  | no
  /-- an assertion fails -/
  | ub
  | ok (s : St)

/-- `remove_sender()` through a sender of `c`, if the process exists (lines 1572, 1602, 598-609). -/
def removeSender (s : St) (c : Nat) : Out :=
  let x := s.ch c
  if x.dead then .ok s
  else if x.count = 0 then .ub  -- line 599
  else .ok { s with ch := upd s.ch c { x with count := x.count - 1, closed := x.closed || x.count - 1 == 0 } }

/-- `send` through a sender of `c`, of the user or of a relay (lines 1608-1609, 612-627). -/
def sendTo (s : St) (from_ : Option Nat) (c v : Nat) : St :=
  let x := s.ch c
  if x.dead then s
  else { s with ch := upd s.ch c { x with queue := x.queue ++ [v], arrived := x.arrived ++ [(from_, v)] } }

/-- A message is given to the relays attached to `a`. -/
def feed (a v : Nat) (r : Rl) : Rl := if r.pc = .on ∧ r.src = a then { r with queue := r.queue ++ [v] } else r

def step (s : St) : Act → Out
  | .make => .ok { s with made := s.made + 1, ch := upd s.ch s.made { count := 1 }, user := s.made :: s.user }
  | .copy c =>
    if c ∉ s.user then .no
    else if (s.ch c).dead then .ok { s with user := c :: s.user }
    else .ok { s with user := c :: s.user, ch := upd s.ch c { s.ch c with count := (s.ch c).count + 1 } }
  | .drop c => if c ∉ s.user then .no else removeSender { s with user := s.user.erase c } c
  | .send c v => if c ∉ s.user then .no else .ok (sendTo s none c v)
  | .ready a =>
    if a < s.made ∧ (s.ch a).dead = false then .ok { s with ch := upd s.ch a { s.ch a with ready := true } } else .no
  | .die a =>
    if a < s.made ∧ ∀ r ∈ s.rels, r.pc = .on → r.src ≠ a then
      .ok { s with ch := upd s.ch a { s.ch a with dead := true } }
    else .no
  | .relay a c =>
    if a < s.made ∧ (s.ch a).dead = false ∧ (s.ch a).ready = false ∧ c ∈ s.user then
      .ok { s with rels := s.rels ++ [{ src := a, dst := c }], user := s.user.erase c }
    else .no
  | .dropRelay r =>
    match s.rels[r]? with
    | some x =>
      if x.pc = .on then removeSender { s with rels := s.rels.set r { x with pc := .dropped, queue := [] } } x.dst
      else .no
    | none => .no
  | .run a =>
    if a < s.made ∧ (s.ch a).dead = false ∧ (s.ch a).ready = true then
      match (s.ch a).queue with
      | [] => .no
      | v :: q => .ok { s with ch := upd s.ch a { s.ch a with queue := q, handled := (s.ch a).handled ++ [v] },
                               rels := s.rels.map (feed a v) }
    else .no
  | .runRelay r =>
    match s.rels[r]? with
    | some x =>
      match x.queue with
      | [] => .no
      | v :: q =>
        .ok (sendTo { s with rels := s.rels.set r { x with queue := q, passed := x.passed ++ [v] } } (some r) x.dst v)
    | none => .no
  | .finish a =>
    if a < s.made ∧ (s.ch a).dead = false ∧ (s.ch a).ready = true ∧ (s.ch a).closed = true ∧ (s.ch a).final = false ∧
        (s.ch a).queue = [] then
      .ok { s with ch := upd s.ch a { s.ch a with final := true } }
    else .no
  | .finishRelay r =>
    match s.rels[r]? with
    | some x =>
      if x.pc = .on ∧ x.queue = [] ∧ (s.ch x.src).final = true then
        removeSender { s with rels := s.rels.set r { x with pc := .ended } } x.dst
      else .no
    | none => .no

def exec (s : St) : List Act → Option St
  | [] => some s
  | a :: as => match step s a with
    | .ok s' => exec s' as
    | _ => none

def Reachable (s : St) : Prop := ∃ as, exec {} as = some s

end Verif.Relay
