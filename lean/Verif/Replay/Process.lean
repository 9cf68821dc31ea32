import Verif.Channel.Process
import Verif.Replay.Channel

/-!
# The project's own tests of processes with `await` and `yield`, run in the model

Not proofs, see Replay/Channel.lean. The last function of each test, which has no result, is the process downstream.
-/

namespace Verif.Replay.Process
open Verif.Process
open Verif.Channel (Msg)
open Verif.Replay.Channel (rnd tab look seeds)

instance : Inhabited Pc := ⟨.none⟩
instance : Inhabited Cts := ⟨.none⟩

/-- `channel_test_helper::sum<N>` (channel_test_helper.hpp:130-152): number of additions, sum, whether it yields. -/
def sum (N : Nat) : Proc (Nat × Nat × Bool) where
  start := (0, 0, false)
  state x := if x.2.2 then .now else .forever
  await x v := ((x.1 + 1, x.2.1 + v, x.2.2 || x.1 + 1 == N), true)
  yield x := ((0, 0, false), .val x.2.1)
  close x := (x, true)
  setError := none

/-- `channel_test_helper::timed_sum` (channel_test_helper.hpp:154-199): number of additions, sum, state. -/
def timedSum (limit : Nat) : Proc (Nat × Nat × PState) where
  start := (0, 0, .timed)
  state x := x.2.2
  await x v := ((x.1 + 1, x.2.1 + v, if limit ≠ 0 ∧ x.1 + 1 = limit then .now else x.2.2), true)
  yield x := ((0, 0, .forever), .val x.2.1)
  close x := (x, true)
  setError := none

/-- `process_with_set_error` (channel_process_tests.cpp:322-335): whether it has been called. -/
def withSetError : Proc Bool where
  start := false
  state _ := .forever
  await x _ := (x, false)
  yield x := (x, .val 42)
  close x := (x, true)
  setError := some fun _ => (true, true)

/-- `process_with_close` (channel_process_tests.cpp:366-378). -/
def withClose : Proc Bool where
  start := false
  state _ := .forever
  await x _ := (x, false)
  yield x := (x, .val 42)
  close _ := (true, true)
  setError := none

variable {σ : Type}

def compact (n : Nat) (s : St σ) : St σ :=
  { s with dq := look (tab n s.dq), cts := look (tab n s.cts), pc := look (tab s.next s.pc), sent := look (tab n s.sent) }

/-- What can happen next, apart from the users; a timer goes off only if `timers`. -/
def enabled (P : Proc σ) (n : Nat) (timers : Bool) (s : St σ) : List Act :=
  let js := (List.range s.next).filter fun j => match s.pc j with
    | .none => false
    | .later | .timeout => timers
    | _ => true
  (js.map Act.job ++ (List.range n).map Act.pop ++ (List.range n).map Act.cts).filter fun a =>
    match step P n s a with
    | .no => false
    | _ => true

/-- As `Replay.Channel.drive`; `none` also for undefined behaviour. -/
def drive (P : Proc σ) (n : Nat) (timers : Bool) : Nat → Nat → List (List Act) → St σ → Option (St σ)
  | 0, _, _, _ => none
  | fuel + 1, r, users, s =>
    let users := users.filter (· ≠ [])
    let es := enabled P n timers s
    let r := rnd r
    let k := (r / 65536) % (users.length + es.length)
    if users.length + es.length = 0 then some s
    else if h : k < users.length then
      match users[k] with
      | [] => none
      | a :: as => match step P n s a with
        | .ok s => drive P n timers fuel r (users.set k as) (compact n s)
        | _ => none
    else match step P n s (es.getD (k - users.length) .ready) with
      | .ok s => drive P n timers fuel r users (compact n s)
      | _ => none

def send (v : Nat) : Act := .send (.val v)

/-- What the `n` processes downstream have got when nothing is left to do. -/
def results (P : Proc σ) (n seed : Nat) (users : List (List Act)) : Option (List (List Msg)) := do
  let s ← drive P n false 20000 seed ([.ready] :: users) (init P)
  return (List.range n).map s.sent

def vals (l : List Nat) : List Msg := l.map .val

-- one step (channel_process_tests.cpp:34-79)
#guard seeds.all fun r => results (sum 1) 1 r [(List.range 10).map send] == some [vals (List.range 10)]
#guard seeds.all fun r => (results (sum 1) 1 r ((List.range 10).map fun i => [send i])).map
  (·.map fun l => ((List.range 10).all fun i => l.contains (.val i)) && l.length == 10) == some [true]
-- two steps (channel_process_tests.cpp:81-136)
#guard seeds.all fun r => results (sum 2) 1 r [(List.range 10).map send] == some [vals [1, 5, 9, 13, 17]]
-- many steps (channel_process_tests.cpp:138-171)
#guard seeds.all fun r => results (sum 10) 1 r [(List.range 10).map send] == some [vals [45]]
#guard seeds.all fun r => results (sum 10) 1 r ((List.range 10).map fun i => [send i]) == some [vals [45]]
-- two processes downstream (channel_process_tests.cpp:173-258; there each branch has its own process object)
#guard seeds.all fun r => results (sum 1) 2 r [(List.range 10).map send] ==
  some [vals (List.range 10), vals (List.range 10)]
#guard seeds.all fun r => results (sum 2) 2 r [(List.range 10).map send] ==
  some [vals [1, 5, 9, 13, 17], vals [1, 5, 9, 13, 17]]
#guard seeds.all fun r => results (sum 10) 2 r [(List.range 10).map send] == some [vals [45], vals [45]]

-- with a time-out (channel_process_tests.cpp:261-291)
#guard seeds.all fun r => (do
  let s ← drive (timedSum 0) 1 false 20000 r [[.ready, send 42]] (init (timedSum 0))
  let s' ← drive (timedSum 0) 1 true 20000 r [] s
  return (s.sent 0, s'.sent 0)) == some ([], vals [42])
-- without (channel_process_tests.cpp:293-319)
#guard seeds.all fun r => (do
  let s ← drive (timedSum 2) 1 false 20000 r [[.ready, send 42]] (init (timedSum 2))
  let x := s.proc.map (·.2.1)
  let s' ← drive (timedSum 2) 1 false 20000 r [[send 43]] s
  return (x, s'.sent 0)) == some (some 42, vals [85])
-- an exception from upstream (channel_process_tests.cpp:339-364, 381-406)
#guard seeds.all fun r => (do
  let s ← drive withSetError 1 false 20000 r [[.ready, .send .err]] (init withSetError)
  return s.proc) == some (some true)
#guard seeds.all fun r => (do
  let s ← drive withClose 1 false 20000 r [[.ready, .send .err]] (init withClose)
  return s.proc) == some (some true)

end Verif.Replay.Process
