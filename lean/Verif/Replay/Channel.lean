import Verif.Channel.Net

/-!
# The project's own channel tests, run in the model

Not proofs: each check below runs test cases of test/channel_*.cpp in the model of networks of channels, under several
schedules of all threads, until nothing is left to do, and compares with the values the tests expect. They guard the
transcription of the code. A check that fails stops the build.

The tests with 100 or 200 messages are run with 12.
-/

namespace Verif.Replay.Channel
open Verif.Channel

/-- A step of a linear congruential generator, to choose a schedule. -/
def rnd (r : Nat) : Nat := (r * 1103515245 + 12345) % 2147483648

/-- Tables, so that long runs stay fast. -/
def tab {α : Type} (n : Nat) (f : Nat → α) : Array α := (Array.range n).map f
@[noinline] def look {α : Type} [Inhabited α] (a : Array α) (i : Nat) : α := a.getD i default
@[noinline] def look2 {α : Type} [Inhabited α] (a : Array (Array α)) (i k : Nat) : α := (a.getD i #[]).getD k default

instance : Inhabited Pc := ⟨.none⟩
instance : Inhabited Msg := ⟨.err⟩

/-- The state restricted to `n` processes with at most `m` slots. -/
def compact (n m : Nat) (s : St) : St :=
  { s with
    q := look2 (tab n fun i => tab m (s.q i)), idx := look (tab n s.idx), running := look (tab n s.running),
    susp := look (tab n s.susp), closeQ := look (tab n s.closeQ), final := look (tab n s.final), snd := look (tab n s.snd),
    rcv := look (tab n s.rcv), down := look (tab n s.down), pc := look (tab s.next s.pc), owed := look (tab n s.owed),
    sown := look (tab n s.sown), main := look (tab n s.main), rdyJob := look (tab n s.rdyJob),
    clsJob := look (tab n s.clsJob), clr := look (tab n s.clr), inp := look2 (tab n fun i => tab m (s.inp i)),
    pops := look (tab n s.pops), calls := look (tab n s.calls), outs := look (tab n s.outs) }

/-- The threads that can take a step. -/
def live (s : St) : List Nat :=
  (List.range s.next).filter fun j => match s.pc j with
    | .none | .dead _ _ => false
    | _ => true

/-- Runs threads of users (each a list of actions) and all started threads, in an order given by `r`, until all are done.
`fn i cs` is the result of the function of process `i` at the last of its calls `cs`. -/
def drive (G : Net) (n m : Nat) (fn : Nat → List Args → Msg) : Nat → Nat → List (List Act) → St → Option St
  | 0, _, _, _ => none
  | fuel + 1, r, users, s =>
    let users := users.filter (· ≠ [])
    let js := live s
    let r := rnd r
    let k := (r / 65536) % (users.length + js.length)
    if users.length + js.length = 0 then some s
    else if h : k < users.length then
      match users[k] with
      | [] => none
      | a :: as => do
        let s ← step G s a
        drive G n m fn fuel r (users.set k as) (compact n m s)
    else
      let j := js.getD (k - users.length) 0
      do
        let s ← match s.pc j with
          | .busy i => step G s (.ret j (fn i (s.calls i)))
          | _ => step G s (.job j)
        drive G n m fn fuel r users (compact n m s)

/-- The values given to process `i`, call by call. -/
def got (s : St) (i : Nat) : List (List Nat) :=
  (s.calls i).map fun a => a.filterMap fun x => match x.2 with
    | .val v => some v
    | .err => none

/-- `k` channels (processes 0 to `k - 1`), merged by process `k`; a function without result has no receivers to wait for
(channel.hpp:753). -/
def merge (st : Strat) (k : Nat) : Net where
  strat i := if i = k then st else .dflt
  slots i := if i = k then k else 1
  up i c := if i = k ∧ c < k then some c else none
  down i := if i < k then [(k, i)] else []
  buf _ := 1
  recv i := if i < k then 1 else 0

/-- Processes of channels pass on what they get. -/
def pass (cs : List Args) : Msg := match cs.getLast? with
  | some ((_, m) :: _) => m
  | _ => .err

/-- `set_ready()` of all `k` receivers, then the given threads; afterwards all is done. -/
def runMerge (st : Strat) (k seed : Nat) (users : List (List Act)) : Option (List (List Nat)) := do
  let G := merge st k
  let s ← exec G (init G) ((List.range k).map .dropRecv)
  let s ← drive G (k + 1) (k + 1) (fun _ => pass) 20000 seed users s
  return got s k

def seeds : List Nat := [1, 2, 3, 4, 5]

def send (i v : Nat) : Act := .send i 0 (.val v)

/-- `result += incrementer * x; ++incrementer` -/
def weighted (l : List (List Nat)) : Nat := ((l.flatten.zipIdx).map fun x => x.1 * (x.2 + 1)).sum

-- one value (channel_merge_round_robin_tests.cpp:24-56, channel_merge_zip_with_tests.cpp:24-53,
-- channel_merge_unordered_tests.cpp:22-54)
#guard seeds.all fun r => [Strat.rr, .zip, .unord].all fun st =>
  runMerge st 1 r [[send 0 1]] == some [[1]]

-- many values, one channel (channel_merge_round_robin_tests.cpp:58-98, channel_merge_zip_with_tests.cpp:55-94,
-- channel_merge_unordered_tests.cpp:56-96)
#guard seeds.all fun r => [Strat.rr, .zip, .unord].all fun st =>
  runMerge st 1 r [(List.range 12).map fun v => send 0 (v + 1)] == some ((List.range 12).map fun v => [v + 1])
#guard seeds.all fun r => [Strat.rr, .zip, .unord].all fun st =>
  (runMerge st 1 r ((List.range 12).map fun v => [send 0 (v + 1)])).map (·.flatten.sum) == some 78

-- round robin, two channels (channel_merge_round_robin_tests.cpp:102-154)
#guard seeds.all fun r => (runMerge .rr 2 r [[send 0 2, send 1 3]]).map weighted == some (2 + 2 * 3)
-- (channel_merge_round_robin_tests.cpp:156-183)
#guard seeds.all fun r =>
  (runMerge .rr 2 r [(List.range 10).flatMap fun i => [send 0 i, send 1 (i + 1)]]).map weighted ==
    some (0 * 1 + 1 * 2 + 1 * 3 + 2 * 4 + 2 * 5 + 3 * 6 + 3 * 7 + 4 * 8 + 4 * 9 + 5 * 10 + 5 * 11 + 6 * 12 + 6 * 13 +
      7 * 14 + 7 * 15 + 8 * 16 + 8 * 17 + 9 * 18 + 9 * 19 + 10 * 20)
-- every thread sends one message; the channels take turns (channel_merge_round_robin_tests.cpp:188-224): channel 0 gets even
-- values, channel 1 odd ones
#guard seeds.all fun r =>
  (runMerge .rr 2 r ((List.range 12).map fun i => [send (i % 2) i])).map
    (fun l => (l.flatten.sum, l.flatten.zipIdx.all fun x => x.1 % 2 == x.2 % 2, l.length)) == some (66, true, 12)
-- five channels (channel_merge_round_robin_tests.cpp:228-289)
#guard seeds.all fun r =>
  (runMerge .rr 5 r [(List.range 5).map fun i => send i (i + 2)]).map weighted ==
    some (2 * 1 + 3 * 2 + 4 * 3 + 5 * 4 + 6 * 5)
#guard seeds.all fun r =>
  (runMerge .rr 5 r ((List.range 5).map fun i => [send i (i + 2)])).map weighted ==
    some (2 * 1 + 3 * 2 + 4 * 3 + 5 * 4 + 6 * 5)

/-- `result += 2 * x + 3 * y` and so on -/
def zipped (l : List (List Nat)) : Nat := (l.map fun a => ((a.zipIdx).map fun x => x.1 * (x.2 + 2)).sum).sum

-- zip_with, two channels (channel_merge_zip_with_tests.cpp:98-139)
#guard seeds.all fun r => (runMerge .zip 2 r [[send 0 2, send 1 3]]).map zipped == some 13
-- (channel_merge_zip_with_tests.cpp:141-190)
#guard seeds.all fun r =>
  (runMerge .zip 2 r [(List.range 10).flatMap fun i => [send 0 i, send 1 (i + 1)]]).map zipped == some 255
#guard seeds.all fun r =>
  (runMerge .zip 2 r ((List.range 10).flatMap fun i => [[send 0 i], [send 1 (i + 1)]])).map zipped == some 255
-- five channels (channel_merge_zip_with_tests.cpp:193-243)
#guard seeds.all fun r =>
  (runMerge .zip 5 r [(List.range 5).map fun i => send i (i + 2)]).map zipped == some (4 + 9 + 16 + 25 + 36)
#guard seeds.all fun r =>
  (runMerge .zip 5 r ((List.range 5).map fun i => [send i (i + 2)])).map zipped == some (4 + 9 + 16 + 25 + 36)

-- unordered, two channels (channel_merge_unordered_tests.cpp:100-188)
#guard seeds.all fun r => (runMerge .unord 2 r [[send 0 2, send 1 3]]).map (·.flatten.sum) == some 5
#guard seeds.all fun r =>
  (runMerge .unord 2 r [(List.range 10).flatMap fun i => [send 0 i, send 1 (i + 1)]]).map (·.flatten.sum) == some 100
#guard seeds.all fun r =>
  (runMerge .unord 2 r ((List.range 10).flatMap fun i => [[send 0 i], [send 1 (i + 1)]])).map (·.flatten.sum) == some 100
-- five channels (channel_merge_unordered_tests.cpp:192-240)
#guard seeds.all fun r =>
  (runMerge .unord 5 r [(List.range 5).map fun i => send i (i + 2)]).map (·.flatten.sum) == some 20
#guard seeds.all fun r =>
  (runMerge .unord 5 r ((List.range 5).map fun i => [send i (i + 2)])).map (·.flatten.sum) == some 20

/-- A channel (process 0), `b` branches; branch `c` has processes `1 + c * d` to `c * d + d`, the last without receivers.
`bs` is the buffer size of the first process of each branch. -/
def split (b d bs : Nat) : Net where
  strat _ := .dflt
  slots _ := 1
  up i c := if i = 0 ∨ c ≠ 0 ∨ b * d < i then none else if (i - 1) % d = 0 then some 0 else some (i - 1)
  down i := if i = 0 then (List.range b).map fun c => (1 + c * d, 0)
    else if i % d = 0 ∨ b * d < i then [] else [(i + 1, 0)]
  buf i := if (i - 1) % d = 0 then bs else 1
  recv i := if i = 0 then 1 else 0

/-- All processes but the channel itself apply `f`. -/
def runSplit (b d bs : Nat) (f : Nat → Nat) (seed : Nat) (users : List (List Act)) : Option (List (List (List Nat))) := do
  let G := split b d bs
  let fn := fun i cs => match pass cs with
    | .val v => Msg.val (if i = 0 then v else f v)
    | .err => .err
  let s ← drive G (b * d + 1) 1 fn 20000 seed ([.dropRecv 0] :: users) (init G)
  return (List.range b).map fun c => got s (c * d + d)

-- functions without result (channel_functor_tests.cpp:26-88); the receiver becomes ready at any time in these runs
#guard seeds.all fun r => runSplit 1 1 1 id r [[send 0 1]] == some [[[1]]]
#guard seeds.all fun r => runSplit 1 1 1 id r [[send 0 1, send 0 2]] == some [[[1], [2]]]
#guard seeds.all fun r => (runSplit 1 1 1 id r [(List.range 10).map fun _ => send 0 1]).map (·.map (·.flatten.sum)) == some [10]
#guard seeds.all fun r => (runSplit 2 1 1 id r [(List.range 10).map (send 0)]).map (·.map (·.flatten.sum)) == some [45, 45]
-- functions with result (channel_functor_tests.cpp:90-153)
#guard seeds.all fun r => (runSplit 1 2 1 (fun x => x + x) r [(List.range 10).map (send 0)]).map (·.map (·.flatten.sum)) ==
  some [90]
#guard seeds.all fun r => (runSplit 2 2 1 (fun x => x + x) r [(List.range 10).map (send 0)]).map (·.map (·.flatten.sum)) ==
  some [90, 90]
#guard seeds.all fun r =>
  (runSplit 2 2 1 (fun x => x + x) r ((List.range 10).map fun i => [send 0 i])).map (·.map (·.flatten.sum)) == some [90, 90]
-- buffer sizes (channel_tests.cpp:536-625)
#guard [0, 1, 2, 10].all fun bs => seeds.all fun r =>
  (runSplit 1 1 bs id r [(List.range 10).map fun _ => send 0 1]).map (·.map (·.flatten.sum)) == some [10]
-- two channels one after the other, `(20 * 2) + 2` (channel_tests.cpp:227-248), here as one network with two functions
#guard seeds.all fun r => runSplit 1 3 1 (fun x => if x = 20 then 40 else x + 2) r [[send 0 20]] == some [[[42]]]

-- the values arrive in order in every branch; with buffer size 2 they would not (C40 to C44)
#guard seeds.all fun r => runSplit 3 2 1 id r [(List.range 8).map (send 0)] ==
  some (List.replicate 3 ((List.range 8).map fun v => [v]))

end Verif.Replay.Channel
