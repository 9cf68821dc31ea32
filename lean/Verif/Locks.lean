/-!
# The locks of the library (future.hpp, channel.hpp, serial_queue.hpp, system_timer.hpp, default_executor.hpp, await.hpp, pre_exit.cpp)

Every function of the library that uses a mutex is written down as the sequence of its lock operations and of its calls of code that is not
its own: executors, continuations, processes, destructors of closures. That code may in turn call any function of the library, on any object.
Any number of threads runs such calls at the same time. What the functions compute is left out: a branch on data is a free choice here, and a
`try_lock` may fail for no reason, so the model has all the executions of the code and more.

Assumed: the constructors, assignments and destructors of the *values* (messages, results, exceptions) and of executors do not call the
library. Blocking calls that hold no mutex (`thread::join`) are left out.
-/

namespace Verif.Locks

/-- The mutexes. `init`: the guard of a function-local static (0: `pts()`, 1: `get_system_timer()`), which the language locks. -/
inductive Mutex where
  | init (i : Nat)
  | down (p : Nat)     -- `shared_process::_downstream_mutex` (channel.hpp:734)
  | proc (p : Nat)     -- `shared_process::_process_mutex` (channel.hpp:741)
  | tf (p : Nat)       -- `shared_process::_timeout_function_control` (channel.hpp:749)
  | guard (c : Nat)    -- `_guard` of the shared state of `when_all`, `when_any` (future.hpp:1067, 1107, 1150, 1476)
  | state (s : Nat)    -- `shared_base::_mutex` (future.hpp:332, 461)
  | await (a : Nat)    -- the local `m` of `await`, `blocking_get_guarded::_mutex` (await.hpp:59, 91)
  | serial (q : Nat)   -- `serial_instance_t::_m` (serial_queue.hpp:51)
  | timer              -- `system_timer::_timed_queue_mutex` (system_timer.hpp:217)
  | queue (i : Nat)    -- `notification_queue::_mutex` (default_executor.hpp:236)
  | waiter (i : Nat)   -- `waiter::_mutex` (default_executor.hpp:183)
  | pool               -- `priority_task_system::_mutex` (default_executor.hpp:341)
  | exit               -- `pre_exit_stack_t::_mutex` (src/pre_exit.cpp:22)
  deriving DecidableEq, Repr

/-- The functions of the library that use mutexes, with the objects they are applied to. -/
inductive Fn where
  | attach (s : Nat)
  | detach (s : Nat)
  | setException (s : Nat)
  | setValue (s : Nat)
  | getTry (s : Nat)
  | attachWhenArg (c s : Nat)
  | whenDone (c s : Nat)
  | whenAnyVoidDone (c : Nat)
  | whenAnyFailure (c : Nat)
  /-- `inline`: destroying the arguments' tasks calls code that is not the library's -/
  | whenAllFailure (c : Nat) (inline : Bool)
  | singleTrigger (c s : Nat) (inline : Bool)
  | whenAnyVoidFailure (c : Nat)
  | serialEnqueue (q : Nat)
  | serialAll (q : Nat)
  | serialSingle (q : Nat)
  | timerAdd
  | timerRun
  | timerDestroy
  | poolExecute (i : Nat) (qs : List Nat)
  | poolRun (i : Nat) (qs : List Nat)
  | poolExpand (w : Nat) (qs : List Nat)
  | poolAddThread
  | poolWake (qs ws : List Nat)
  | poolJoin (qs ws : List Nat)
  | awaitGet (a s : Nat) (qs ws : List Nat)
  | awaitSet (a : Nat)
  | atPreExit
  | preExit
  | removeSender (p : Nat)
  | send (p : Nat)
  | freeBuffer (p : Nat)
  | removeReceiver (p : Nat)
  | taskDone (p : Nat)
  /-- `inline`: the executor of a process downstream runs tasks in the call, or the process object's destructor calls the library -/
  | taskDoneFinal (p : Nat) (downstream : List Nat) (inline : Bool) (qs : List Nat)
  | clearToSend (p : Nat)
  | step (p : Nat)
  /-- `last`: the process downstream lost its other owners during the call, so that `broadcast` destroys it -/
  | broadcast (p : Nat) (downstream : List Nat) (last : Bool)
  | map (p : Nat)
  | stepYield (p : Nat)
  | timeout (p : Nat)
  deriving DecidableEq, Repr

/-- What a thread does. -/
inductive Code where
  | skip
  | lock (m : Mutex)
  | unlock (m : Mutex)
  /-- `unique_lock lock{m, try_to_lock}; if (lock) yes else no` -/
  | tryLock (m : Mutex) (yes no : Code)
  /-- `try_lock` until it succeeds, then `body` -/
  | spin (m : Mutex) (body : Code)
  /-- `while (…) condition.wait(lock)` with a lock of `m` -/
  | waits (m : Mutex)
  /-- in `condition.wait(lock)`, `m` released -/
  | asleep (m : Mutex)
  /-- code that is not the library's, which may call any functions of the library -/
  | user
  | call (f : Fn)
  | seq (a b : Code)
  | choose (a b : Code)
  | loop (body : Code)
  deriving Repr

open Code Mutex

/-- `{ lock_t lock{m}; body }` -/
def scope (m : Mutex) (body : Code) : Code := seq (lock m) (seq body (unlock m))

def seqs : List Code → Code
  | [] => skip
  | c :: cs => seq c (seqs cs)

/-- `get_try`, `get_try_r` (future.hpp:422-448, 546-559). -/
def getTryCode (s : Nat) : Code := scope (state s) skip

/-- `pts()` (src/concurrency/default_executor.cpp:45-53): the first call constructs the task system and registers a handler. -/
def ptsCode : Code := choose skip (scope (init 0) (scope exit skip))

/-- `get_system_timer` (system_timer.hpp:290-293). -/
def timerCode : Code := choose skip (scope (init 1) skip)

/-- `try_push`, `try_pop`, `wake` of the queues in turn, until one succeeds (default_executor.hpp:257-273, 293-303; the loops at 351-353, 402-404,
418-420, 433-435). -/
def tryQueues : List Nat → Code → Code
  | [], k => k
  | i :: is, k => seq (tryLock (queue i) (unlock (queue i)) skip) (choose skip (tryQueues is k))

/-- The same for the waiters (default_executor.hpp:199-208, 436-438). -/
def tryWaiters : List Nat → Code
  | [] => skip
  | i :: is => seq (tryLock (waiter i) (unlock (waiter i)) skip) (choose skip (tryWaiters is))

/-- `execute` (default_executor.hpp:397-407), called by the executors as `pts().execute` (473-476). -/
def executeCode (i : Nat) (qs : List Nat) : Code := seq ptsCode (tryQueues qs (scope (queue i) skip))

/-- `wake` (default_executor.hpp:431-440), with `waiters_size` (363-366). -/
def wakeCode (qs ws : List Nat) : Code := tryQueues qs (seq (scope pool skip) (tryWaiters ws))

/-- `add_thread` (default_executor.hpp:409-429). -/
def addThreadCode : Code := scope pool skip

/-- `free_buffer` of the senders in `downstream::minimum_free_buffer` (channel.hpp:675-683, 705-708; 631-637, 1612-1617). `last`: `p` in
`sender::free_buffer` is the last owner of the process. -/
def freeBuffersCode : List Nat → Bool → Code
  | [], _ => skip
  | q :: qs, last => seq (scope (proc q) skip) (seq (if last then choose skip user else skip) (freeBuffersCode qs last))

/-- The destructors of the senders in `_downstream.clear()` (channel.hpp:666, 696, 1571-1573, 1638-1641): `remove_sender` of each process, which
may hand a task to its executor. -/
def removeSendersCode : List Nat → Bool → List Nat → Code
  | [], _, _ => skip
  | q :: ds, inline, qs =>
    seq (scope (proc q) skip) (seq (choose skip (if inline then user else executeCode 0 qs)) (removeSendersCode ds inline qs))

/-- The functions, as sequences of lock operations and calls. -/
def code : Fn → Code
  /- `recover` (future.hpp:343-362, 477-495): an attached continuation is passed to the executor if the future is ready. -/
  | .attach s => seq (scope (state s) skip) (choose skip user)
  /- future.hpp:364-384, 497-516. -/
  | .detach s => seq (scope (state s) skip) (choose skip user)
  /- future.hpp:386-398, 518-528: the continuations are passed to their executors, then destroyed. -/
  | .setException s => seq (scope (state s) skip) user
  /- `value_::proceed` (future.hpp:1639-1648, 1659-1668). -/
  | .setValue s => seq (scope (state s) skip) user
  /- future.hpp:422-448, 546-559. -/
  | .getTry s => getTryCode s
  /- `attach_when_arg_`, `attach_tasks` (future.hpp:1216-1231, 1503-1518): `recover`, then `_holds[i] = …`, which was empty. -/
  | .attachWhenArg c s => seqs [call (.attach s), scope (guard c) skip]
  /- `when_all_shared::done`, `when_any_shared::done` (future.hpp:1074-1085, 1126-1138), `all_trigger::go` for a result (1449-1458) with
  `common_context::done` (1495-1498): the result is read under the lock, `_f` is called after it. -/
  | .whenDone c s => seq (scope (guard c) (choose skip (getTryCode s))) (choose skip user)
  /- `when_any_shared<S, void>::done` (future.hpp:1169-1180). -/
  | .whenAnyVoidDone c => seq (scope (guard c) skip) (choose skip user)
  /- `when_any_shared::failure` (future.hpp:1114-1124), `all_trigger::go` for an error (1460-1471) with `common_context::failure` (1491-1493). -/
  | .whenAnyFailure c => seq (scope (guard c) skip) (choose skip user)
  /- `when_all_shared::failure` (future.hpp:1087-1099): `_holds` are reset under the lock, which destroys the tasks of the arguments. -/
  | .whenAllFailure c inline => seq (scope (guard c) (choose skip (if inline then user else skip))) (choose skip user)
  /- `single_trigger::go` (future.hpp:1424-1439) with `common_context::done`, `failure` (1491-1498): the other `_holds` are reset under the lock. -/
  | .singleTrigger c s inline =>
    seq (scope (guard c) (choose skip (seq (if inline then user else skip) (choose skip (getTryCode s))))) (choose skip user)
  /- `when_any_shared<S, void>::failure` (future.hpp:1157-1167): the scope of the lock is the whole function, `_f` is called in it. -/
  | .whenAnyVoidFailure c => scope (guard c) (choose skip user)
  /- serial_queue.hpp:117-133. -/
  | .serialEnqueue q => seq (scope (serial q) skip) (choose skip user)
  /- serial_queue.hpp:77-87, with `empty` (63-75). -/
  | .serialAll q => seqs [scope (serial q) skip, loop user, scope (serial q) skip, choose skip user]
  /- serial_queue.hpp:89-97. -/
  | .serialSingle q => seqs [scope (serial q) skip, user, scope (serial q) skip, choose skip user]
  /- `operator()` of the timer (system_timer.hpp:273-280, 300-303). -/
  | .timerAdd => seq timerCode (scope timer skip)
  /- `timed_queue_run` (system_timer.hpp:229-250). -/
  | .timerRun => loop (seq (scope timer (seq (waits timer) (choose skip (waits timer)))) user)
  /- `~system_timer` (system_timer.hpp:257-264). -/
  | .timerDestroy => scope timer skip
  | .poolExecute i qs => executeCode i qs
  /- `run` (default_executor.hpp:346-361) with `pop` (275-283). -/
  | .poolRun i qs => loop (seq (choose (tryQueues qs skip) (seq (tryQueues qs skip) (scope (queue i) (waits (queue i))))) (choose skip user))
  /- The expansion thread (default_executor.hpp:412-428) with `waiter::wait` (210-218). -/
  | .poolExpand w qs => loop (seq (tryQueues qs skip) (choose user (scope (waiter w) (waits (waiter w)))))
  | .poolAddThread => addThreadCode
  | .poolWake qs ws => wakeCode qs ws
  /- `join` (default_executor.hpp:382-391) with `done` of queues and waiters (191-197, 285-291). -/
  | .poolJoin qs ws => seqs (qs.map (fun i => scope (queue i) skip) ++ ws.map (fun i => scope (waiter i) skip))
  /- `await` (await.hpp:55-73), `await_for` with `wait_for` (110-115, 120-133), `invoke_waiting` (40-47). -/
  | .awaitGet a s qs ws => choose skip (seqs [call (.attach s),
      scope (await a) (seqs [ptsCode, wakeCode qs ws, choose skip addThreadCode, waits (await a)]), user])
  /- The continuation of `await` (await.hpp:63-69) and `blocking_get_guarded::set` (93-108). -/
  | .awaitSet a => scope (await a) skip
  /- src/pre_exit.cpp:27-33, 67. -/
  | .atPreExit => scope exit skip
  /- src/pre_exit.cpp:36-46, 60-65. -/
  | .preExit => seq (loop (seq (scope exit skip) user)) (scope exit skip)
  /- channel.hpp:598-610. -/
  | .removeSender p => seq (scope (proc p) skip) (choose skip user)
  /- `enqueue` (channel.hpp:612-629). -/
  | .send p => seq (scope (proc p) skip) (choose skip user)
  /- channel.hpp:631-637. -/
  | .freeBuffer p => scope (proc p) skip
  /- channel.hpp:783-802. -/
  | .removeReceiver p => choose skip (seq (scope (proc p) skip) (choose skip user))
  /- `task_done` of a process that is not finished (channel.hpp:806-819). -/
  | .taskDone p => seq (scope (proc p) skip) (choose skip user)
  /- `task_done` of a process that is (channel.hpp:806-825): the senders downstream and the process object are destroyed under the lock. -/
  | .taskDoneFinal p ds inline qs => seq (scope (proc p) skip)
      (scope (down p) (seq (removeSendersCode ds inline qs) (if inline then user else skip)))
  /- channel.hpp:827-852: `get_process_state` (837) is the process object's `state()`. -/
  | .clearToSend p => seqs [scope (proc p) skip, choose skip (seqs [user, scope (proc p) skip, choose skip user])]
  /- `step` of a process without `yield` (channel.hpp:1091-1121) with `pop_from_queue` (854-871): the calls of `clear_to_send` upstream, of the
  process object, and of `broadcast` or `task_done` come after the lock. -/
  | .step p => seq (scope (proc p) skip) user
  /- channel.hpp:1130-1164. -/
  | .broadcast p ds last => seqs [scope (down p) (freeBuffersCode ds last), scope (proc p) skip, user, call (.clearToSend p)]
  /- channel.hpp:1166-1175. -/
  | .map p => scope (down p) skip
  /- `step` of a process with `yield` (channel.hpp:910-990, 992-1074): the lock of `_timeout_function_control` is held to the end. -/
  | .stepYield p => tryLock (tf p) (seq user (unlock (tf p))) user
  /- The function scheduled for a timeout (channel.hpp:968-985, 1052-1069). -/
  | .timeout p => choose skip (spin (tf p) (seq (choose skip user) (unlock (tf p))))

/-- The mutexes held by a thread, the latest first, and what it has yet to do. -/
structure Thread where
  held : List Mutex := []
  code : List Code := [.user]

/-- The threads and who owns which mutex. Every thread starts with code of the user's. -/
structure St where
  th : Nat → Thread := fun _ => {}
  owner : Mutex → Option Nat := fun _ => none

def upd {α β : Type} [DecidableEq α] (f : α → β) (x : α) (y : β) : α → β := fun z => if z = x then y else f z

/-- The outcome of a step of a thread: it has ended or the choice is not allowed, it waits for a mutex, undefined behaviour (it locks or tries
to lock a mutex that it owns, or unlocks one it does not), or the next state. -/
inductive Out where
  | no
  | blocked (m : Mutex)
  | ub (m : Mutex)
  | next (s : St)

/-- Thread `t` gets `m` and goes on with `k`. -/
def acquire (s : St) (t : Nat) (m : Mutex) (k : List Code) : St :=
  { th := upd s.th t ⟨m :: (s.th t).held, k⟩, owner := upd s.owner m (some t) }

/-- Thread `t` gives up `m` and goes on with `k`. -/
def release (s : St) (t : Nat) (m : Mutex) (k : List Code) : St :=
  { th := upd s.th t ⟨(s.th t).held.erase m, k⟩, owner := upd s.owner m none }

/-- Thread `t` goes on with `k`. -/
def goOn (s : St) (t : Nat) (k : List Code) : St := { s with th := upd s.th t ⟨(s.th t).held, k⟩ }

/-- One step of thread `t`. `pick` decides the branches and whether a `try_lock` of a free mutex succeeds; `calls` are the functions that code
of the user's calls. -/
def step (allowed : Fn → Bool) (s : St) (t : Nat) (pick : Bool) (calls : List Fn) : Out :=
  match (s.th t).code with
  | [] => .no
  | .skip :: k => .next (goOn s t k)
  | .lock m :: k =>
    match s.owner m with
    | none => .next (acquire s t m k)
    | some u => if u = t then .ub m else .blocked m
  | .unlock m :: k => if s.owner m = some t then .next (release s t m k) else .ub m
  | .tryLock m yes no :: k =>
    match s.owner m with
    | none => if pick then .next (acquire s t m (yes :: k)) else .next (goOn s t (no :: k))
    | some u => if u = t then .ub m else .next (goOn s t (no :: k))
  | .spin m body :: k =>
    match s.owner m with
    | none => if pick then .next (acquire s t m (body :: k)) else .next s
    | some u => if u = t then .ub m else .next s
  | .waits m :: k =>
    if s.owner m = some t then
      if pick then .next (release s t m (.asleep m :: .waits m :: k)) else .next (goOn s t k)
    else .ub m
  | .asleep m :: k => if pick then .next (goOn s t (.lock m :: k)) else .no
  | .user :: k => if calls.all allowed then .next (goOn s t (calls.map .call ++ k)) else .no
  | .call f :: k => .next (goOn s t (code f :: k))
  | .seq a b :: k => .next (goOn s t (a :: b :: k))
  | .choose a b :: k => .next (goOn s t ((if pick then a else b) :: k))
  | .loop b :: k => if pick then .next (goOn s t (b :: .loop b :: k)) else .next (goOn s t k)

/-- A step as an action: which thread, and the choices. -/
structure Act where
  t : Nat
  pick : Bool := true
  calls : List Fn := []

/-- A sequence of steps; `none` if one of them is not possible. -/
def exec (allowed : Fn → Bool) (s : St) : List Act → Option St
  | [] => some s
  | a :: as =>
    match step allowed s a.t a.pick a.calls with
    | .next s' => exec allowed s' as
    | _ => none

def Reachable (allowed : Fn → Bool) (s : St) : Prop := ∃ as, exec allowed {} as = some s

/-! ## What is claimed -/

/-- `_timeout_function_control` of a process. -/
def Mutex.isTf : Mutex → Bool
  | .tf _ => true
  | _ => false

/-- Thread `t` wants a mutex that thread `u` owns. -/
def WaitsFor (s : St) (t u : Nat) : Prop := ∃ m k, (s.th t).code = .lock m :: k ∧ s.owner m = some u

/-- Thread `t` waits for `u`, directly or through others. -/
inductive Chain (s : St) : Nat → Nat → Prop where
  | one {t u : Nat} : WaitsFor s t u → Chain s t u
  | more {t u v : Nat} : WaitsFor s t u → Chain s u v → Chain s t v

/-- Thread `t` is in code of the library, not in the user's, and not asleep in a condition variable. -/
def InLibrary (s : St) (t : Nat) : Prop :=
  ∃ c k, (s.th t).code = c :: k ∧ (match c with | .user => False | .call _ => False | .asleep _ => False | .spin _ _ => False | .loop _ => False | _ => True)

/-- Thread `t` holds a mutex other than a `_timeout_function_control`. -/
def Holds (s : St) (t : Nat) : Prop := ∃ m, s.owner m = some t ∧ m.isTf = false

end Verif.Locks
