# Design of the formal model of stlab/libraries

The properties are in `properties.jsonl`; the status of each and the exact theorem names are in
`MANIFEST.json`. This file says what is modelled, how each property is proved, what is trusted, and where
the code and the properties disagree.

## Approach

* A model file transliterates the C++ function by function; the comment of each definition cites the
  lines it models and says where it is simplified. `…Inv.lean` and lemma files hold invariants and
  helper lemmas. `…Props.lean` files hold the property theorems (`cNN_…`), stated with observable
  notions (traces of events, values read, traversals), each with an `example` that meets its hypotheses
  in a non-trivial way.
* Undefined behaviour (dereferencing a freed node or a null pointer, unsigned wrap-around of a count,
  calling an empty function, reading a result that is not there, locking a mutex that is gone) is an
  outcome of its own (`none` or `ub`), never silently totalised. Every model with such outcomes has a
  theorem that says they are not reached, or a counterexample that says they are.
* Concurrent code is an executable labelled transition system. A critical section (code under one mutex
  acquisition) is one step, and so is each externally visible action (calling a user function, its
  return, calling an executor, the executor starting a job). All interleavings of any number of threads
  are considered. Safety theorems are inductive invariants over all reachable states.
* "Eventually" is stated as one or more of: in every state where no thread has anything to do the thing
  has happened; a thread that is not in user code can take a step; the steps between are bounded by a
  measure, whatever other threads do. Fairness of the scheduler is not formalised.
* Where the code violates the property, the negation is proved on a concrete witness
  (`…_counterexample`) and what does hold is a theorem, with the suffix `_partial` if it is weaker than
  the property's statement.
* `seeded/LOG.jsonl` lists the wrong programs the theorems have been tested against.

## Trusted base

* The Lean 4.33.0 kernel; the axioms `propext`, `Classical.choice`, `Quot.sound`.
* The correspondence between the C++ and the model definitions, by reading. The C++ has not been compiled
  or run here.
* The standard library by contract: `std::push_heap`/`pop_heap` (the front is a maximal element; ties
  arbitrary where the model says so), `std::function` (a moved-from one is empty), `std::mutex`,
  `std::condition_variable` (spurious wake-ups, `notify_one` wakes some waiter), `try_lock` (may fail
  although the mutex is free), `std::shared_ptr`/`weak_ptr` (the use count is the number of owners),
  `std::optional`, `std::variant`.
* The memory model below the granularity of mutexes and atomics is not modelled: each critical section
  and each access of an atomic is one step, sequentially consistent. Data races outside of locks are only
  representable where the model splits the accesses into several steps. The exceptions are C73, C80, C81, C85, C86, C88, C113, C114, C118 and C119, which compute "happens before" for
  the shared state of a future, the serial queue, the thread pool, the timer, the contexts of when_all and when_any, and channels; C73 and C85 trust that releasing a `std::shared_ptr` is acquire-release, `use_count()` is relaxed, and users
  hand objects from thread to thread with synchronisation.
* C87 trusts the contracts of the queues of Qt, libdispatch and Emscripten that are written down in MainExecutor.lean.
* Allocation never fails; a fresh address is an arbitrary unused one. Copying and destroying user values
  does not throw, except in C83 (and C82 for threads). User functions may throw where the code has a handler for it.
* `size_t` counters are natural numbers and going below zero is the error outcome, except where
  wrap-around is the point (`free_buffer`, the key of the notification queue), which use fixed widths.

## What is modelled

| Code | Model | Properties |
|---|---|---|
| forest.hpp: nodes, full order and edge iterators, insert, erase, splice, insert_parent, reverse, size, copy, move, swap, equality, child_adaptor | Forest/Model | C01–C11, C51, C52 |
| forest.hpp: child, preorder/postorder, filter, reverse and depth iterators; forest_algorithms.hpp: equal_shape, flatten, unflatten, transcribe | Forest/Adaptors | C12–C19 |
| iterator/set_next.hpp | SetNext | C64 |
| algorithm/reverse.hpp: reverse_append, reverse_nodes; reverse_until | Forest/Model, ReverseAny, ReverseUntil | C08, C20 |
| serial_queue.hpp: serial_instance_t, both modes | SerialQueue | C21–C23 |
| src/pre_exit.cpp | PreExit | C24 |
| default_executor.hpp: notification_queue | NotificationQueue | C25 |
| default_executor.hpp: priority_task_system, waiter, join, wake, add_thread | ThreadPool, ThreadPoolAwait, ThreadPoolJoin, PoolThreads | C26, C53, C54, C62 |
| system_timer.hpp (portable); duration_to_FILETIME (Windows) | Timer, WindowsTimer | C27 |
| default_executor.cpp: pts; pool, timer and pre_exit together | Exit | C76 |
| default_executor.hpp, default_executor.cpp, system_timer.hpp for Windows, with pre_exit | Windows, WindowsTimer | C79, C27 |
| serial_queue.hpp with threads and clocks | Sync.Clock, Sync.Sound, Sync.Serial | C80 |
| default_executor.hpp 180-441 with threads and clocks | Sync.Pool | C81 |
| default_executor.hpp: constructor of the pool, add_thread; await.hpp, with failing creation of threads | NoThread | C82 |
| forest.hpp: insert, insert_parent, copy constructor, copy assignment; forest_algorithms.hpp: unflatten, with throwing copies | Forest/Throw | C83 |
| forest.hpp: size, size_valid, empty, operator== on several threads | Forest/Concurrent | C84 |
| future.hpp 1063-1562 (when_all, when_any) with threads and clocks | Sync/When | C85 |
| system_timer.hpp 209-281 with threads and clocks | Sync/Timer | C86 |
| main_executor.hpp, with the contracts of Qt, libdispatch and Emscripten | MainExecutor | C87 |
| await.hpp: data races and lifetimes in await, await_for, blocking_get_guarded | Sync.Mem, Sync.Await | C88 |
| forest.hpp: front, back, push_front, push_back, pop_front, pop_back | Forest.Ends | C89 |
| test/forest_test.cpp, test/channel_merge_*_tests.cpp, test/channel_functor_tests.cpp, test/channel_process_tests.cpp, part of test/channel_tests.cpp, replayed in the models with `#guard` (these check the transcription, they prove nothing) | Replay.Forest, Replay.Channel, Replay.Process | - |
| serial_queue.hpp, channel.hpp `run`: executors that throw or lose jobs | SerialQueueThrow, Channel.Refuse | C90 |
| task.hpp: observers, results, exceptions, layout | TaskTarget | C91 |
| future.hpp: futures as handles, reading, mapping of void | Future/Handle | C92 |
| forest.hpp: adaptors and navigation over any iterator, stacked | Forest/Stack | C93 |
| future.hpp: executors that throw or destroy tasks | Future/Refuse | C96 |
| channel.hpp: receiver \| sender | Channel/Relay | C97 |
| future.hpp: graphs with when_all, when_any | Future/JoinGraph | C98 |
| channel.hpp: copies that throw in broadcast | Channel/CopyThrow | C99 |
| scope.hpp | Scope | C100 |
| await.hpp: blocking_get, blocking_get_for | Future/Blocking | C101 |
| future.hpp, channel.hpp: comparison of handles | Small/Same | C102 |
| future.hpp: when_all, when_any with throwing copies | Future/WhenThrow, Future/WhenThrowProps | C103 |
| future.hpp, serial_queue.hpp: depth of the stack | Future/Depth, Future/DepthProps | C104 |
| future.hpp: then, flattening, set_value with throwing copies and moves | Future/CopyThrow, Future/CopyThrowProps | C105 |
| forest.hpp: all members, validity of iterators | Forest/Stable | C106 |
| future.hpp, serial_queue.hpp, default_executor.hpp, immediate_executor.hpp together | Layers, LayersInv, LayersStep, LayersMeasure, LayersProps, LayersThreads | C107 |
| channel.hpp, serial_queue.hpp, default_executor.hpp, immediate_executor.hpp together | ChannelLayers, ChannelLayersInv, ChannelLayersProps | C108 |
| channel.hpp: processes with await and yield, termination | Channel/ProcessEnd, Channel/ProcessEndProps | C109 |
| channel.hpp: sources, termination | Channel/SourceEnd, Channel/SourceEndProps | C110 |
| future.hpp: when_all, when_any with default_executor.hpp, serial_queue.hpp, immediate_executor.hpp | JoinLayers, JoinLayersInv, JoinLayersProps | C111 |
| serial_queue.hpp over serial_queue.hpp | SerialTree, SerialTreeProps | C112 |
| channel.hpp: what its mutexes and executors order | Sync/Channel, Sync/ChannelProps | C113 |
| channel.hpp: what the mutexes and executors of a process with await and yield order | Sync/Process, Sync/ProcessFrame, Sync/ProcessProps | C114 |
| utility.hpp: copy, move, move_if | Small/Copy | C115 |
| traits.hpp: all_true | Small/AllTrue | C116 |
| set_current_thread_name.hpp, its uses in default_executor.hpp | Small/ThreadName | C117 |
| future.hpp: what the mutexes of the shared states and the executors order | Sync/Graph, Sync/GraphFrame, Sync/GraphProps | C118 |
| future.hpp: what the mutexes of the shared states and contexts and the executors order in graphs with when_all and when_any | Sync/JoinGraph, Sync/JoinGraphFrame, Sync/JoinGraphProps | C119 |
| test/model.hpp: annotate_counters, annotate | Counters | C78 |
| the mutexes of all of concurrency/ and of pre_exit.cpp | Locks | C77 |
| default_executor.hpp, default_executor.cpp, system_timer.hpp for libdispatch, with pre_exit | Dispatch | C75 |
| executor_base.hpp: execute_at, execute_delayed | ExecuteAt | C28 |
| task.hpp: task_ | Task | C29 |
| future.hpp: shared_base, shared, packaged_task, promise, future for one state, copyable results | Future/Shared | C30, C31, C33, C34, C65 |
| future.hpp: then, recover, detach, dropping, future of future | Future/Graph, Future/Determinate | C32, C34, C35, C94 |
| future.hpp: when_all, when_any, packs and ranges | Future/When | C36, C37, C68 |
| await.hpp: await, await_for | Future/Await | C38 |
| future.hpp: move-only results | Future/MoveOnly | C30, C31, C34, C55 |
| future.hpp: memory order of the accesses to shared_base | Future/Race | C73 |
| ready_future.hpp; future.hpp: future_with_broken_promise | Future/Ready | C63 |
| future.hpp: coroutine_traits, operator co_await | Future/Coroutine | C58 |
| channel.hpp: shared_process, queue strategies (default, zip, round robin, unordered), buffer sizes, errors, closing | Channel/Net, Channel/Kahn | C39–C46, C57, C59, C66, C69, C74, C95 |
| channel.hpp: downstream, minimum_free_buffer, broadcast with receivers that are destroyed | Channel/Fanout | C56 |
| channel.hpp: a shared_process whose process object has await and yield; function_process | Channel/Process, Channel/ProcessFun | C60, C61, C67, C74 |
| channel.hpp: a shared_process whose process object has yield but no await | Channel/Source | C70 |
| channel.hpp: sender and receiver objects and their counts | Handles | C45, C47 |
| channel.hpp: owners of processes, channel, operator|, merge_helper, map | Channel/Life | C71, C72 |
| channel.hpp: annotations | Annotate | C48 |
| progress.hpp | Progress | C49 |
| tuple_algorithm.hpp, functional/utility helpers for placeholders and void | Tuple | C50 |

Not modelled: the C++ type system except for C48, real time, headers that only re-export, memory exhaustion.

## Per property

Forest. The heap is `Ptr → Option Node`; a node has the four links of `node_base` and maybe a value. The
*word* of a forest is the list of its (node, edge) positions in full order. `Rep h t w` says that the forest
with sentinel `t` is represented in heap `h` by the well nested word `w`. A world is a heap plus cached
sizes. `History.lean` has the operations with their documented preconditions; `Reachable` is closure under
them. Theorems are about every reachable world and are stated with the traversal a user sees
(`Observe.lean`) or with lists of ordered trees (`Tree.lean`).

* C01 `++` and `--` move to the neighbours in the word; the traversal is the word; well nestedness is part
  of the invariant.
* C02, C03, C05, C07, C51, C52 each modifier edits the word as stated (refinement of heap surgery to edits
  of the word), and changes no other forest and no value.
* C04 induction over the word with the stack depth, compared with "both edges in the range".
* C06, C10, C11 invariant over all histories with any number of forests: words disjoint, allocated
  addresses = sentinels and nodes of words, cached size unknown or right.
* C08 false; see below (for all non-empty ranges, Forest/ReverseAny). The partial theorem is the empty range.
* C09 the loop of `operator==` decides equality of trees; the copy constructor builds equal trees of fresh
  nodes.
* C12 false if a size is unknown; proved if both are valid, and what it computes otherwise.
* C13, C14 between words, sequences of optionals and trees, through the model of `transcribe_iterator`.
* C15–C19 the adaptors as functions over heap positions, compared with specifications on the word. C17
  backwards from the range's own end, C18 edge change, C19 backwards from `end()` are false; the rest is
  proved.
* C65 the position of a continuation in `_then` and in the list being worked off, as an invariant of a pair of continuations.
* C64 rings of nodes with links in both directions; the operations as edits of the list of nodes.
* C20 indices into a list; all sequences and middles.

Executors.

* C21–C23 transition system with any number of submitters and an executor that starts jobs in any order;
  the right to run tasks is a token. Finishing within a bounded number of machinery steps.
* C24 stack with handlers registering handlers, all interleavings; `pre_exit` returns after running what is left.
* C25 key `priority << 62 | count` in 64 bits; first come first served among equal priorities, for fewer
  than 2^62 pushes.
* C26 `N` queues, try-lock failures, workers, expansion threads, `wake`. Conservation of tasks, no lost
  wake-up, a worker with a non-empty queue starts a task within N+2 of its own steps.
* C53 `join` returns: its calls of `done()` go through, the threads then make a bounded number of steps and are never stuck (a measure that
  every step of a thread decreases). Everything submitted before `join` is run; tasks submitted by still running tasks can be dropped
  (counterexample).
* C62 the threads alone, the queues abstract: any thread may call `add_thread` at any time; `join` in steps; sizes for
  all numbers of cores.
* C54 false because `wake` may wake a waiter whose try_lock fails (counterexample). Partial, for any
  interleaving: a woken or added thread that gets its locks starts a task within N+3 of its own steps while
  some queue stays non-empty, and until then it has a step to make.
* C27 arbitrary monotone clock, the destructor at any moment. Not early, by deadline, at most once, no lost
  wake-up.
* C75 libdispatch by its contract: a group is a counter, a timer calls its function some time later. The stack of handlers is that of C24;
  the singletons are created at any moment. The order of the two handlers is an invariant: the timer is closed before the wait for the
  group begins, then nothing enters the group any more but from inside.
* C76 the models of C24, C26 and C27 side by side; the pool's part is carried over from C53 along the projection to the pool.
* C77 each function is the sequence of its lock operations and of its calls of foreign code; branches on data are free choices, `try_lock` may
  fail, foreign code may call anything. Proved by a ranking of the mutexes and a check of every function against it (`check_code`), which is an
  invariant of all threads. Over-approximation: the positive theorems carry over to the code; each counterexample says how the code gets there.
* C78 the atomic operations one by one, the condition variable by its contract. The positive part of `wait` is an invariant over executions in
  which destructors count only while the mutex is free, as they would if they locked it.
* C79 as C75, with one cleanup group per priority instead of the dispatch group; making and submitting a work object are two steps. Trusted:
  `CloseThreadpoolCleanupGroupMembers` also waits for members made by callbacks meanwhile (the documentation is silent on this).
* C80 clocks per thread and mutex; each critical section is one step; the executor passes on the clock of the caller. `Sync.Sound` proves that
  the clocks are exactly the happens-before relation of an execution.
* C81 the same clocks for the thread pool; the choice of queues and tasks is left open; condition variables count as read when used and written when
  destroyed. `Polite` are the executions in which the program uses the pool no more when it calls `join()`.
* C82 the loops and transition systems of C62 and C38, with an exception at each creation of a thread.
* C83 induction over the source range; the loop cut short at copy `n` is a sequence of single insertions, so the result is again a reachable state.
* C84 invariant over all interleavings: a count about to be stored is the number of nodes, and a size about to be returned is known.
* C85 invariant over all executions: an access either is covered by the clock of `_guard`, or by that of the thread that has decided, and after the decision no critical section touches the
  members the deciding thread reads.
* C86 invariant over all executions: what is not known to the destructor's thread when it has set `_stop` is known to the timer thread, which it joins.
* C87 invariant: the functions that wait, run or are deleted are those given to the executor, and what was called followed by what waits is in the order given, for Emscripten on each side.
* C88 await: the waiting thread or the mutex knows every access, and whoever runs the continuation knows the construction. await_for: every access is known to an owner of the data or to the count of owners.
* C89 from the theorems on insert (C02) and erase (C03) at the first and the last position of the walk; sequences by induction.
* C90 safety by refinement: what is observed with failures can be observed with an executor that is merely slow. The counterexamples are proved for all executions: no task is ever started after a refusal.
* C91 refinement: the representation (vtable and store) of every task is related to the content of a variable; every operation keeps the relation and shows the same. Callable types are a parameter.
* C92 refinement against variables that refer to outcomes; one thread (threads are in C30, C55, C73).
* C93 laws of a full order iterator (`Laws`), kept by each adaptor; everything else follows from the laws. `*` of a reverse iterator over another adaptor does not compile (its operator* is not const); the model gives it anyway.
* C94 sequential evaluation `eval` of a graph (structural in fuel) is defined apart from the transition system; agreement by induction on the history before a resolution, completeness by induction on the fuel at a state at rest.
* C95 stream semantics `callAt` of a network (recursion over the depth), apart from the transition system; agreement by induction over the processes. No deadlock: the process that got least far, the first of these, has all it needs, and nobody it waits for has anything of it left.
* C96 the transition system of C30-C34 with executors that throw or destroy tasks; a history with refusals is one without in which continuations are canceled.
* C97 graph of channels and relays; the count of senders agrees with the senders of the user and of the relays; closing by induction along the relays.
* C98 product of the graph and of one transition system of C36/C37 for each join; the theorems on joins give the argument that decided, the history gives the order, evaluation with these choices by strong induction on the history; at rest by induction on the depth of the graph.
* C99 counterexamples are executions; if the copy for the first receiver throws, a simulation by the network in which the function has thrown instead (the counts differ until they are set again), which satisfies the invariant of C39.
* C100 small steps with a stack of frames, many threads; the trace of each thread is that of a big-step evaluation (invariant: done plus left to do), locks belong to frames, no deadlock by following the waits to greater mutexes.
* C101 functions of the states of the two systems of C38.
* C102 histories of handles with addresses that are used again; invariant: what is owned is where the pointer says, and every object has one address.
* C103 the transition system of C36 and C37 with one more step; their invariant is kept, except by when_any on a range, which has an invariant of its own after the exception.
* C104 three small transition systems whose states are stacks; invariants say what is below the innermost call. The counterexamples are by induction on the length of the chain. Not modelled: the stack that the user's functions need, and when_all/when_any/flattening, which nest in the same way.
* C105 the transition system of C32, C34, C35, C94 with steps that throw; a simulation by the former, in which the function throws instead of its argument, carries over its theorems.
* C106 which nodes a call erases is said in terms of traversals (`Erased`); the abstract effect of each operation, already proved for C01-C12, is then compared with it.
* C107 the product of the models of the graph of futures, of the pool and of serial queues, with the tasks of one being the jobs of the next; an invariant says where every packaged task and every job is, a weight decreases with every step that is not a new call, and a state without such steps is shown to have nothing left to do.
* C108 the product of the network and of the executors: the step of a process is a task of its executor. The theorems about the parts hold in it; termination is lexicographic: first the network (C59), then the steps not yet given to an executor and the weight of C107.
* C109 a lexicographic measure on the states of C60: messages and tokens that are still to be worked off, then how often the object is still going to yield, then the positions of the threads and of the receivers. Failing try_locks leave it as it is.
* C110 one natural number that every step other than a failing try_lock lowers, on the states of C70; it gives the bound on the number of steps. The condition is that of C70, and the same bug violates it.
* C111 the graphs of C98 and the executors of C107 put together as in C108: the task of a node, and each continuation on an argument of a join, is a task of the executors, and the continuation that completes a join calls its function. One natural number that every step lowers gives termination; a task that is executed can always go on or return, so that at rest the executors are at rest, and with them the graph.
* C112 a forest of copies of the serial queue of C21-C23: giving a job to the executor is `enqueue` in the queue below, and that queue's call of the task is the execution of the job. The invariant says that the jobs of a queue that wait are the tasks of the queue below that belong to it and were not started, and that a job is executed only while the queue below calls it. Exclusion is induction over the depth; termination a sum in which a job given to the executor costs three times as much one level up.
* C113 vector clocks over the transition system of the networks of channels; a step that locks a process mutex takes over the clock of the last holder, a new job the clock of the thread that called the executor. The invariant says where the uses of a process are known: to the thread that runs it, to the mutex while none does, to the thread that destroys it. For buffer sizes for which C40 fails an example shows two uses without order.
* C114 vector clocks over the process of C60 (Sync/Process). ProcessFrame says for each step how the thread that runs the process changes and who uses the process object; the invariant is then proved from this alone. Changes are known to the thread that runs the process, to the process mutex while none does, and to the mutex and then the thread of a receiver from the sending of a result until it has resumed the process. An example shows two uses without order for a process with a time-out.
* C115 the rules of list initialisation as a function of the constructors of a class (Small/Copy); false for classes whose initializer-list constructor takes the object itself, for every value of std::vector<std::any>. The rules are those of C++17 with core issues 1467 and 2137, as GCC has them; compilers that prefer the copy constructor do not show the effect.
* C116 induction over the pack (Small/AllTrue).
* C117 invariant over all programs that create and name threads (Small/ThreadName); false on Linux, proved for the other systems.
* C118 vector clocks over Future/Graph (Sync/Graph). GraphFrame says how each node goes on in a step, which mutex is locked and what the new events are; the invariant says in which clock everything about a node and the resolutions it needs is known: that of the mutex of the node it waits for, of its task at the executor, or of the thread that calls its function.
* C119 vector clocks over Future/JoinGraph (Sync/JoinGraph). For each join the invariant says that the resolution of an argument is known in what is passed on with its continuation, then to the thread that runs it, then in `_guard`; the thread about to call the function knows all arguments that decide what happens, and later critical sections do not change which ones do.
* C28 false for the second use (counterexample), proved for the first.
* C29 histories of construction, move, assignment, swap, call, destruction. Self-move-assignment and
  self-swap are undefined, and a moved-from task still says it holds a target (counterexamples).

Futures.

* C30, C31, C33, C34 one shared state with any number of threads, producers, futures and continuations, each
  critical section a step (`Shared`). C33 is false when a live producer is overwritten by assignment.
* C32, C34, C35 graphs of futures of any size (`Graph`): errors travel along chains, dropping cancels only
  what nobody else owns, inner futures are kept alive.
* C36, C37 any number of arguments and completion orders, attaching interleaved with resolution. An empty
  pack never calls the function of `when_all` (counterexample).
* C68 who owns the context and the continuations, in the same model.
* C38 waiting thread and continuation with mutex, condition variable, spurious wake-ups and a time-out at
  any moment.
* C55, and the `move_only` parts of C30, C31, C34: the specialisation for results that can not be copied.
* C63 the calls that make a ready future are a fixed beginning of an execution of the model of C30.
* C58 stacks of frames per thread, because a coroutine is resumed inside of the call that resolves the
  awaited future. Trace invariant: the events of a coroutine form a `History`.

Channels. A network is any acyclic graph of processes with queue strategies and buffer sizes; a
thread runs `run`, `step`, `dequeue`, `broadcast`, `task_done`, `send` as small steps; functions are
arbitrary and may throw, and errors may be sent. The invariant holds in all reachable states; a thread that
ended because of an error stays in the state as `dead`, since its process stays marked as running.

* C39, C40 at most one thread in the function of a process, messages in order, results of each call sent on;
  for networks in which each process with downstream has a downstream process with buffer size 1
  (`Net.Tight`; the default). False for every other size, without a bound on the number of threads (C40
  counterexamples, CounterAny.lean).
* C41 bound 1 for `Net.Tight`; false for buffer size 2.
* C42–C44 what a strategy takes out is right for all sizes; the order of invocations for `Net.Tight`, with
  counterexamples for size 2.
* C45 never closed while a sender exists, closed only after its messages were handled, all processes closed
  at quiescence (plain and unordered). False for zip_with with unequal numbers of messages, and if the last
  sender is overwritten by assignment.
* C46 false: a process that gets an error stays marked as running for ever, in every network with `Net.Tight`, and never closes
  what is downstream (`c46_wedged`); all other processes marked as running go on or wait for one that does.
* C56 a process with receivers that may be destroyed at any moment; the sum of what it waits for is an invariant, so it is known
  for ever whether it can go on.
* C57 no message is handled twice, for all buffer sizes, with errors.
* C59 a lexicographic measure (messages weighted by the size of the network below them; positions of the
  threads) decreases with every step of a thread; "eventually" is an inductive predicate over all schedules.
* C66 for all buffer sizes: what a process waits for is on its way (invariant `Flow`, several threads may be in one process), and
  accounts of messages and results as sums over all threads. Closing is excluded: there it is false.
* C69 that no process below with buffer size 0 is ever waited for (invariant `Loose`), and `Flow` of C66.
* C60 one process with `await`, `yield`, `close`, `set_error` and `state` of any kind, any number of receivers with
  buffer size 1, delayed yields, throwing members, spurious failures of try_lock; an invariant for processes that
  do not await with a time-out (`Untimed`). The executor runs each task on a thread of its own.
* C67 the same model for all process objects: invariants `Wide` (queue, lock, end), `Sp` (the suspend count is bounded by the pending
  calls of clear_to_send) and `Busy` (a process marked as running has something that is going to restart it); `Locked` for objects
  that never delay a `yield`.
* C70 one source with `state` and `yield` of any kind, any number of receivers of any buffer sizes, of which only the queue and the
  calls of `clear_to_send` are modelled; invariants `Quick` and `Paid` (sources that do not delay; the suspend count is bounded by
  the pending calls of `clear_to_send`) and `One` (some buffer size is 1; exactly one thread goes on with the source, and the count is
  the number of pending calls).
* C71, C72 graphs of processes with the receivers of C47; the use count of a process is computed from its owners, and a process that
  loses its last owner is destroyed with what it owns. What processes do with messages is left open. Invariants: who owns what
  exists, what exists is owned, senders in a downstream go to processes that have it as upstream; a process that has started has no
  receiver that is not ready. For an attached process, its queue, its senders and the results upstream are followed together
  (`Track`).
* C73 threads, future objects and continuations with vector clocks; an access that is not ordered after an earlier one it conflicts
  with is the outcome `race`. Invariant: every access is known to an owner of the state or to the reference count, every write of the
  result to every thread that knows the future is ready, every access to `_then` to the mutex.
* C74 on the models of C39 and C60: for each place in the code which of the members that have no lock of their own it reads or
  writes, and with which lock; the invariants of C39 and C60 exclude conflicts. The assertions of the code as statements on the states
  before them.
* C61 `function_process` as a process object of C60: an invariant relates the messages taken, the bound argument and
  the results.
* C47 any history of copying, moving, assigning, `set_ready` and destroying receivers.
* C48 all orders of `&` with `executor` and `buffer_size`, as a function to "does not compile" or a result.
* C49 histories of wrapping, copying, moving, assigning, calling, destroying.
* C50 tuples as lists.

## Disagreements between the code and the properties

Each has a theorem `…_counterexample` unless it says "not a theorem".

* C08 `forest::reverse` of a non-empty range loses and leaks all nodes: the loop of `reverse_append`
  (algorithm/reverse.hpp:35) takes `end` where it needs `first`, so it links `end` to itself.
  Proved for every non-empty range of siblings of every forest (Forest/ReverseAny): the nodes are lost, and with
  two or more siblings that are followed by another the call does not return.
* C12 `equal_shape` is wrong when a size is unknown: the loop only looks at as many positions as
  the first forest has.
* C17 decrementing the end of a filtered range does not filter, and a range that ends inside a node failing the predicate is
  left without being noticed; C18 changing the edge of a reverse iterator
  gives an iterator unequal to the one reached by traversal; C19 the end of a depth range is one too deep.
* C28 the first use of an `execute_at` object moves the executor out of it; a second use gives the timer an empty
  `std::function`, and the program terminates when the timer calls it (duration other than zero).
* C29 task.hpp:226-232 has no check for self-assignment; moving does not reset the source.
* C30, C34 move-only results: `get_try` moves the value out through a const future; `detach()` is lost when a
  continuation is attached afterwards since the single entry `_then` is overwritten.
* C33 the defaulted move assignments of `promise` and `packaged_task` (future.hpp:584, 668) do not break the
  promise that is overwritten.
* C68 `when_any` of a pack does not reset `_holds` when it has a value (future.hpp:1126-1138); the range version does. A future stored
  into `_holds` after the decision stays there (future.hpp:1229-1230).
* C36 `when_all` of an empty pack never calls its function; an empty range does.
* C40–C44 with a downstream buffer size other than 1 a process may be run by two threads at once, exceed the
  buffer, and reorder messages.
* C66 with a downstream buffer size other than 1, `clear_to_send` marks a process as not running while its function executes
  (channel.hpp:838-848); when its last sender goes, the process is closed, `_process` is reset under the running function, and the
  result is lost.
* C45 zip_with and round_robin drop what is left over when a queue is closed, and with unequal numbers of
  messages the process is never closed.
* C46 a process that gets an error (the function upstream has thrown) sets `do_close` and does nothing with it (channel.hpp:1107-1109):
  it stays marked as running, handles nothing any more and never closes its downstream.
* C56 a receiver that was destroyed stays in `_downstream` and is waited for (channel.hpp:1141-1151): with another one left, the
  process handles nothing after the next message. For results that cannot be copied `size()` is always 1 (channel.hpp:697), so
  even a process without a receiver stops after one message. `free_buffer()` is called twice in line 681 and the
  second result dereferenced.
* C65 a continuation attached to a future that has just become ready may overtake earlier ones.
* C60 `close` is called each time the queue is empty, though a sender exists (channel.hpp:896-900); if `close` leads to a
  yield the receivers are never closed and the process stays marked as running (channel.hpp:828-833); with a time-out
  each message starts a step of its own, which exceeds the back-pressure, and the timer may use `_process` after it was
  reset (channel.hpp:1063).
* C67 the test for a cancelled time-out (channel.hpp:1063) asks whether the process is not in a yield state, which is also so if it
  awaits for ever by then: yield is called after a message arrived in time. While a time-out is pending `clear_to_send` may ask for
  the state during `await` (channel.hpp:837). Steps started by several messages each set a timer for a delayed `yield`: two threads are
  in `yield`, and the receivers get the results in different orders. Such a step may also start after the process object was
  destroyed. The last sender going before the time-out is set leaves the receivers open, and a message that arrives between the empty
  queue being found and line 1050 waits for the time-out. Closing always does, as `remove_sender` does not look at
  `_timeout_function_active` (channel.hpp:605).
* C70 a receiver that reports before the source has called its own `clear_to_send` (channel.hpp:1162), with free buffer left, brings
  the suspend count to 0, so that two steps are started (channel.hpp:838-851). Once the queue is longer than its size, `free_buffer()`
  wraps around (channel.hpp:631-637), and the source is not suspended at all. A source that ends does not close its receivers, as
  line 927 returns without `task_done()` (not a theorem: the model has no closing).
* C72 `zip`, `zip_with` and `merge_channel` do not check the receivers (channel.hpp:1241-1254): without a process the null pointer is
  dereferenced; attached to a ready one the new process misses results, and if the upstream process is closed it is never closed. For
  results that cannot be copied a second `|` replaces the first process (channel.hpp:692-694), which is never closed. A process with
  result `void` runs while its receiver is not ready (channel.hpp:784), so what is attached may miss results.
* C71 with the last receiver of a process its messages are discarded, set ready or not.
* C73 the result is moved out of the shared state when `use_count()` is 1 (future.hpp:220-223, 841, 845). `use_count()` is a relaxed
  load, so nothing orders the move after reads by owners that are gone; `then` on an lvalue does this. `error()` (future.hpp:847-850)
  reads `_exception` while the resolver may be writing it.
* C74 with other buffer sizes than 1 two threads call the same function object, or one destroys it while another calls it; with a
  time-out `state()` is called (channel.hpp:837) while another thread is in `await`.
* C75 the timer's handler is registered on first use (system_timer.hpp:77-81): if a task does that while `pre_exit()` waits for it, the
  timer is closed only after the wait. The timer leaves the group before it deletes the closure (system_timer.hpp:101-102, 112). A task
  that `pre_exit()` waits for fails the assertion of line 90 if it uses the timer.
* C76 the portable timer registers no pre-exit handler (system_timer.hpp:253-255), unlike the one for libdispatch; a delayed task that
  becomes due after `pre_exit()` uses the queues that `join` has destroyed (default_executor.hpp:390).
* C77 `when_all` and the range versions reset `_holds` with `_guard` locked (future.hpp:1092-1093, 1430-1432): if a task destroyed by that owns
  the promise of another argument, `failure` is entered again. `when_any_shared<S, void>::failure` has the brace after the lock instead of
  before it (future.hpp:1159-1160). `task_done` clears `_downstream` under `_downstream_mutex` (channel.hpp:821-823). `step` try-locks
  `_timeout_function_control` that it already owns if the executor runs tasks at once.
* C78 `~annotate` changes `_dtor` and notifies without `_mutex` (test/model.hpp:73-74), so a wake-up can be missed and the notification can come
  after the counters are gone; `remaining()` (line 43) is not a snapshot; constructors do not notify; `+ 1` assumes one original object.
* C80 `single()` destroys the task at its end (serial_queue.hpp:90, 97), after it has called the executor for the next one: destructors of
  captured values may run while the next task runs. `all()` destroys each task before the next (line 83).
* C86 the static timer is destroyed at the end of the program while other threads may still submit tasks (`get_system_timer()`): nothing orders such a submission before the destruction of
  `_timed_queue` (system_timer.hpp:257-264), and later ones use destroyed members. If a task calls `std::exit`, the destructor joins its own thread and `std::terminate` is called.
* C81 `join()` reads `_threads` without `_mutex` (default_executor.hpp:387), though `add_thread()` may run in a task (await); and `_q.clear()` (line 390)
  may destroy a condition variable that a thread is still about to notify (lines 301, 312).
* C82 The constructor of `priority_task_system` (default_executor.hpp:370-375) terminates the program if its second or a later thread cannot be created.
  `await` (await.hpp:56-73) unwinds its frame while its continuation, which has references to it, may be running. It calls `add_thread()` before it looks at
  `result`, and may throw although the result is there.
* C83 `forest(const forest&)` (forest.hpp:798-800) leaks the nodes it has made when a later copy throws; the move constructor next to it delegates to
  `forest()`, which would have been enough.
* C87 Emscripten: a function given to the executor on the main thread goes to the run loop at once, and may overtake one given to it earlier on another thread (main_executor.hpp:134-147). Qt: functions
  may be called inside of others that run an event loop; `QCoreApplication::instance()` (line 56) is null after the application has ended.
* C90 an executor that throws in serial_queue_t::enqueue leaves _running set, so no task of that queue is ever run again, though later calls of enqueue succeed; the task whose enqueue threw stays queued. The same holds for the process of a channel and sender::operator(). An executor that throws when single() or all() resubmit terminates the program.
* C91 task::operator() returns auto: a task<T&()> returns a copy. The move constructor of the store is noexcept and callables are stored in the task by size only, so a throwing move terminates. What a moved-from task says of itself depends on the size of the callable. An empty std::function of another signature makes a non-empty task.
* C92 get_ready() const& of future<void> has type std::monostate instead of void (monostate_to_void gets a reference, future.hpp:90-97, 843). future<std::monostate> behaves as future<void>. make_exceptional_future(nullptr) is ready without a result: get_try gives nothing, get_ready is undefined. get_try() && leaves an optional with a moved-from value behind.
* C93 child_end of a reverse iterator on a leading edge (forest.hpp:1113-1116 with 367, 419-421) compares unequal to everything ++ reaches: the loop over the children does not end. preorder_range of reverse_fullorder_range of filter_fullorder_range applies the predicate to the sentinel (forest.hpp:186 with 323-341).
* C52 `f.insert(l, first, l)` with a range of `f` itself, appending to a node a copy of its children, reads the nodes it has inserted and never ends (c52_own_end).
* C96 executors are called by functions that are noexcept when a future is resolved (future.hpp:386-398, 589-603), so an executor that throws then terminates the program. `then` and `recover` of an rvalue move the future into the continuation before they call the executor (future.hpp:343-362); if that throws, the future and its value are gone.
* C97 a sender that is part of the function of a process downstream of its own channel (channel.hpp:1545-1548) keeps the channel, and with it that process, open for ever. `receiver | sender` of a const receiver chooses the template of line 1509 and does not compile for an lvalue. Relays forward no exceptions and apply no back-pressure.
* C99 if the copy of a result for the second receiver throws, `step` broadcasts the exception to all: the first receiver gets the result and the error, the second only the error; and `_process_suspend_count` is set again while the first still lowers it for the result, so that the function may be executed twice at the same time even with buffers of size 1 (channel.hpp:1113-1117, 1142-1162).
* C101 `blocking_get_for` ends without `return` (await.hpp:152-156), which is undefined; `blocking_get` with a time-out uses it.
* C102 senders compare `lock()` (channel.hpp:1594-1596, 1652-1654): senders of different channels become equal when the channels are gone.
* C18 the converting constructor of reverse_fullorder_iterator (forest.hpp:360-362) loses a change of the edge.
* C103 the exception thrown by storing a result (future.hpp:1051, 1132, 1320, 1329) ends up in a future in `_holds` that nobody looks at: the future returned by when_all and when_any never gets ready. For when_any on a range `_single_event` is set before (line 1433), so that later successes are ignored.
* C104 the stack grows with the number of continuations for the `immediate_executor` (future.hpp:1646-1647), with the number of pending continuations when the last future is given up (the destructor of `_f`, line 613, for any executor), and with the number of tasks of a serial queue on the `immediate_executor` (serial_queue.hpp:86, 96): a stack overflow for long chains.
* C69 false after a process got an error (counterexample): its messages stay, though nothing downstream holds it up (cf. C46).
* C105 flattening copies the result of the returned future in a `noexcept` lambda (future.hpp:996-1003), even if nobody else owns it, unless it was ready: std::bad_alloc thrown by copying, say, a vector terminates the program. So does a throwing move in `set_value` (lines 589, 1652).
* C110 (channel.hpp:826-852, 1144-1162) a delayed source whose receivers have buffer sizes above 1 is called once more after its state became await, and that result is sent (c110_once_more_counterexample).
* C115 utility.hpp line 127: `copy` initialises with braces, so a constructor from an initializer list is preferred to the copy constructor; the copy of a `std::vector<std::any>` is a vector with one element that holds the original.
* C117 default_executor.hpp lines 347 and 413: the names of the threads have 25 and 35 characters, Linux refuses more than 15, and set_current_thread_name ignores the error; the threads keep the name of their creator.
* C79 three handlers join three pools one after another (default_executor.cpp:61), but tasks may use executors of any priority; the Windows
  timer registers no pre-exit handler (system_timer.hpp:127-137).
* C27 Windows: milliseconds are cut off (system_timer.hpp:195-198), so a timer may fire up to 1 ms early; line 133 tests `_pool` instead
  of `_cleanupgroup`; the timer objects are never closed (not theorems).
* C47 a copy of a ready receiver, and a receiver that is overwritten, block the process for ever.
* C48 `(f & buffer_size) & executor` loses the executor; `executor_task_pair & buffer_size` does not compile
  (channel.hpp:1374-1375).
* C49 `steps()` shrinks when a callable is destroyed after the call; assignment does not account for what is
  overwritten.
* C50 `tuple_find` of the empty tuple gives 1; `apply_ignore_placeholders` passes placeholders, contrary to its comment (tuple_algorithm.hpp:219-225).
* C53 tasks submitted during `join` by tasks still running can be dropped; C54 a wake-up can be lost to a
  failing try_lock, so that an awaiting pool task and the awaited task wait for each other.

Found while modelling, not theorems:

* `blocking_get_for` (await.hpp:152-156) flows off its end without a return.
* `get_ready() const&` for move-only results (future.hpp:537) returns a reference to a temporary.
* `tracker_client::operator()` (progress.hpp) does not compile for functions returning void.
* With `immediate_executor`, `broadcast` of a yielding process calls `clear_to_send`, `run` and `step` again while it has
  `_timeout_function_control` locked; try_lock by the owner is undefined, and if it fails `step` calls itself for ever.
* A process that begins in a `yield` state does nothing until the first message arrives.
* `forest::insert` of a range of the same forest around the position does not terminate.
* C62 `priority_task_system::add_thread` during `join` (a task that waits): the thread is not joined, uses destroyed
  queues, and its `std::thread` is still joinable at destruction; `STLAB_TASK_POOL_MAXIMUM` does not bound the number
  of threads; with a maximum and `hardware_concurrency() == 0` the bounds of `std::clamp` are reversed.
* `when_*` hang if the executor drops a continuation or storing a result throws;
  `when_any_shared<S,void>::failure` calls `_f` while holding `_guard` (future.hpp:1157-1167).
* `co_await` on a default constructed future dereferences null. A coroutine returning `future<void>` owns its
  own future (future.hpp:1737 copies), so dropping the future does not drop the shared state, unlike for
  `future<T>`.
