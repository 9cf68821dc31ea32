{"id": "C01", "title": "Full-order traversal is a well nested enumeration", "statement": "In every forest obtainable through the public API, ++ repeated from begin() reaches end(), visits the leading and the trailing edge of every node exactly once, leading before trailing, with the visits properly nested; -- from end() visits the same positions in exactly the opposite order, and ++/-- undo each other at every position.", "quantifier": "every forest (any shape, any number of nodes, any construction history), every position", "why_tests_cant": "A test traverses a handful of fixed trees; the edge bit of ++/-- is recomputed from neighbour links and has to be right for every shape.", "anchors": ["include/stlab/forest.hpp: forest_iterator::increment, decrement", "include/stlab/forest.hpp: forest::begin,end,root"]}
{"id": "C02", "title": "insert adds one leaf exactly at the requested position", "statement": "forest::insert(pos, x) changes the full-order traversal in exactly one way: the leading and trailing edge of a new node holding x appear, adjacent, immediately before pos. Every other node keeps its value, relative order, parent and children. The returned iterator designates the new node's leading edge.", "quantifier": "every forest, every position pos (either edge of any node, begin, end)", "why_tests_cant": "Infinitely many shapes and positions; four relinks must compose correctly also when neighbours alias (empty forest, pos on a leaf's trailing edge).", "anchors": ["include/stlab/forest.hpp: forest::insert"]}
{"id": "C03", "title": "erase(pos) removes one node and promotes its children", "statement": "forest::erase(pos) removes exactly the node designated by pos: the full-order traversal afterwards is the old one with that node's two edges deleted, so its children take its place in order under its parent. All other iterators stay valid. The returned iterator designates the position that followed the erased edge (leading pos: what followed the leading edge; trailing pos: what followed the trailing edge).", "quantifier": "every forest, every node and either edge of it", "why_tests_cant": "The leaf and non-leaf cases relink different, possibly aliasing, neighbours; tests only try a few.", "anchors": ["include/stlab/forest.hpp: forest::erase(iterator)"]}
{"id": "C04", "title": "erase(first,last) removes exactly the nodes wholly inside the range", "statement": "forest::erase(first, last) erases exactly those nodes both of whose edges lie in [first, last); nodes with only one edge in the range are kept; relative order of everything kept is unchanged; it returns last.", "quantifier": "every forest, every pair first, last with last reachable from first (not necessarily balanced ranges)", "why_tests_cant": "The stack-depth counting must be right for every nesting pattern of a range.", "anchors": ["include/stlab/forest.hpp: forest::erase(const_iterator,const_iterator)"]}
{"id": "C05", "title": "splice moves nodes without creating, losing or reordering any", "statement": "Splicing a child range [first,last) before pos removes exactly the traversal segment of these subtrees from its old place and puts the identical segment immediately before pos; nothing else moves. This holds both within one forest and between two forests; splicing a range onto itself (pos == first or an empty range) changes nothing.", "quantifier": "every pair of forests (or one forest), every child range and every position not inside the range", "why_tests_cant": "Three relinks with many aliasing cases (adjacent positions, same forest, whole forest) across unboundedly many shapes.", "anchors": ["include/stlab/forest.hpp: forest::splice (all overloads)"]}
{"id": "C06", "title": "size() is the number of nodes, for every history", "statement": "After any sequence of insert, erase, erase-range, clear, splice (all forms, including counted ones with correct counts), insert_parent, move, swap and size() calls, size() returns the number of nodes reachable by traversal, and size_valid() never claims validity of a wrong cached count.", "quantifier": "every finite history of public operations on any number of forests", "why_tests_cant": "The cached size has an invalid state encoded as 0; correctness depends on the whole history, including on when size() was called in between.", "anchors": ["include/stlab/forest.hpp: forest::size, size_valid, insert, erase, splice, swap, operator=(forest&&)"]}
{"id": "C07", "title": "insert_parent inserts one node above a child range", "statement": "insert_parent(first, last, x) adds one new node holding x whose children are exactly the nodes of the child range [first,last), placed where that range was; nothing else changes.", "quantifier": "every forest and every child range", "why_tests_cant": "Unbounded shapes; composition of insert and splice with aliasing positions.", "anchors": ["include/stlab/forest.hpp: forest::insert_parent"]}
{"id": "C08", "title": "reverse reverses a child range", "statement": "forest::reverse(first, last) leaves the same set of nodes in the forest, with the subtrees of the child range in opposite order and each subtree internally unchanged.", "quantifier": "every forest and every child range", "why_tests_cant": "Must hold for every length of range; pointer rewriting loop.", "anchors": ["include/stlab/forest.hpp: forest::reverse", "include/stlab/algorithm/reverse.hpp: unsafe::reverse_nodes, unsafe::reverse_append"]}
{"id": "C09", "title": "Copies are equal and equality means same shape and values", "statement": "A copy constructed forest compares equal to its source and has the same traversal; operator== on two forests of valid size returns true exactly when the forests have the same shape and equal values in corresponding nodes.", "quantifier": "all pairs of forests", "why_tests_cant": "Equality is decided by a simultaneous traversal; no finite set of pairs establishes the equivalence.", "anchors": ["include/stlab/forest.hpp: forest(const forest&), operator==, insert(range)"]}
{"id": "C10", "title": "Move and swap transfer the whole content", "statement": "Move construction/assignment leaves the destination with exactly the source's traversal (same nodes) and the source empty; the destination's former nodes are all destroyed; self move assignment keeps the content.", "quantifier": "all pairs of forests", "why_tests_cant": "Involves splicing around sentinels, for all shapes, with the self-assignment alias.", "anchors": ["include/stlab/forest.hpp: forest(forest&&), operator=(forest&&), swap, clear, ~forest"]}
{"id": "C11", "title": "No node is leaked or destroyed while linked", "statement": "After every operation, the set of allocated nodes is exactly the set of nodes reachable from the forests; each node is freed exactly once, after it became unreachable; destroying all forests frees every node.", "quantifier": "every finite history of public operations", "why_tests_cant": "A leak or double free depends on history and shape.", "anchors": ["include/stlab/forest.hpp: forest::insert, erase, clear, ~forest"]}
{"id": "C12", "title": "equal_shape decides equality of shapes", "statement": "equal_shape(x, y) returns true exactly when x and y have the same shape, regardless of values.", "quantifier": "all pairs of forests, with either cached size valid or not", "why_tests_cant": "Needs all pairs; the algorithm only walks one of the two ranges.", "anchors": ["include/stlab/forest_algorithms.hpp: equal_shape"]}
{"id": "C13", "title": "flatten / unflatten round trip", "statement": "unflatten applied to the sequence produced by flatten from a forest rebuilds a forest equal (shape and values) to the original, and flatten after unflatten reproduces the sequence for every well formed sequence.", "quantifier": "every forest", "why_tests_cant": "Shape information is encoded in-band; must be injective on all shapes.", "anchors": ["include/stlab/forest_algorithms.hpp: flatten, unflatten"]}
{"id": "C14", "title": "transcribe rebuilds the shape under a projection", "statement": "Transcribing the whole full-order range of a forest through a projection into a destination forest puts, before the destination's previous content, a forest of exactly the source's shape whose values are the projected values; the previous content of the destination stays as it was.", "quantifier": "every source forest, every destination forest and every projection", "why_tests_cant": "The inserter keeps a moving position; correctness is an induction over nested traversals.", "anchors": ["include/stlab/forest_algorithms.hpp: transcribe, transcribe_iterator, forest::... transcriber"]}
{"id": "C15", "title": "Child ranges enumerate exactly the direct children", "statement": "For every node, iterating child_begin..child_end visits the leading edges of exactly its direct children, in order, forwards and backwards; find_parent of any child's position returns that node; has_children is true exactly when the range is non-empty.", "quantifier": "every forest, every node", "why_tests_cant": "All shapes and positions.", "anchors": ["include/stlab/forest.hpp: child_iterator, child_begin, child_end, find_parent, has_children"]}
{"id": "C16", "title": "Preorder and postorder visit each node once", "statement": "The preorder range visits every node exactly once, parents before children; the postorder range visits every node exactly once, children before parents; both in document order.", "quantifier": "every forest", "why_tests_cant": "All shapes.", "anchors": ["include/stlab/forest.hpp: edge_iterator, preorder_range, postorder_range"]}
{"id": "C17", "title": "Filtered traversal yields a well nested subsequence", "statement": "Traversing a filtered full-order range forwards visits exactly the two edges of each node such that it and all its ancestors satisfy the predicate (a failing node hides its whole subtree), in the order of the underlying traversal; traversing it backwards visits the same positions in opposite order.", "quantifier": "every forest and predicate", "why_tests_cant": "All shapes and predicates.", "anchors": ["include/stlab/forest.hpp: filter_fullorder_iterator, filter_fullorder_range"]}
{"id": "C18", "title": "Reverse traversal is the mirror image", "statement": "A reverse full-order traversal visits the full-order positions in opposite order with leading and trailing exchanged (so it is itself a well nested traversal of the mirrored forest); edge-changing operations on a reverse iterator give the iterator that traversal reaches.", "quantifier": "every forest and position", "why_tests_cant": "All shapes and positions.", "anchors": ["include/stlab/forest.hpp: reverse_fullorder_iterator"]}
{"id": "C19", "title": "Depth iterator reports the nesting depth", "statement": "A depth full-order iterator at any position reports the number of ancestors of the current node relative to where the traversal started, in forward and in backward traversal.", "quantifier": "every forest, every position, every mix of ++ and --", "why_tests_cant": "Depth is maintained incrementally along arbitrary paths.", "anchors": ["include/stlab/forest.hpp: depth_fullorder_iterator, depth_range"]}
{"id": "C20", "title": "reverse_until mirrors from both ends up to the middle", "statement": "reverse_until(first, middle, last) returns a range [a, b) with a == middle or b == middle; the elements outside [a,b) are the mirror image of the original (position i from the front holds what was at position i from the back and vice versa), and those inside [a,b) are untouched.", "quantifier": "every sequence and every middle position in it", "why_tests_cant": "Unbounded lengths and all limits, including the middle.", "anchors": ["include/stlab/algorithm/reverse.hpp: reverse_until"]}
{"id": "C21", "title": "Serial queue runs tasks in submission order", "statement": "Tasks submitted through a serial queue start in the order in which they were submitted, in either schedule mode, whatever the executor's scheduling; each is run at most once.", "quantifier": "every interleaving of any number of submitting threads and executor threads, every underlying executor that runs each of its tasks at most once, both modes", "why_tests_cant": "A race shows up only in particular schedules.", "anchors": ["include/stlab/concurrency/serial_queue.hpp: serial_instance_t::enqueue, all, single, kickstart"]}
{"id": "C22", "title": "Serial queue tasks never overlap", "statement": "At no time are two tasks of the same serial queue executing simultaneously.", "quantifier": "every interleaving", "why_tests_cant": "Scheduling nondeterminism.", "anchors": ["include/stlab/concurrency/serial_queue.hpp: serial_instance_t"]}
{"id": "C23", "title": "Serial queue loses no task", "statement": "Whenever a submitted task has not started yet and none is executing, a drain job for the queue is outstanding in the underlying executor; if the executor runs every job it is given, every submitted task is eventually executed.", "quantifier": "every interleaving", "why_tests_cant": "Lost wake-ups appear only in narrow windows.", "anchors": ["include/stlab/concurrency/serial_queue.hpp: serial_instance_t::enqueue, empty"]}
{"id": "C24", "title": "pre_exit runs handlers exactly once in reverse order of registration", "statement": "pre_exit() runs each registered handler exactly once, always the most recently registered not-yet-run one, including handlers registered by handlers; when it returns none is left.", "quantifier": "every registration history, handlers registering arbitrarily many others", "why_tests_cant": "Nested registration histories are unbounded.", "anchors": ["src/pre_exit.cpp: at_pre_exit, pre_exit"]}
{"id": "C25", "title": "Thread pool queues serve by priority, then first come first served", "statement": "Of the tasks waiting in a worker's queue, the one taken next has the highest priority, and among equal priorities it is the one queued earliest.", "quantifier": "every sequence of push and pop on a queue (fewer than 2^62 pushes)", "why_tests_cant": "The order is encoded by bit packing into one integer with heap operations.", "anchors": ["include/stlab/concurrency/default_executor.hpp: notification_queue, element_t, merge_priority_count"]}
{"id": "C26", "title": "Thread pool runs every task exactly once", "statement": "A task handed to the default executor is executed at most once, and, as long as the pool is not being shut down, is executed eventually; no task is executed that was not submitted.", "quantifier": "every interleaving of submitters, workers, stealing and expansion", "why_tests_cant": "Work stealing with try-locks: losing or duplicating a task depends on the schedule.", "anchors": ["include/stlab/concurrency/default_executor.hpp: priority_task_system::execute, run, steal, join"]}
{"id": "C27", "title": "Timer never fires early and serves by deadline", "statement": "A task scheduled with the system timer is never run before its deadline; when several are due the one with the earliest deadline runs first; each runs at most once.", "quantifier": "every sequence of submissions and clock readings, every interleaving", "why_tests_cant": "Depends on clock values and the schedule.", "anchors": ["include/stlab/concurrency/system_timer.hpp: system_timer"]}
{"id": "C28", "title": "execute_at defers every task given to it", "statement": "The executor returned by execute_at(t, e) can be used any number of times: each task given to it is run by e, not before t.", "quantifier": "every sequence of uses of one delayed executor", "why_tests_cant": "History dependent: state captured by the closure.", "anchors": ["include/stlab/concurrency/executor_base.hpp: execute_at, execute_delayed"]}
{"id": "C29", "title": "task<> owns its target exactly once", "statement": "Over any history of construction, move, assignment, swap, reset and destruction of task objects, every stored callable is destroyed exactly once, never used after destruction, and calling a task calls the callable it was last given.", "quantifier": "every history over any number of task objects, small and large callables", "why_tests_cant": "Ownership errors are history dependent.", "anchors": ["include/stlab/concurrency/task.hpp: task_"]}
{"id": "C30", "title": "A future is resolved at most once and its result never changes", "statement": "Once a future is ready, its value or exception is fixed: is_ready stays true and every later get_try/get_ready/continuation sees the same outcome.", "quantifier": "every interleaving of producers, consumers and continuations", "why_tests_cant": "Schedule dependent.", "anchors": ["include/stlab/concurrency/future.hpp: shared_base, packaged_task, promise"]}
{"id": "C31", "title": "Every continuation attached to a future runs exactly once", "statement": "Each continuation attached (before, during or after resolution, by any thread) to a copyable-result future is scheduled exactly once, after the future is ready, and receives the future's outcome, provided the future gets resolved; none is scheduled earlier.", "quantifier": "every interleaving of attachments with resolution", "why_tests_cant": "The attach/resolve race is schedule dependent.", "anchors": ["include/stlab/concurrency/future.hpp: shared_base::recover, then, set_value, _set_exception"]}
{"id": "C32", "title": "Errors skip then-continuations unchanged", "statement": "In a chain of then continuations the function following a failed step is not called, and the exception arrives unchanged at the end of the chain or at the first recover, which can replace it by a value.", "quantifier": "every chain length, every position of the failing step", "why_tests_cant": "Unbounded chains.", "anchors": ["include/stlab/concurrency/future.hpp: future::then, recover, value_setter"]}
{"id": "C33", "title": "A dropped producer breaks the promise", "statement": "If every packaged_task/promise for a future disappears without having been invoked, the future becomes ready with broken_promise; no future waits forever for a producer that no longer exists.", "quantifier": "every history of moves, assignments and destructions of the producer", "why_tests_cant": "History dependent.", "anchors": ["include/stlab/concurrency/future.hpp: packaged_task, promise, ~packaged_task, operator="]}
{"id": "C34", "title": "Dropping a future cancels its continuation only", "statement": "If the last future referring to a not yet started continuation is destroyed, the continuation's function is never called; continuations whose future is retained (or detached) are unaffected.", "quantifier": "every graph of continuations, every order of destruction", "why_tests_cant": "Histories and schedules unbounded.", "anchors": ["include/stlab/concurrency/future.hpp: packaged_task::operator(), canceled, detach, weak_ptr promise"]}
{"id": "C35", "title": "Future of future is flattened", "statement": "If a continuation or async task itself returns a future, the outer future becomes ready only when the inner one does, and with the inner one's outcome (value or exception).", "quantifier": "every nesting and every order of resolution", "why_tests_cant": "Order of resolution is schedule dependent.", "anchors": ["include/stlab/concurrency/future.hpp: reduce, value_setter, package"]}
{"id": "C36", "title": "when_all collects all results in order or fails with the first error", "statement": "when_all calls its function exactly once, iff all argument futures succeed, with the results at the positions of their futures irrespective of completion order; if any fails, the function is never called and the result carries the error of the first failing one.", "quantifier": "every number of futures, every completion order", "why_tests_cant": "n! orders, unbounded n.", "anchors": ["include/stlab/concurrency/future.hpp: when_all, when_all_shared, common_context (range)"]}
{"id": "C37", "title": "when_any delivers the first success, or the last error", "statement": "when_any calls its function exactly once with the value and index of the first future to succeed; if all fail the result carries the error of the last one to fail and the function is not called.", "quantifier": "every number of futures, every completion order, every pattern of failures", "why_tests_cant": "Schedule dependent.", "anchors": ["include/stlab/concurrency/future.hpp: when_any, when_any_shared, single_trigger"]}
{"id": "C38", "title": "await returns the outcome; await_for never loses it", "statement": "await(f) blocks until f is ready and returns its value or throws its exception. await_for(f, d) either returns a ready future with the outcome or, on time-out, a future that will become ready with the same outcome; the value is delivered exactly once.", "quantifier": "every interleaving of resolution and time-out", "why_tests_cant": "The race at the time-out.", "anchors": ["include/stlab/concurrency/await.hpp: await, await_for, blocking_get_guarded"]}
{"id": "C39", "title": "A channel process handles messages one at a time, in order", "statement": "In a pipeline of channel processes with the default buffer size, each process receives every value sent to it exactly once, in the order sent, and its function is never executing twice at the same time.", "quantifier": "every interleaving, any number of messages", "why_tests_cant": "Schedule dependent.", "anchors": ["include/stlab/concurrency/channel.hpp: shared_process::enqueue, run, step, broadcast, clear_to_send, task_done"]}
{"id": "C40", "title": "Single execution also holds for other buffer sizes", "statement": "The function of a channel process is never executing twice at the same time, whatever buffer sizes its downstream processes have.", "quantifier": "every buffer size (including 0), every interleaving", "why_tests_cant": "Schedule dependent.", "anchors": ["include/stlab/concurrency/channel.hpp: shared_process::clear_to_send, dequeue, pop_from_queue"]}
{"id": "C41", "title": "Buffer size bounds what upstream can pile up", "statement": "A process whose downstream has buffer size n > 0 never has more than n undelivered results waiting in that downstream's queue.", "quantifier": "every interleaving, every topology of downstream processes", "why_tests_cant": "Schedule dependent.", "anchors": ["include/stlab/concurrency/channel.hpp: broadcast, minimum_free_buffer, free_buffer"]}
{"id": "C42", "title": "zip_with pairs the i-th messages", "statement": "A zip_with process is invoked with tuples whose k-th invocation consists of the k-th message of each upstream, in whatever order the messages arrive.", "quantifier": "every arrival order, any number of upstreams", "why_tests_cant": "Arrival orders unbounded.", "anchors": ["include/stlab/concurrency/channel.hpp: zip_with_queue_strategy"]}
{"id": "C43", "title": "round_robin alternates strictly over upstreams", "statement": "A round-robin merge is invoked with messages of upstream 0, 1, ..., n-1, 0, 1, ... strictly cyclically, each upstream's messages in order; no message is lost or duplicated while the channel is open.", "quantifier": "every arrival order, any number of upstreams", "why_tests_cant": "Arrival orders unbounded.", "anchors": ["include/stlab/concurrency/channel.hpp: round_robin_queue_strategy"]}
{"id": "C44", "title": "unordered merge delivers every message in arrival order", "statement": "An unordered merge delivers each message exactly once and preserves the order of each upstream.", "quantifier": "every arrival order, any number of upstreams", "why_tests_cant": "Arrival orders unbounded.", "anchors": ["include/stlab/concurrency/channel.hpp: unordered_queue_strategy"]}
{"id": "C45", "title": "Closing propagates after all messages", "statement": "When all senders to a process are gone, the process handles all messages sent before and then closes its downstream; no process is closed while a sender exists.", "quantifier": "every interleaving of sends, copies and destruction of senders", "why_tests_cant": "Schedule dependent.", "anchors": ["include/stlab/concurrency/channel.hpp: remove_sender, add_sender, pop_from_queue, task_done, sender"]}
{"id": "C46", "title": "An exception closes a process instead of wedging it", "statement": "If a process receives an error it cannot handle, it is closed and the error or the close reaches its downstream; the process never remains marked as running with nothing running.", "quantifier": "every position of the failing process in a pipeline, every message sequence", "why_tests_cant": "History dependent.", "anchors": ["include/stlab/concurrency/channel.hpp: step, set_error, avoid_invoke"]}
{"id": "C47", "title": "Data flows exactly when all receivers are ready", "statement": "Messages are processed exactly when every existing receiver copy has been set ready (or destroyed); copying, moving and assigning receivers never leaves a channel permanently blocked.", "quantifier": "every history of copies, moves, assignments, set_ready and destruction of receivers", "why_tests_cant": "History dependent.", "anchors": ["include/stlab/concurrency/channel.hpp: receiver, add_receiver, remove_receiver"]}
{"id": "C48", "title": "Annotations compose in any order", "statement": "Combining a process with an executor and a buffer size through operator& gives the same annotated process in every order.", "quantifier": "all orders of combination, all executors and sizes", "why_tests_cant": "Tests inspect only some orders.", "anchors": ["include/stlab/concurrency/channel.hpp: operator& overloads, annotations, annotated_process"]}
{"id": "C49", "title": "Progress tracker counts are consistent", "statement": "completed() never exceeds steps(), steps() is the number of tasks wrapped and not dropped before completion, and once all wrapped tasks have run or been destroyed completed() == steps().", "quantifier": "every history of wrapping, copying, moving, assigning, calling and destroying wrapped callables", "why_tests_cant": "History dependent.", "anchors": ["include/stlab/concurrency/progress.hpp: progress_tracker, client"]}
{"id": "C50", "title": "Placeholder-aware argument helpers", "statement": "For every argument list mixing void and non-void results, the tuple built for the continuation contains exactly the non-void values in order; tuple_find returns the index of the first match, or the tuple size if there is none. apply_ignore_placeholders and apply_indexed call the function with the elements that are not placeholders.", "quantifier": "every tuple length and pattern of void positions", "why_tests_cant": "Template recursion over all arities.", "anchors": ["include/stlab/concurrency/tuple_algorithm.hpp", "include/stlab/utility.hpp: index_sequence_transform"]}
{"id": "C51", "title": "child_adaptor pushes and pops at the ends of the child list", "statement": "push_back/push_front on a child_adaptor make a new node holding the value the last/first child of the adapted node and change nothing else; back()/front() designate the last/first child; pop_back/pop_front erase exactly that child, promoting its children into its place.", "quantifier": "for all reachable forests, all nodes (and the root), all values, all child lists", "why_tests_cant": "Tests exercise a few small forests; the link surgery depends on shape around the insertion point, of which there are unboundedly many.", "anchors": ["include/stlab/forest.hpp:1120-1146"]}
{"id": "C52", "title": "insert(pos, first, last) inserts a copy of a child range", "statement": "forest::insert(pos, first, last) with a child range of another forest, or of the same forest if pos is neither inside the range nor its end, inserts, immediately before pos, new nodes forming trees equal in shape and values to those of the range; the source and everything else in the destination are unchanged; the returned iterator is pos. (With pos at the end of a range of the same forest the call never ends.)", "quantifier": "for all reachable forests and pairs of forests, all positions, all child ranges", "why_tests_cant": "The loop walks two structures in lock step while mutating one of them; correctness for every shape needs induction over the range.", "anchors": ["include/stlab/forest.hpp:1035-1043"]}
{"id": "C53", "title": "Shutting down the thread pool runs everything submitted before", "statement": "When priority_task_system::join returns, every task whose execute call had returned before join was called, and every task submitted by such a task, has been executed to its end.", "quantifier": "every interleaving of submitters, workers and join", "why_tests_cant": "Losing a task needs a failed try_lock in a window of a few instructions during shutdown.", "anchors": ["include/stlab/concurrency/default_executor.hpp:346", "include/stlab/concurrency/default_executor.hpp:382"]}
{"id": "C54", "title": "Awaiting inside a pool task does not deadlock the pool", "statement": "If a task executing on a pool thread awaits another task that is queued in the pool, and the thread limit is not reached, then invoke_waiting makes some thread available that executes the queued task, so the await returns.", "quantifier": "every interleaving", "why_tests_cant": "The woken thread must fail a try_lock on the one queue that matters and go back to sleep: a rare race.", "anchors": ["include/stlab/concurrency/await.hpp:41", "include/stlab/concurrency/default_executor.hpp:432", "include/stlab/concurrency/default_executor.hpp:258"]}
{"id": "C55", "title": "A move-only result is delivered exactly once", "statement": "With a result that can not be copied, at most one reader (a continuation or a call of get_try) gets the value, it is the value the future was resolved with, and a reader finds it gone only if another reader has got it.", "quantifier": "every history of attaching, detaching, reading, canceling and resolving", "why_tests_cant": "Histories unbounded.", "anchors": ["include/stlab/concurrency/future.hpp: shared_base for non-copyable T, get_try_r, future for non-copyable T"]}
{"id": "C56", "title": "A process goes on serving its receivers when one of them is gone", "statement": "When a receiver attached to a process is destroyed, the process goes on handling its messages and sends every result to the receivers that remain; asking a receiver for its free buffer is well defined even if it is destroyed at that moment.", "quantifier": "every number of receivers, every moment at which receivers are destroyed, every interleaving of sends, the process and its receivers, results that can and that cannot be copied", "why_tests_cant": "The tests keep all receivers until the end; the race between the two calls of free_buffer needs a destruction in a window of a few instructions, and a stalled process shows only as messages that never arrive.", "anchors": ["include/stlab/concurrency/channel.hpp:675", "include/stlab/concurrency/channel.hpp:702", "include/stlab/concurrency/channel.hpp:1130", "include/stlab/concurrency/channel.hpp:1612"]}
{"id": "C57", "title": "No message is handled twice, whatever the buffer sizes", "statement": "In any network of channel processes, with any buffer sizes and also when functions throw, the messages taken out of a queue are the first ones sent to it, and no message is given to the function of the process more often than it was sent.", "quantifier": "every network, every buffer size, every interleaving, any number of messages and errors", "why_tests_cant": "With buffer sizes other than 1 several threads may run the same process at the same time; duplicates would need a particular interleaving.", "anchors": ["include/stlab/concurrency/channel.hpp:854", "include/stlab/concurrency/channel.hpp:1091"]}
{"id": "C58", "title": "co_await resumes the coroutine exactly once, with the result of the future", "statement": "A coroutine that returns a future and awaits futures runs in the order of its text: each co_await completes at most once, with the value or exception the awaited future was resolved with, whichever thread resolves it and whether before, during or after the suspension; it is never resumed while running or after its end. Its future is resolved at most once, with what it returned or threw, and is resolved when the coroutine has ended, if anybody still has it or awaits it. An awaited future stays resolvable even if its only object went into the co_await. When all threads are idle every coroutine has ended or awaits an unresolved future. Threads are never blocked and return from the library's code after boundedly many steps.", "quantifier": "any number of coroutines, futures and threads, every interleaving, every nesting of resumptions", "why_tests_cant": "A double or lost resumption needs the resolution to fall between await_ready, the registration of the continuation and the return of await_suspend.", "anchors": ["include/stlab/concurrency/future.hpp:1704", "include/stlab/concurrency/future.hpp:1728", "include/stlab/concurrency/future.hpp:1750", "include/stlab/concurrency/future.hpp:366"]}
{"id": "C59", "title": "A network of channels comes to rest with all messages handled", "statement": "Between two actions of the users of senders and receivers, the threads of a network of channels perform only finitely many steps, if each call of a process's function returns, in whatever order the steps are taken, with any buffer sizes and also if functions throw. They stop only when no process has anything to do. If all receivers are ready and no function throws, then at that time every message sent has been handled by the process it was sent to and by all processes after it, and processes that no sender leads to any more are closed.", "quantifier": "every finite acyclic network, every reachable state, every schedule", "why_tests_cant": "Endless re-scheduling of a process, or a message left in a queue with no thread to handle it, depends on the schedule; a test can only wait for a limited time.", "anchors": ["include/stlab/concurrency/channel.hpp:612", "include/stlab/concurrency/channel.hpp:806", "include/stlab/concurrency/channel.hpp:830", "include/stlab/concurrency/channel.hpp:854"]}
{"id": "C60", "title": "Processes with await and yield", "statement": "For a process object with await and yield: its member functions are called one at a time, and its state is not asked for at the same time; await gets the messages in the order they were sent in, each once, and only when the object is in an await state; yield is called only in a yield state or when the time to await is up; each result goes to every receiver, in order; the object is not called again before every receiver has taken the result before; no message is left behind when everything has come to rest; close is called only once the last sender is gone, then the receivers are closed and the object is destroyed, and it is not used after that.", "quantifier": "every process object, every number of receivers, every sequence of sends, copies and drops of senders, every interleaving of the threads", "why_tests_cant": "Steps, delayed yields, time-outs and the acknowledgements of the receivers run on different threads; overlaps and lost restarts depend on the schedule and on timers.", "anchors": ["include/stlab/concurrency/channel.hpp:612", "include/stlab/concurrency/channel.hpp:806", "include/stlab/concurrency/channel.hpp:827", "include/stlab/concurrency/channel.hpp:873", "include/stlab/concurrency/channel.hpp:993", "include/stlab/concurrency/channel.hpp:1136"]}
{"id": "C61", "title": "A function as a process", "statement": "If a function is attached through function_process, then each receiver gets the results of the function for the messages sent, exactly one for each message and in the order of the messages, an exception of the function counting as its result; and once everything has come to rest, no result is missing, and the receivers have been closed if and only if the last sender is gone.", "quantifier": "every function, every number of receivers, every sequence of messages, errors, copies and drops of senders, every interleaving of the threads", "why_tests_cant": "A binding that is overwritten before it is called, or called twice, needs two messages and an acknowledgement of a receiver in a particular order on three threads.", "anchors": ["include/stlab/concurrency/channel.hpp:1683", "include/stlab/concurrency/channel.hpp:993", "include/stlab/concurrency/channel.hpp:873"]}
{"id": "C62", "title": "Threads of the pool: number, waiters and end", "statement": "For every number of cores and every configured maximum the pool has at least one worker and at most the thread limit, which is odd and exceeds four times the number of cores used, and at most the configured maximum; each additional thread has a waiter of its own; after join every thread has ended and has been joined, and no thread uses a queue or waiter that does not exist.", "quantifier": "every number of cores and maximum, every interleaving of the threads, calls of add_thread and join", "why_tests_cant": "The number of cores of the test machine is fixed, and adding a thread while join runs needs a task that waits at that moment.", "anchors": ["include/stlab/concurrency/default_executor.hpp:322", "include/stlab/concurrency/default_executor.hpp:331", "include/stlab/concurrency/default_executor.hpp:344", "include/stlab/concurrency/default_executor.hpp:382", "include/stlab/concurrency/default_executor.hpp:409", "README.md:80"]}
{"id": "C63", "title": "Futures that are ready from the start", "statement": "A future made by make_ready_future, make_exceptional_future or future_with_broken_promise is ready when the call returns; every later reader and continuation, on any thread, gets exactly that value, that exception or the error broken_promise, and nobody ever finds the future not ready.", "quantifier": "every value and exception, every later use of the future and its copies, every interleaving", "why_tests_cant": "Tests look at the future once; the packaged task behind it is destroyed right after it has been called and must not break the promise for any later use.", "anchors": ["include/stlab/concurrency/ready_future.hpp:28", "include/stlab/concurrency/ready_future.hpp:46", "include/stlab/concurrency/future.hpp:1034"]}
{"id": "C64", "title": "Splicing and skipping nodes of linked lists", "statement": "splice_node_range inserts the given linked nodes, in their order, right after the location; skip_next_node and skip_node remove exactly the one node from its list; the list stays consistently linked in both directions, and every other list is unchanged.", "quantifier": "every circular list, every position, every chain of nodes to insert, including lists of one node", "why_tests_cant": "No test covers these functions; a missing back link shows only when traversing backwards later, and boundary cases (insertion at the end, removal of the last node) need different links.", "anchors": ["include/stlab/iterator/set_next.hpp:36", "include/stlab/iterator/set_next.hpp:43", "include/stlab/iterator/set_next.hpp:48"]}
{"id": "C65", "title": "Continuations start in the order in which they were attached", "statement": "If one continuation was attached to a future before another one, it is given to its executor before the other one is.", "quantifier": "every future, every pair of continuations, any number of other ones, every interleaving of attaching, resolving and cancelling", "why_tests_cant": "Tests attach from one thread while nothing else happens; the order is lost only if a continuation is attached while the resolving thread hands out the earlier ones.", "anchors": ["include/stlab/concurrency/future.hpp:353", "include/stlab/concurrency/future.hpp:359", "include/stlab/concurrency/future.hpp:395", "include/stlab/concurrency/future.hpp:1646"]}
{"id": "C66", "title": "Whatever the buffer sizes, nothing is left behind", "statement": "In a network of processes, once all receivers are ready and no function throws, every message sent is eventually handled exactly once by the process it was sent to, and each result exactly once by every downstream process, also if all senders are destroyed meanwhile.", "quantifier": "every acyclic network, every choice of buffer sizes including unlimited, any number of messages and threads, every interleaving", "why_tests_cant": "With buffers larger than one, several threads may be in the same process and the suspend counts are overwritten; whether a wake-up gets lost depends on the interleaving of critical sections.", "anchors": ["include/stlab/concurrency/channel.hpp:612", "include/stlab/concurrency/channel.hpp:806", "include/stlab/concurrency/channel.hpp:827", "include/stlab/concurrency/channel.hpp:854", "include/stlab/concurrency/channel.hpp:1138"]}
{"id": "C67", "title": "Processes that await with a time-out", "statement": "For a process object that may await with a time-out: await gets the messages in the order they were sent in, each once; its member functions are called one at a time, await, close and set_error only in an await state, yield only in a yield state or when the time to await is up, and its state is not asked for at the same time; a message that arrives in time cancels the time-out if the object then does not wait for it any more; each result goes to every receiver, in the same order; no message is left behind when everything has come to rest, and the next message starts the process again; when the last sender is gone the receivers are closed, and the object is not used after its destruction.", "quantifier": "every process object, every number of receivers, every sequence of sends, copies and drops of senders, every interleaving of the threads and timers", "why_tests_cant": "Whether a message arrives before a timer, and which of several active steps runs first, depends on time and on the schedule; tests with timers see few of the orders.", "anchors": ["include/stlab/concurrency/channel.hpp:612", "include/stlab/concurrency/channel.hpp:827", "include/stlab/concurrency/channel.hpp:993", "include/stlab/concurrency/channel.hpp:1044", "include/stlab/concurrency/channel.hpp:1063", "include/stlab/concurrency/channel.hpp:1136"]}
{"id": "C68", "title": "when_all and when_any let go of their arguments", "statement": "As soon as an argument decides the result of when_all or when_any (the first error, the first value), or the result is dropped, the other arguments are let go: the continuations attached to them are not executed any more, so that nothing keeps computations whose result is not wanted.", "quantifier": "every number of arguments, packs and ranges, every order of attaching, resolving and executing, every schedule", "why_tests_cant": "It shows only if another argument is resolved between the decision and the end of the call, a window of a few instructions.", "anchors": ["include/stlab/concurrency/future.hpp:1087", "include/stlab/concurrency/future.hpp:1126", "include/stlab/concurrency/future.hpp:1216", "include/stlab/concurrency/future.hpp:1425", "include/stlab/concurrency/future.hpp:1503"]}
{"id": "C69", "title": "A buffer size of 0 is no limit", "statement": "A process all of whose downstream processes have buffer size 0 does not wait for them: if it is ready and has a message to handle, it handles it, even if the downstream processes do not take their messages or are not ready.", "quantifier": "every network, every number of messages, every schedule, any state of the downstream processes", "why_tests_cant": "Tests with unlimited buffers send few messages to receivers that work; a process that waits only after many unread results, or for one of several receivers, passes them.", "anchors": ["include/stlab/concurrency/channel.hpp:631", "include/stlab/concurrency/channel.hpp:675", "include/stlab/concurrency/channel.hpp:1136"]}
{"id": "C70", "title": "Sources", "statement": "A process object with yield and state but without await, attached to channel<void>, is started when the last receiver object becomes ready and then called again and again as long as its state is yield: yield is called by one thread at a time, only in a yield state, and its state is not asked for at the same time; every receiver gets all results in the order in which they were yielded, each once; the source waits as soon as a receiver's buffer is full, and goes on when the receivers have taken what they got; it is never called again once its state is await.", "quantifier": "every process object, delayed or not, any number of receivers, all buffer sizes, every interleaving of threads, timers and receivers, failing try_locks, results that are exceptions", "why_tests_cant": "The tests run a generator on a queue that is executed by hand, one task after the other, so a receiver never reports while the source is still handing out the result it reports about.", "anchors": ["include/stlab/concurrency/channel.hpp:909", "include/stlab/concurrency/channel.hpp:828", "include/stlab/concurrency/channel.hpp:1131", "include/stlab/concurrency/channel.hpp:1274"]}
{"id": "C71", "title": "How long processes live", "statement": "A process of a channel exists exactly as long as there is a receiver of it or of a process downstream of it, or somebody is executing it at the moment; nothing is leaked, nothing that is still needed is destroyed, and the destruction of one process changes nothing in the others: it neither closes nor disconnects them. Sending to a process that is gone has no effect.", "quantifier": "every graph built with channel, operator|, zip and merge_channel, every history of copies, moves, assignments and destruction of receivers, every moment at which processes run", "why_tests_cant": "Ownership is spread over receivers, downstream processes and running jobs; histories and graphs are unbounded.", "anchors": ["include/stlab/concurrency/channel.hpp:757", "include/stlab/concurrency/channel.hpp:1124", "include/stlab/concurrency/channel.hpp:1453", "include/stlab/concurrency/channel.hpp:1555"]}
{"id": "C72", "title": "Attaching processes to receivers", "statement": "Attaching a process to a receiver without a process is the error broken_channel, to a receiver that is ready the error process_already_running, both without effect. Otherwise the new process gets every result of the process of the receiver, each once and in order, and is closed when that process is closed (when all of them are, for zip and merge_channel), however many other processes are attached.", "quantifier": "every graph and history of receivers, every kind of result (copyable, not copyable, void), any number of upstream processes, everything that happens later", "why_tests_cant": "What is missed depends on when a process starts running relative to the attaching; histories are unbounded.", "anchors": ["include/stlab/concurrency/channel.hpp:1509", "include/stlab/concurrency/channel.hpp:1241", "include/stlab/concurrency/channel.hpp:1209", "include/stlab/concurrency/channel.hpp:692"]}
{"id": "C73", "title": "No data races on the shared state of a future", "statement": "However threads copy, hand over, attach to, look at, read, move out of, resolve and destroy a future, two accesses to the same member of its shared state of which one is a write are ordered by happens-before, the construction and the destruction of the state included.", "quantifier": "any number of threads, copies and continuations, every interleaving, results that are values or exceptions, promises and packaged tasks that are broken, every program that passes objects between threads with synchronisation", "why_tests_cant": "Whether two accesses are ordered does not show in the outcome of a run; a race detector only sees the runs it is given, and the order given by stronger hardware hides a relaxed load.", "anchors": ["include/stlab/concurrency/future.hpp:220", "include/stlab/concurrency/future.hpp:344", "include/stlab/concurrency/future.hpp:386", "include/stlab/concurrency/future.hpp:422", "include/stlab/concurrency/future.hpp:841", "include/stlab/concurrency/future.hpp:1639"]}
{"id": "C74", "title": "No data races and no failing assertions in channels", "statement": "However messages are sent and senders and receivers come and go, no two threads use the function or process object of a channel process, or the list of its receivers, at the same time with one of them changing it, unless both hold the mutex for it. The assertions of the code hold, queues are only read when they have a message, and a function that is called has not been destroyed.", "quantifier": "every network of processes, every interleaving of the threads of all processes with senders and receivers, every process object", "why_tests_cant": "Whether two unlocked accesses can coincide depends on all interleavings of all threads of the network; the assertions are stated in the code with a comment that they imply too many variables.", "anchors": ["include/stlab/concurrency/channel.hpp:599", "include/stlab/concurrency/channel.hpp:672", "include/stlab/concurrency/channel.hpp:817", "include/stlab/concurrency/channel.hpp:823", "include/stlab/concurrency/channel.hpp:837", "include/stlab/concurrency/channel.hpp:1113", "include/stlab/concurrency/channel.hpp:1160"]}
{"id": "C75", "title": "pre_exit with libdispatch: nothing runs afterwards", "statement": "With the libdispatch task system, when pre_exit() returns every task given to the default executor before or by a task has been called once, has ended and has been destroyed; no task given to the timer is being called; no task is called later and nothing they hold is destroyed later. A task that is called while pre_exit() waits for it may use the executor and the timer without failing an assertion.", "quantifier": "every interleaving of threads, tasks, timers and pre-exit handlers, the executor and timer being used for the first time at any moment", "why_tests_cant": "Needs a timer to fire in the moments between two pre-exit handlers; handlers and singletons can be created in any order.", "anchors": ["src/concurrency/default_executor.cpp:23", "include/stlab/concurrency/default_executor.hpp:90", "include/stlab/concurrency/system_timer.hpp:58", "include/stlab/concurrency/system_timer.hpp:77", "include/stlab/concurrency/system_timer.hpp:88"]}
{"id": "C76", "title": "pre_exit with the portable task system: nothing runs afterwards", "statement": "With the portable task system, when pre_exit() returns every task given to the default executor before has been executed to its end; no task of the executor or of the timer is called later; no queue of the pool is used after it was destroyed, and no assertion fails because a task becomes due.", "quantifier": "every interleaving of pool threads, the timer thread, other threads and pre-exit handlers, pool and timer being used for the first time at any moment, every number of queues", "why_tests_cant": "A delayed task has to become due between the return of pre_exit() and the destruction of the static timer.", "anchors": ["src/concurrency/default_executor.cpp:45", "include/stlab/concurrency/default_executor.hpp:382", "include/stlab/concurrency/default_executor.hpp:398", "include/stlab/concurrency/system_timer.hpp:253", "include/stlab/concurrency/executor_base.hpp:38"]}
{"id": "C77", "title": "No deadlock: foreign code runs unlocked, locks are taken in one order", "statement": "Whenever the library calls code that is not its own (executors, continuations, processes, destructors of closures), or waits in a condition variable, the calling thread holds no other mutex of the library, so that this code may call any function of the library; no thread locks a mutex it already owns; a thread that waits for a mutex waits, directly or through others, for a thread that can go on in the library, and every thread gives up its mutexes after a bounded number of its own steps.", "quantifier": "every number of threads, every interleaving, every nesting of calls of the library from the code it calls, every number of futures, processes, queues and awaits", "why_tests_cant": "A deadlock needs particular interleavings of several threads, or a callback that re-enters the library on the very object whose lock is held.", "anchors": ["include/stlab/concurrency/future.hpp:1087", "include/stlab/concurrency/future.hpp:1157", "include/stlab/concurrency/future.hpp:1424", "include/stlab/concurrency/channel.hpp:806", "include/stlab/concurrency/channel.hpp:915", "include/stlab/concurrency/channel.hpp:1131", "include/stlab/concurrency/await.hpp:56", "src/concurrency/default_executor.cpp:45"]}
{"id": "C78", "title": "The counters for tests count objects, and wait() waits for them", "statement": "Each counter of annotate_counters is the number of calls of the function it is named after, and remaining() is the number of annotate objects that exist; a call of wait(count) returns only if there were count objects at some time during the call, and it does return once there are count objects and nothing more happens to them; after it returned for zero objects the counters may be destroyed.", "quantifier": "every number of threads, annotate objects and waiting threads, every interleaving of the single atomic operations, spurious wake-ups included", "why_tests_cant": "A missed wake-up, a value made of three reads at different times, and a notification after the return of wait() need particular interleavings; tests that use the type fail rarely or hang, and nothing tests the type itself.", "anchors": ["include/stlab/test/model.hpp:30", "include/stlab/test/model.hpp:43", "include/stlab/test/model.hpp:45", "include/stlab/test/model.hpp:71", "include/stlab/test/model.hpp:78"]}
{"id": "C79", "title": "Windows task system: pre_exit() completes all tasks", "statement": "With the task system for Windows, every task given to an executor is called at most once and its closure is destroyed after the call; when pre_exit() returns, every task given to an executor of any priority before has been called and has ended, no task of an executor or of the timer is called later, no closed pool and no released work object is used, and the program ends without a failing assertion.", "quantifier": "every number of threads, tasks, priorities and pre-exit handlers, every order of first uses, every interleaving with pre_exit(), tasks that use executors and timer", "why_tests_cant": "What goes wrong depends on which executor was used first and on tasks that are still being executed, or become due, while or after pre_exit() joins the pools one by one; the effects are uses of closed system handles.", "anchors": ["include/stlab/concurrency/default_executor.hpp:121", "include/stlab/concurrency/default_executor.hpp:144", "include/stlab/concurrency/default_executor.hpp:156", "include/stlab/concurrency/default_executor.hpp:169", "src/concurrency/default_executor.cpp:57", "include/stlab/concurrency/system_timer.hpp:139", "src/pre_exit.cpp:60"]}
{"id": "C80", "title": "Serial queue: each task happens before the next", "statement": "Whatever threads submit and execute the tasks of a serial queue: the members of the queue are free of data races; what a thread did before it submitted a task is visible in the task; and everything a task did, including the destruction of the values it captured, happens before the next task of the queue begins, so that tasks may share data without locks.", "quantifier": "every interleaving of any number of submitting and executing threads, every executor that orders the submission of a function before its call, both schedule modes, any other synchronisation of the threads", "why_tests_cant": "Missing order between threads shows only as rare wrong values on weakly ordered hardware, and the destruction of a task overlaps the next one in a narrow window only.", "anchors": ["include/stlab/concurrency/serial_queue.hpp:77", "include/stlab/concurrency/serial_queue.hpp:89", "include/stlab/concurrency/serial_queue.hpp:117"]}
{"id": "C81", "title": "Thread pool: free of data races, orders submissions before tasks and tasks before the end of join", "statement": "The portable task system may be used from any threads, including its own: no two accesses to its queues, waiters and thread list are unordered with one of them a write, and no member is used after join() destroyed it. What a thread did before it gave a function to the executor happens before the function is called. When join() returns, all functions called have returned, and what they did happens before what the joining thread does next.", "quantifier": "every interleaving of any number of user threads, pool threads and expansion threads, any number of cores and any thread limit, any choice of queues and outcome of try_to_lock, any other synchronisation between the threads", "why_tests_cant": "Unordered accesses rarely go wrong on the machine of the test; the windows in question (between unlock and notify_one, between add_thread and join) are a few instructions wide.", "anchors": ["include/stlab/concurrency/default_executor.hpp:293", "include/stlab/concurrency/default_executor.hpp:382", "include/stlab/concurrency/default_executor.hpp:398", "include/stlab/concurrency/default_executor.hpp:409"]}
{"id": "C82", "title": "When the system refuses to create a thread", "statement": "If the system cannot create a thread, the operation that needed it throws std::system_error and has no other effect: the constructor of the thread pool throws; add_thread leaves the pool as it was, and later threads still get indices and waiters of their own; await and await_for throw only if they needed the thread, and their continuation does not touch anything that was destroyed with the exception.", "quantifier": "any pattern of refusals, any size of the pool and thread limit, every interleaving of the resolution of the future with await and await_for", "why_tests_cant": "The failure of the constructor of std::thread cannot be provoked portably, and the harmful window is between the resolution of the future and the unwinding of the stack.", "anchors": ["include/stlab/concurrency/default_executor.hpp:370", "include/stlab/concurrency/default_executor.hpp:409", "include/stlab/concurrency/await.hpp:41", "include/stlab/concurrency/await.hpp:56", "include/stlab/concurrency/await.hpp:121"]}
{"id": "C83", "title": "A copy of a value throws while a forest is being built", "statement": "If copying a value or allocating a node throws: insert of one value and insert_parent leave everything as it was; insert of a range and unflatten leave a well-formed forest that has, at the place of insertion, exactly the nodes copied so far, in preorder and with the same parents; the copy constructor and copy assignment leave every forest as it was. In no case is a node leaked.", "quantifier": "any reachable state of any number of forests, any range and shape, any position, an exception at any of the copies", "why_tests_cant": "It needs a value type whose copy throws at each possible place, for every shape of the source, and a check that no node remains allocated; the tests copy forests of values that never throw.", "anchors": ["include/stlab/forest.hpp:798", "include/stlab/forest.hpp:802", "include/stlab/forest.hpp:864", "include/stlab/forest.hpp:1036", "include/stlab/forest.hpp:1086", "include/stlab/forest_algorithms.hpp:81"]}
{"id": "C84", "title": "Forests are read by several threads at the same time", "statement": "If any number of threads call size() and == on the same forests at the same time, and none modifies them, then every size() returns the number of nodes, every == returns whether the two forests denote the same trees, no call waits for another, and no forest changes, even if the size was unknown and several threads compute and store it.", "quantifier": "any reachable state of any number of forests, any number of threads and calls, any interleaving of the accesses of the cached size", "why_tests_cant": "size() is a const function that writes a cache; whether a reader sees a stale or partial count depends on the interleaving. The tests read forests on one thread only.", "anchors": ["include/stlab/forest.hpp:819", "include/stlab/forest.hpp:908", "include/stlab/forest.hpp:918", "include/stlab/forest.hpp:954"]}
{"id": "C85", "title": "when_all and when_any are free of data races", "statement": "The argument futures of when_all and when_any may be resolved, and their continuations may run, on different threads in any order, also while the call still attaches continuations. The members of the shared context are then never raced on, its destruction by the last owner included. The result is made at most once, after the context was created. If the user's function is called by when_all, then all arguments have results and all of them happen before the call; if when_all fails, the error of some argument happens before. If the function is called by when_any, it gets the index of an argument that has a result, which happens before the call; if when_any fails, all arguments have errors, and all of them happen before.", "quantifier": "the five variants (packs and ranges, when_any on futures of void), any number of arguments, any number of threads, any interleaving of resolving, attaching, running continuations, storing the held futures, returning, and destroying the result", "why_tests_cant": "Tests observe only interleavings that happen; a race shows up as a wrong value at most on some hardware, and happens-before is not observable at all.", "anchors": ["include/stlab/concurrency/future.hpp:1063", "include/stlab/concurrency/future.hpp:1102", "include/stlab/concurrency/future.hpp:1146", "include/stlab/concurrency/future.hpp:1216", "include/stlab/concurrency/future.hpp:1426", "include/stlab/concurrency/future.hpp:1502"]}
{"id": "C86", "title": "The timer is free of data races", "statement": "With the portable task system, the members of the system timer are never raced on, its destruction at the end of the program included. A task is called at most once, and its submission happens before the call. When the destructor returns, all calls have returned, which happens before, and no task is called after that; the tasks that were not called are destroyed by the destructor after their submission.", "quantifier": "any number of threads and tasks, tasks that submit tasks, any interleaving of submissions, the timer thread and the destructor", "why_tests_cant": "Tests observe only interleavings that happen, and never the destruction of the static timer at the end of the program; happens-before is not observable.", "anchors": ["include/stlab/concurrency/system_timer.hpp:229", "include/stlab/concurrency/system_timer.hpp:253", "include/stlab/concurrency/system_timer.hpp:257", "include/stlab/concurrency/system_timer.hpp:274", "include/stlab/concurrency/system_timer.hpp:290"]}
{"id": "C87", "title": "The main executor calls every function once, in order, and never inside other code", "statement": "Whatever threads give functions to main_executor, each function is called at most once, in the order in which the functions were given to it, on the main thread, and never while the main thread is in the middle of other code. When the main thread has nothing left to do all of them have been called. Each function is deleted exactly once, after it has returned, or when the application ends. It is defined behaviour to use the executor at any time.", "quantifier": "the implementations for Qt, libdispatch and Emscripten, any number of functions and threads, any interleaving of posts, run loop turns, cancellation points and nested event loops", "why_tests_cant": "The tests are not run with these executors; cancellation points and nested event loops occur only in some applications, and order violations need particular timing.", "anchors": ["include/stlab/concurrency/main_executor.hpp:45", "include/stlab/concurrency/main_executor.hpp:82", "include/stlab/concurrency/main_executor.hpp:98", "include/stlab/concurrency/main_executor.hpp:115"]}
{"id": "C88", "title": "await and await_for are free of data races and use nothing that was destroyed", "statement": "Whichever thread resolves the future, and whenever, the variables that await shares with its continuation, and the guarded data that await_for shares with it, are accessed without data races, from construction to destruction, and never outside their lifetime: the continuation never touches the frame of an await that has returned. The guarded data of await_for is destroyed exactly once, by the last of the two to use it. The resolution of the future happens before await returns, and before await_for returns a ready future.", "quantifier": "any threads, any interleaving of resolving, attaching, waking up (spuriously too), timing out and returning", "why_tests_cant": "A notification that arrives after the waiting frame is gone, or a destruction that is not ordered after the last access, shows only under rare timing and usually does not crash.", "anchors": ["include/stlab/concurrency/await.hpp:56", "include/stlab/concurrency/await.hpp:86", "include/stlab/concurrency/await.hpp:121"]}
{"id": "C89", "title": "The two ends of a forest behave as a deque of trees", "statement": "push_back adds a tree of one node after the top-level trees of the forest, push_front before them. front and back are the values at the roots of the first and of the last top-level tree. pop_front and pop_back erase that root and leave its children in its place; no other node and no other forest changes. front, back, pop_front and pop_back of an empty forest are errors. Any sequence of these calls has the effect of the same sequence on the list of trees.", "quantifier": "all forests reachable by the API, all values, all sequences of calls", "why_tests_cant": "Tests push and pop nodes without children; what pop does with children, and the effect of arbitrary sequences, needs all shapes.", "anchors": ["include/stlab/forest.hpp:838", "include/stlab/forest.hpp:875", "include/stlab/forest.hpp:884"]}
{"id": "C90", "title": "An executor that throws does not break a serial queue or a channel", "statement": "If the executor under a serial queue or under the process of a channel throws when it is given a job, or destroys a job without running it, or if a task cannot be appended to the queue, then the call that failed throws and has no effect; tasks that are queued and messages that are sent afterwards are run. In any case tasks still are started in the order they were queued in, at most once each, and without overlap.", "quantifier": "any threads, any interleaving, any pattern of failures, both schedule modes", "why_tests_cant": "Executors of the library throw only when memory is exhausted; user-defined ones that throw do so under load. What is left behind shows only in later calls.", "anchors": ["include/stlab/concurrency/serial_queue.hpp:86", "include/stlab/concurrency/serial_queue.hpp:96", "include/stlab/concurrency/serial_queue.hpp:118", "include/stlab/concurrency/channel.hpp:1123"]}
{"id": "C91", "title": "A task is the callable it holds", "statement": "All that a program sees of its tasks (results, exceptions and side effects of calls, operator bool and comparisons with nullptr, target_type, target) is what it would see of variables holding the callables themselves: a task is empty exactly if it is default constructed, reset, or made from nullptr, a null pointer or an empty function; calling an empty task throws bad_function_call, or terminates if the signature is noexcept; state changed by a call stays with the callable through moves and swaps; a construction or assignment that throws has no effect. Where the callable is stored (in the task or on the heap) cannot be observed.", "quantifier": "every history of operations over any number of tasks, any callable types (sizes, alignments, state, exceptions)", "why_tests_cant": "The tests use a few callables of one size each and no throwing constructor; the result type of operator() is only tested with values.", "anchors": ["include/stlab/concurrency/task.hpp:39", "include/stlab/concurrency/task.hpp:206", "include/stlab/concurrency/task.hpp:236", "include/stlab/concurrency/task.hpp:251", "include/stlab/concurrency/task.hpp:265"]}
{"id": "C92", "title": "Reading a future does not disturb the others", "statement": "What get_try, get_ready and functions attached with then give depends only on the outcome of the shared state the future refers to, with void results mapped to no value: not on how often and in which way (kept or given up with std::move) this and other futures for the same state have been read, copied, moved, swapped, compared or reset. The result is moved out of the shared state only when the one future left is given up. Empty futures, comparisons, valid, is_ready and exception agree with what the futures refer to.", "quantifier": "every history over any number of futures and shared states; results copyable, move-only, void", "why_tests_cant": "Whether a result is moved or copied depends on a use count at the time of reading; tests check few histories and do not look at the other futures afterwards.", "anchors": ["include/stlab/concurrency/future.hpp:81", "include/stlab/concurrency/future.hpp:220", "include/stlab/concurrency/future.hpp:406", "include/stlab/concurrency/future.hpp:435", "include/stlab/concurrency/future.hpp:839"]}
{"id": "C93", "title": "Adapted iterators navigate like plain ones, stacked in any way", "statement": "reverse_fullorder_iterator, depth_fullorder_iterator and filter_fullorder_iterator may be stacked in any order over the iterators of a forest, and the result shows a properly nested sequence: the nodes kept by the filters, mirrored by each reversal. Over any such stack ++ and -- go through that sequence and back, has_children, find_parent and the child iterators give the children and the parent shown in it, a depth iterator shows the number of nodes around its own that are shown, after any mix of ++, --, leading_of, trailing_of, find_parent and child iteration, and the preorder and postorder ranges visit each node shown once.", "quantifier": "all forests reachable by any operations, all stacks of adaptors, all predicates, all positions and ways to reach them", "why_tests_cant": "The adaptors are templates over each other; tests use each once, over a plain forest iterator, and only for full traversals.", "anchors": ["include/stlab/forest.hpp:84", "include/stlab/forest.hpp:93", "include/stlab/forest.hpp:147", "include/stlab/forest.hpp:232", "include/stlab/forest.hpp:348", "include/stlab/forest.hpp:426", "include/stlab/forest.hpp:1106"]}
{"id": "C94", "title": "The outcomes of a graph of futures are those of sequential evaluation", "statement": "For a graph of async tasks, continuations (then), recoveries (recover) and tasks that return futures, whose functions depend only on their arguments, every future that becomes ready has the outcome that calling the functions one after another gives, whatever executors run the tasks, in whatever order, and whichever futures are copied or dropped, as long as no executor discards a task. Two runs give equal outcomes for the same future. When the executors have nothing left to do, every future that is still held, and whose sequential evaluation ends, is ready with that outcome.", "quantifier": "all graphs of any size, all functions (also ones that throw), all executions in any order", "why_tests_cant": "Tests run a handful of small graphs on one or two executors; the number of schedules of a graph is unbounded and the outcome of each must be compared.", "anchors": ["include/stlab/concurrency/future.hpp:343", "include/stlab/concurrency/future.hpp:727", "include/stlab/concurrency/future.hpp:989", "include/stlab/concurrency/future.hpp:1615"]}
{"id": "C95", "title": "A network of channels computes the same streams in every schedule and does not deadlock", "statement": "For a network of function processes built with channel(), operator|, zip_with and round robin merges with the default buffer sizes, what every process is called with is given by what was sent to the channels and by the functions (which may have state): the t-th call is with the t-th results of the upstream processes, or with the next in turn. Two executions differ only in how far they got. If as much was sent to every channel as the merges take together, then once nothing runs any more every process has been called for all of it and no message is left in any queue: merges that wait for each other, and upstream processes that wait for room in the buffers, do not deadlock.", "quantifier": "all networks of any size and shape, all functions, all messages, all interleavings of any number of threads", "why_tests_cant": "The tests run a few fixed networks under one scheduler; determinacy compares all schedules of all networks, and a deadlock of bounded buffers shows only in certain shapes and timings.", "anchors": ["include/stlab/concurrency/channel.hpp:435", "include/stlab/concurrency/channel.hpp:481", "include/stlab/concurrency/channel.hpp:828", "include/stlab/concurrency/channel.hpp:1091", "include/stlab/concurrency/channel.hpp:1137", "include/stlab/concurrency/channel.hpp:1240"]}
{"id": "C96", "title": "An executor that does not take a continuation does not break the future", "statement": "If an executor throws when it is given a continuation of a future, the exception is reported by the call that attached the continuation or resolved the future, and that call has no other effect on the future: its outcome is kept, all other continuations are run, and later ones can be attached. The same holds if the executor destroys the continuation without calling it. The function of that continuation is never called.", "quantifier": "any threads, any interleaving, any pattern of failures, any number of continuations and copies of the future", "why_tests_cant": "The executors of the tests take every task. Failures show only with a continuation attached before the future is resolved, in the thread that resolves it.", "anchors": ["include/stlab/concurrency/future.hpp:359", "include/stlab/concurrency/future.hpp:386", "include/stlab/concurrency/future.hpp:589", "include/stlab/concurrency/future.hpp:1646", "include/stlab/concurrency/future.hpp:657"]}
{"id": "C97", "title": "A channel piped into another passes everything on and is closed through it", "statement": "If the receiver of a channel is piped into the sender of another (receiver | sender), each message the first one handles is sent to the second, in order and once. A channel is not closed while there is a sender of it or of any channel from which relays lead to it; and once nothing is going on any more, it is closed if there is none. Then everything that was sent to it, through whatever relays, has been handled.", "quantifier": "any number of channels, senders and relays, connected in any way and at any time, any interleaving, destruction of any receivers", "why_tests_cant": "The tests pipe no receiver into a sender. Whether a channel is closed depends on all senders that lead to it, and on the order in which channels come to their end.", "anchors": ["include/stlab/concurrency/channel.hpp:1545", "include/stlab/concurrency/channel.hpp:598", "include/stlab/concurrency/channel.hpp:820", "include/stlab/concurrency/channel.hpp:1571"]}
{"id": "C98", "title": "Graphs with when_all and when_any give the outcomes of sequential evaluation", "statement": "For a graph of tasks, continuations, recoveries, when_all, when_any and tasks that return futures, whose functions depend only on their arguments, all outcomes of a run are those of sequential evaluation with one choice, made consistently for the whole graph, of the argument that decides each when_any and each failing when_all. Without when_any, and if at most one argument of each when_all can fail, the outcomes do not depend on the order of execution at all. Each function is called at most once. When nothing is left to do and no future was given up, every future is ready, unless futures depend on themselves.", "quantifier": "all graphs of any size with any number of joins, nested in any way, all functions (also ones that throw), all executions in any order", "why_tests_cant": "The number of interleavings of several joins grows beyond any test; a test sees a few schedules of one graph.", "anchors": ["include/stlab/concurrency/future.hpp:1249", "include/stlab/concurrency/future.hpp:1307", "include/stlab/concurrency/future.hpp:1573", "include/stlab/concurrency/future.hpp:1598", "include/stlab/concurrency/future.hpp:343"]}
{"id": "C99", "title": "A result whose copy throws is replaced by an error for all receivers", "statement": "When copying the result of a process for one of its receivers throws, all receivers get the same for this call, the error in place of the result, and the process works as if its function had thrown: the function is not executed twice at the same time, and messages are handled in order and once.", "quantifier": "all networks of channels and merges in which one receiver of each process has the default buffer size, all executions of any length in any order, all copies that throw", "why_tests_cant": "What goes wrong needs a copy that throws at one receiver in the middle of a broadcast, together with particular interleavings of three threads.", "anchors": ["include/stlab/concurrency/channel.hpp:670", "include/stlab/concurrency/channel.hpp:1113", "include/stlab/concurrency/channel.hpp:1130", "include/stlab/concurrency/channel.hpp:826"]}
{"id": "C100", "title": "scope calls a function while an object exists, also with locks and exceptions", "statement": "scope<T>(args..., f) calls f, once, while an object constructed from args exists, and destroys the object before anything else is done, whether f returns or throws; if the constructor throws, f is not called; exceptions are passed on. Objects of nested calls are destroyed in reverse order. With locks: functions given to scope with the same mutex do not overlap, a thread that has ended holds no lock, and if locks are nested in one order there is no deadlock.", "quantifier": "all programs with calls of scope nested in any way, any number of threads and mutexes, all interleavings, exceptions anywhere", "why_tests_cant": "Exceptions at any point of nested calls, and all interleavings of threads.", "anchors": ["include/stlab/scope.hpp:29", "include/stlab/scope.hpp:43", "include/stlab/scope.hpp:50"]}
{"id": "C101", "title": "The deprecated names of await and await_for do the same", "statement": "blocking_get(x) gives the outcome of x. blocking_get_for(x, t) returns the future that await_for returns, and blocking_get(x, t) its outcome if it is ready, else nullopt.", "quantifier": "all futures and time-outs, all interleavings of the waiting thread and the one that resolves the future", "why_tests_cant": "No test calls the deprecated functions; reaching the end of a function without return may seem to work.", "anchors": ["include/stlab/concurrency/await.hpp:146", "include/stlab/concurrency/await.hpp:152", "include/stlab/concurrency/await.hpp:158"]}
{"id": "C102", "title": "Handles are equal exactly if they belong to the same object", "statement": "Two futures, two receivers or two senders compare equal exactly if they belong to the same task or channel, or to none, also if memory is used again. A copy belongs to what the original belongs to, a handle moved to belongs to what the other one belonged to, which then belongs to nothing, and swapped handles change places.", "quantifier": "all histories of creation, copies, moves, assignments, swaps and destruction of handles, all addresses at which objects are created", "why_tests_cant": "Whether addresses are used again depends on the allocator; histories are unbounded.", "anchors": ["include/stlab/concurrency/future.hpp:722", "include/stlab/concurrency/channel.hpp:1500", "include/stlab/concurrency/channel.hpp:1594"]}
{"id": "C103", "title": "when_all and when_any with results whose copy throws", "statement": "If the result of an argument of when_all or when_any cannot be stored because copying or moving it throws, the future that is returned still gets ready: when_all with that exception, or that of another argument; when_any with another result, or an exception if there is none. In no case is the function called with something that is not a result of the arguments, or more than once.", "quantifier": "all numbers of arguments, results and exceptions, all interleavings of attaching, resolving, running, dropping and destroying, all sets of arguments whose results cannot be stored", "why_tests_cant": "no test has a type whose copy constructor throws, let alone at every point of every interleaving; that a future never gets ready is not the outcome of any finite test", "anchors": ["include/stlab/concurrency/future.hpp:1012-1027", "include/stlab/concurrency/future.hpp:1049-1052", "include/stlab/concurrency/future.hpp:1073-1086", "include/stlab/concurrency/future.hpp:1126-1139", "include/stlab/concurrency/future.hpp:1316-1331", "include/stlab/concurrency/future.hpp:1421-1471"]}
{"id": "C104", "title": "Nesting of calls is bounded", "statement": "How deep calls are nested does not depend on how many futures, continuations or tasks there are: neither when a future is resolved and its continuations run, nor when a future is given up and what it owns is destroyed, nor when the tasks of a serial queue run.", "quantifier": "all graphs of continuations, all chains of pending futures, all numbers of tasks and of tasks appended by tasks, both scheduling modes, all executions", "why_tests_cant": "a test uses short chains; the stack overflows only with chains longer than any test has", "anchors": ["include/stlab/concurrency/future.hpp:1636-1680", "include/stlab/concurrency/future.hpp:386-398", "include/stlab/concurrency/future.hpp:343-350", "include/stlab/concurrency/serial_queue.hpp:77-97", "include/stlab/concurrency/immediate_executor.hpp:28-33"]}
{"id": "C105", "title": "Results of futures that throw when they are copied or moved", "statement": "If copying or moving the result of a future throws, then the continuation that needs it is not called and its future gets that exception; all other futures get the results they would have had, as if the function of that continuation had thrown. Nothing undefined happens and the program is not terminated.", "quantifier": "all graphs of futures made by async, then, recover and functions that return futures, all interleavings, all sets of copies and moves that throw", "why_tests_cant": "no test has a type whose copy or move throws, let alone at each place and in each interleaving", "anchors": ["include/stlab/concurrency/future.hpp:413-420", "include/stlab/concurrency/future.hpp:589-594", "include/stlab/concurrency/future.hpp:727-778", "include/stlab/concurrency/future.hpp:985-1030", "include/stlab/concurrency/future.hpp:1636-1675"]}
{"id": "C106", "title": "Iterators of a forest stay valid until their node is erased", "statement": "An iterator of a forest, and a reference to the value it designates, stay valid until a call erases that node: erase of it, erase of a range that has both its edges, clear, destruction of or assignment to its forest. No other call on any forest changes the value (unless it is assigned to) or makes the iterator invalid, also not moving, swapping or splicing the nodes into another forest. Calls other than splice keep the order of the iterators that stay valid. An erased node is freed and is in no forest.", "quantifier": "every reachable set of forests, every permitted call and every history of calls, every node", "why_tests_cant": "tests hold few iterators across few calls; a dangling link or a relinked neighbour shows only for particular shapes", "anchors": ["include/stlab/forest.hpp:550-632", "include/stlab/forest.hpp:700-905"]}
{"id": "C107", "title": "Futures on the executors of the library", "statement": "A program of futures (async, then, recover, futures returned by functions, destruction, detach) whose executors are the thread pool, serial queues over the thread pool and immediate_executor, in any mixture, has no undefined behaviour, and, once it makes no further futures and its functions return, comes to rest after finitely many steps, whatever the threads do. At rest every task given to any executor was executed, every future somebody has is resolved, and its outcome is that of sequential evaluation of the program. Functions of the same serial queue are never called at the same time and are called in the order in which they became due. A function whose executor is not immediate_executor is called by a thread of the pool that calls nothing else meanwhile, so that no more of them are being called at the same time than the pool has threads.", "quantifier": "every program, every number of workers and of serial queues, every assignment of executors to futures, every interleaving of the steps of all threads, in every reachable state", "why_tests_cant": "a test sees a few schedules of a few programs; a lost wake-up, a lost job of a serial queue or a deadlock across the layers needs a particular interleaving of several threads", "anchors": ["include/stlab/concurrency/future.hpp:359-398", "include/stlab/concurrency/future.hpp:1625-1655", "include/stlab/concurrency/serial_queue.hpp:46-135", "include/stlab/concurrency/default_executor.hpp:170-430", "include/stlab/concurrency/immediate_executor.hpp:28-33"]}
{"id": "C108", "title": "Channels on the executors of the library", "statement": "A network of processes whose executors are the thread pool, serial queues over the thread pool and immediate_executor, in any mixture, comes to rest after finitely many steps once no more messages are sent and the functions return, whatever the threads do and also with one thread in the pool. At rest all steps of processes given to any executor were executed, every message sent was handled (except for processes that got an error), and the arguments of all calls are those the network computes, whatever the executors. Processes with the same serial queue are never in a step at the same time. The functions of processes that do not use immediate_executor are called by threads of the pool, no more at the same time than it has threads.", "quantifier": "every well-formed network in which of the processes after a process one has the default buffer size, every number of workers and of serial queues, every assignment of executors to processes, every interleaving of the steps of all threads, in every reachable state", "why_tests_cant": "a test sees a few schedules of a few networks on one executor; a step lost between the process, the serial queue and the pool, or a thread held by a process that waits for room, needs a particular interleaving", "anchors": ["include/stlab/concurrency/channel.hpp:738", "include/stlab/concurrency/channel.hpp:806-871", "include/stlab/concurrency/channel.hpp:1123-1128", "include/stlab/concurrency/serial_queue.hpp:46-135", "include/stlab/concurrency/default_executor.hpp:170-430"]}
{"id": "C109", "title": "Processes with await and yield come to rest", "statement": "A process whose object has await, yield and state, does not await with a time-out, and does not yield for ever without another message, comes to rest after finitely many steps once no more messages are sent, in whatever order the steps of its threads, of its timers and of its receivers (of the default buffer size) are taken; attempts to lock that fail are not counted, but from some time on an endless run consists of nothing else, with a step of another thread put off for ever. At rest every message sent was given to the object and every result was taken by every receiver; unless the channel was closed, the object awaits (or has not been started) and the next message starts it.", "quantifier": "every process object without timed await that yields only finitely often in a row, every number of receivers, every interleaving, in every reachable state", "why_tests_cant": "a test sees a few schedules of a few process objects; a livelock between threads that reschedule the process, or a wake-up lost by clear_to_send, needs a particular interleaving", "anchors": ["include/stlab/concurrency/channel.hpp:612-625", "include/stlab/concurrency/channel.hpp:806-900", "include/stlab/concurrency/channel.hpp:992-1074", "include/stlab/concurrency/channel.hpp:1123-1167"]}
{"id": "C110", "title": "Sources come to rest", "statement": "A source that stops yielding after N results comes to rest: together with its n receivers and its timers it takes at most 10 N (n + 1) + 7 steps from its construction on, in whatever order (attempts to lock that fail are not counted), and until then a step other than a failing attempt is always possible. At rest the source has been called exactly N times, every receiver has been sent all N results in order and has taken them, no thread is left and the lock is free.", "quantifier": "every process object, delayed or not, that stops yielding after any number N of results, any number of receivers, all buffer sizes, every interleaving of threads, timers and receivers", "why_tests_cant": "The tests run a generator on a queue that is executed by hand; that no order of threads, timers and receivers keeps the source going, starts it again after its end or leaves a receiver without its results cannot be seen from a few runs.", "anchors": ["include/stlab/concurrency/channel.hpp:826-852", "include/stlab/concurrency/channel.hpp:909-990", "include/stlab/concurrency/channel.hpp:1131-1164"]}
{"id": "C111", "title": "when_all and when_any on the executors of the library", "statement": "A graph of futures made by async, then, recover, when_all and when_any whose tasks are executed by the portable thread pool, by serial queues over it and by immediate_executor, in any mixture, comes to rest in whatever order the threads take their steps, also with a single thread in the pool. At rest every task given to an executor was executed, no continuation on an argument is pending, and, if nobody let go of a future and no future depends on itself, every future made is resolved; outcomes are those of sequential evaluation and do not depend on the executors. The functions of all nodes with the same serial queue exclude each other, the continuations on the arguments of a join with a serial queue come one after the other, and no more functions run at a time than the pool has threads, each called by one of them.", "quantifier": "every graph of futures with any functions, any assignment of executors to nodes, any number of threads, workers and serial queues, every interleaving of users, tasks, critical sections and executors", "why_tests_cant": "The tests run joins of a few futures on the default executor with one outcome per run; that no mixture of executors and no order of the continuations leaves a join unresolved, occupies the only thread while waiting, or lets two functions of one serial queue overlap is a statement about all interleavings of three components.", "anchors": ["include/stlab/concurrency/future.hpp:1063-1265", "include/stlab/concurrency/future.hpp:1420-1611", "include/stlab/concurrency/serial_queue.hpp:30-160", "include/stlab/concurrency/default_executor.hpp:230-420", "include/stlab/concurrency/immediate_executor.hpp:25-45"]}
{"id": "C112", "title": "Serial queues over serial queues", "statement": "When serial queues are constructed with the executors of other serial queues, to any depth and in either mode, each still starts its tasks in the order in which they were given to it and one after the other. Of all tasks given by users to the queues over one queue, directly or through others, and to that queue itself, only one is executed at a time, and a queue executes a job only inside a call by the queue below it. Once no more tasks are given, the queues come to rest in whatever order the steps are taken, and then every task given to any queue was executed.", "quantifier": "every forest of serial queues with any modes, any tasks given to any of them at any time, every interleaving of the threads giving tasks, the jobs and the executors at the roots", "why_tests_cant": "The tests use serial queues directly over the default executor; that a job passed through several queues is neither lost nor executed beside a task of another queue with the same root is a statement about all shapes and all interleavings.", "anchors": ["include/stlab/concurrency/serial_queue.hpp:46-137", "include/stlab/concurrency/serial_queue.hpp:145-165"]}
{"id": "C113", "title": "Happens-before between the steps of a channel", "statement": "In a network of channels whose bounded processes have the default buffer size, the uses of the function object of a process and of its list of receivers are totally ordered by happens-before, on whatever threads they take place: each call ends before the next one begins, before its result is sent on, and before the function and the receivers are destroyed. Sending a message happens before the call of the function with this message, and the end of the call that gave a result happens before the call of a downstream function with this result. Hence functions with state need no synchronisation of their own, and may read without it all that the senders of their messages wrote before sending.", "quantifier": "every well-formed network of channels, joins, zips and merges, all messages, errors and threads of users, every interleaving; only mutexes and giving a job to an executor order steps of different threads", "why_tests_cant": "A missing order shows only as a data race on weakly ordered memory or under a race detector in a rare schedule; no test can enumerate the interleavings.", "anchors": ["include/stlab/concurrency/channel.hpp:598-637", "include/stlab/concurrency/channel.hpp:784-871", "include/stlab/concurrency/channel.hpp:1075-1180"]}
{"id": "C114", "title": "Happens-before in a process with await and yield", "statement": "If a process object with await and yield never awaits with a time-out, then of any two uses of it or of its list of receivers of which one may change them, one happens before the other, on whatever threads they take place. The uses are the calls of await, yield, close, set_error and state, the calls of state by receivers that are about to resume the process, which are made without a lock, sending the results, and the destruction at the end. Sending a message happens before the message is given to the process object, and yielding a result happens before what a receiver does after taking it.", "quantifier": "every process object without time-outs, any number of receivers, all messages, errors and threads, every interleaving; only mutexes and giving a job to an executor order steps of different threads", "why_tests_cant": "The process object is read without a lock by the threads of its receivers; that this is never concurrent with a change depends on the count of suspensions, and a mistake would show only in rare schedules or under a race detector.", "anchors": ["include/stlab/concurrency/channel.hpp:784-871", "include/stlab/concurrency/channel.hpp:992-1074", "include/stlab/concurrency/channel.hpp:1130-1167"]}
{"id": "C115", "title": "copy copies and move moves", "statement": "stlab::copy returns what the copy constructor of its argument makes, and is not compiled exactly for rvalues that are not const; stlab::move is compiled exactly for arguments that are not const and then its result is moved from; the result of move_if is moved from exactly if its condition is true and the argument is not const.", "quantifier": "every class, with or without a constructor from an initializer list, every value, every value category and constness of the argument", "why_tests_cant": "Tests copy a few values of a few types; whether initialisation with braces copies depends on the other constructors of the type.", "anchors": ["include/stlab/utility.hpp:106-141"]}
{"id": "C116", "title": "all_true is conjunction", "statement": "all_true<v...> is true exactly if every v is, and of two packs one after the other exactly if it is true of both.", "quantifier": "every list of truth values of any length", "why_tests_cant": "There is no test, and instances have fixed lengths; the definition compares two packs shifted by one place, so that its correctness is an induction over the length.", "anchors": ["include/stlab/concurrency/traits.hpp:23-26"]}
{"id": "C117", "title": "The threads of the pool have their names", "statement": "When a thread of the default executor runs a task, its name is cc.stlab.default_executor, or cc.stlab.default_executor.expansion if it was added to the pool later.", "quantifier": "every system with a limit on names as documented, every program that creates and names threads, the pool created by any thread", "why_tests_cant": "set_current_thread_name ignores the result of the system call, and nothing in the library reads the name.", "anchors": ["include/stlab/concurrency/set_current_thread_name.hpp:29-51", "include/stlab/concurrency/default_executor.hpp:346-347", "include/stlab/concurrency/default_executor.hpp:409-413"]}
{"id": "C118", "title": "Happens-before in graphs of futures", "statement": "When the function of a continuation is called, everything the functions did on whose results its argument depends, directly or through other continuations and through futures that functions returned, happened before the call, whatever threads execute them; so did everything that the threads that made these futures had done before. The same holds for what happens after a future was resolved by one its function returned, and for a thread that reads the result of a ready future. Making a future, calling its function, the end of the call and the resolution are ordered among each other. Nothing happens before what came earlier.", "quantifier": "every graph of futures of any size built with async, then, recover and functions that return futures, with dropped futures and tasks, all threads and every interleaving; only the mutexes of the shared states, executors and reading _ready order steps of different threads", "why_tests_cant": "On x86 nearly every access is ordered by the hardware; a missing edge would show only on other processors or under a race detector, and only in the schedules where no other lock happens to order the accesses.", "anchors": ["include/stlab/concurrency/future.hpp:343-398", "include/stlab/concurrency/future.hpp:985-1035", "include/stlab/concurrency/future.hpp:1637-1655"]}
{"id": "C119", "title": "Happens-before in graphs with when_all and when_any", "statement": "When the function of a when_all is called, all its arguments have been resolved before, with the values it gets; when the function of a when_any is called, the argument it gets has been resolved before. So everything the functions did on whose results the arguments depend, through any number of continuations, joins and futures that functions returned, happened before the call, whatever threads execute them. A future that gets an error without its function being called gets it from a future resolved before; a when_any fails only after all its arguments failed. The call of a function and the resolution of the future it returned happen before its own future is resolved. A thread that sees that a future is ready and reads its result comes after all that the result depends on. Nothing happens before what came earlier.", "quantifier": "every graph of futures of any size built with async, then, recover, when_all and when_any of packs and ranges, and functions that return futures, with dropped futures, all threads and every interleaving; only the mutexes and _ready of the shared states, _guard of the contexts and executors order steps of different threads", "why_tests_cant": "A missing edge between the last critical section and the call of the function would show only on processors that reorder, or under a race detector, in the schedules where no other lock orders the accesses.", "anchors": ["include/stlab/concurrency/future.hpp:1063-1231", "include/stlab/concurrency/future.hpp:1423-1518", "include/stlab/concurrency/future.hpp:343-398", "include/stlab/concurrency/future.hpp:985-1035"]}
