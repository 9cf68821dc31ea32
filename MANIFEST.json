{
 "claims": [
  {
   "property": "C01",
   "status": "proved",
   "theorems": [
    "Verif.Forest.c01_traversal"
   ],
   "note": "For every state reachable by any sequence of allowed API calls."
  },
  {
   "property": "C02",
   "status": "proved",
   "theorems": [
    "Verif.Forest.c02_insert"
   ],
   "note": "Any reachable state, any position, any fresh address."
  },
  {
   "property": "C03",
   "status": "proved",
   "theorems": [
    "Verif.Forest.c03_erase"
   ],
   "note": "Either edge; result iterator, destruction of the node and frame included."
  },
  {
   "property": "C04",
   "status": "proved",
   "theorems": [
    "Verif.Forest.c04_erase_range",
    "Verif.Forest.c04_clear"
   ],
   "note": "Arbitrary ranges, including ones cutting through nodes; clear() as the whole range."
  },
  {
   "property": "C05",
   "status": "proved",
   "theorems": [
    "Verif.Forest.c05_splice_between",
    "Verif.Forest.c05_splice_within",
    "Verif.Forest.c05_splice_nothing",
    "Verif.Forest.c05_splice_all",
    "Verif.Forest.c05_splice_node_between",
    "Verif.Forest.c05_splice_node_within"
   ],
   "note": "Range (with or without count), whole-forest and single-node forms, within one and between two forests."
  },
  {
   "property": "C06",
   "status": "proved",
   "theorems": [
    "Verif.Forest.c06_size"
   ],
   "note": "size() after every history, and validity of the cached size."
  },
  {
   "property": "C07",
   "status": "proved",
   "theorems": [
    "Verif.Forest.c07_insert_parent"
   ],
   "note": "Any child range, also empty."
  },
  {
   "property": "C08",
   "status": "partial",
   "theorems": [
    "Verif.Forest.c08_reverse_counterexample",
    "Verif.Forest.c08_reverse_partial",
    "Verif.Forest.c08_lost_counterexample",
    "Verif.Forest.c08_hangs_counterexample",
    "Verif.Forest.c08_returns_counterexample"
   ],
   "note": "The code violates the property, for every non-empty range of siblings of every forest: if the call returns, none of the nodes of the range is visited any more although all stay allocated (c08_lost_counterexample); it returns for one node and for ranges that reach the last sibling (c08_returns_counterexample) and never returns for two or more siblings followed by another (c08_hangs_counterexample). The partial theorem covers the empty range only."
  },
  {
   "property": "C09",
   "status": "proved",
   "theorems": [
    "Verif.Forest.c09_copy",
    "Verif.Forest.c09_copy_assign",
    "Verif.Forest.c09_equal",
    "Verif.Forest.c09_copy_equal"
   ],
   "note": "Copy construction, copy assignment, equality; self copy assignment is excluded by an assertion in the code."
  },
  {
   "property": "C10",
   "status": "proved",
   "theorems": [
    "Verif.Forest.c10_move_construct",
    "Verif.Forest.c10_move_assign",
    "Verif.Forest.c10_self_move",
    "Verif.Forest.c10_swap"
   ],
   "note": "Move construction, move assignment (also self), swap (also self)."
  },
  {
   "property": "C11",
   "status": "proved",
   "theorems": [
    "Verif.Forest.c11_no_leak",
    "Verif.Forest.c11_no_undefined",
    "Verif.Forest.c11_all_freed",
    "Verif.Forest.c11_destroy"
   ],
   "note": "Allocated addresses are exactly sentinels and linked nodes; no allowed call is undefined; no forests means empty heap. forest::reverse is not an allowed call (see C08)."
  },
  {
   "property": "C12",
   "status": "partial",
   "theorems": [
    "Verif.Forest.c12_equal_shape_partial",
    "Verif.Forest.c12_unknown_partial",
    "Verif.Forest.c12_complete_partial",
    "Verif.Forest.c12_equal_shape_counterexample"
   ],
   "note": "The code violates the property when a size is unknown: counterexample. Proved when both sizes are valid; when one is unknown the result says whether the first forest has the shape of the first trees of the second (c12_unknown_partial), so equal shapes are always found equal, and unequal ones unless the second forest has more nodes (c12_complete_partial)."
  },
  {
   "property": "C13",
   "status": "proved",
   "theorems": [
    "Verif.Forest.c13_flatten",
    "Verif.Forest.c13_unflatten",
    "Verif.Forest.c13_round_trip"
   ],
   "note": "Both directions, and the round trip."
  },
  {
   "property": "C14",
   "status": "proved",
   "theorems": [
    "Verif.Forest.c14_transcribe"
   ],
   "note": "Whole-range transcribe with the default predicate into a distinct forest."
  },
  {
   "property": "C15",
   "status": "proved",
   "theorems": [
    "Verif.Forest.c15_children"
   ],
   "note": "At every node and at the root."
  },
  {
   "property": "C16",
   "status": "proved",
   "theorems": [
    "Verif.Forest.c16_pre_post_order"
   ],
   "note": "Both orders, forwards and backwards."
  },
  {
   "property": "C17",
   "status": "partial",
   "theorems": [
    "Verif.Forest.c17_range",
    "Verif.Forest.c17_range_counterexample",
    "Verif.Forest.c17_filter_partial",
    "Verif.Forest.c17_end_unfiltered",
    "Verif.Forest.c17_filter_counterexample"
   ],
   "note": "Backward traversal from the range's own end() does not filter: counterexample; the forward traversal and the backward traversal from the iterator reached by ++ are proved. The iterators for any part of a forest, including what they show before and after their range, in c17_range; with a range that ends inside a node that fails the end is missed (c17_range_counterexample)."
  },
  {
   "property": "C18",
   "status": "partial",
   "theorems": [
    "Verif.Forest.c18_base",
    "Verif.Forest.c18_convert_partial",
    "Verif.Forest.c18_convert_counterexample",
    "Verif.Forest.c18_reverse_partial",
    "Verif.Forest.c18_edge_counterexample"
   ],
   "note": "Edge changing a reverse iterator gives an iterator unequal to the one traversal reaches: counterexample; the traversals are proved. base() is proved (c18_base). Converting to a reverse iterator of const_iterator undoes a change of the edge (counterexample); proved without one."
  },
  {
   "property": "C19",
   "status": "partial",
   "theorems": [
    "Verif.Forest.c19_depth_partial",
    "Verif.Forest.c19_end_counterexample"
   ],
   "note": "Iterators obtained from the end() of depth_range report a depth one too high: counterexample; everything reachable from begin() is proved."
  },
  {
   "property": "C20",
   "status": "proved",
   "theorems": [
    "Verif.ReverseUntil.c20_reverse_until"
   ],
   "note": "Proved for every sequence and every middle position."
  },
  {
   "property": "C21",
   "status": "proved",
   "theorems": [
    "Verif.SerialQueue.c21_order"
   ],
   "note": "Every reachable state of the transition system, both modes; any interleaving."
  },
  {
   "property": "C22",
   "status": "proved",
   "theorems": [
    "Verif.SerialQueue.c22_no_overlap",
    "Verif.SerialQueue.c22_one_job"
   ],
   "note": "Trace-level: between two starts the first task finishes."
  },
  {
   "property": "C23",
   "status": "proved",
   "theorems": [
    "Verif.SerialQueue.c23_no_undefined",
    "Verif.SerialQueue.c23_job_outstanding",
    "Verif.SerialQueue.c23_quiescent",
    "Verif.SerialQueue.c23_never_stuck",
    "Verif.SerialQueue.c23_started",
    "Verif.SerialQueue.c23_finished"
   ],
   "note": "Safety and bounded progress: any continuation with 6n+7 machinery steps finishes task n; machinery never stuck; no undefined step."
  },
  {
   "property": "C24",
   "status": "proved",
   "theorems": [
    "Verif.PreExit.pre_exit_lifo",
    "Verif.PreExit.pre_exit_runs_all",
    "Verif.PreExit.pre_exit_closed",
    "Verif.PreExit.pre_exit_progress",
    "Verif.PreExit.pre_exit_returns"
   ],
   "note": "Transition system over all interleavings of registrations and handler runs; pre_exit_returns: it returns after running what is left."
  },
  {
   "property": "C25",
   "status": "proved",
   "theorems": [
    "Verif.NotificationQueue.c25_priority",
    "Verif.NotificationQueue.c25_pop_some",
    "Verif.NotificationQueue.c25_conserve"
   ],
   "note": "Any sequence of pushes and pops with fewer than 2^62 pushes; std heap functions by contract."
  },
  {
   "property": "C26",
   "status": "proved",
   "theorems": [
    "Verif.ThreadPool.c26_at_most_once",
    "Verif.ThreadPool.c26_not_lost",
    "Verif.ThreadPool.c26_no_lost_wakeup",
    "Verif.ThreadPool.c26_worker_enabled",
    "Verif.ThreadPool.c26_worker_progress",
    "Verif.ThreadPool.c26_never_stuck"
   ],
   "note": "At most once; never lost; no lost wake-up; a worker with a non-empty queue starts a task within N+2 of its own steps. Eventual execution is stated as progress (enabledness and bounded steps) because tasks may run arbitrarily long."
  },
  {
   "property": "C27",
   "status": "partial",
   "theorems": [
    "Verif.Timer.c27_not_early",
    "Verif.Timer.c27_deadline_order",
    "Verif.Timer.c27_at_most_once",
    "Verif.Timer.c27_no_undefined",
    "Verif.Timer.c27_no_lost_wakeup",
    "Verif.WindowsTimer.c27_windows_partial",
    "Verif.WindowsTimer.c27_windows_counterexample"
   ],
   "note": "Every interleaving of the timer thread, submitters, clock and destructor; std heap functions by contract. The due time of the Windows timer (duration_to_FILETIME) is up to a millisecond too early: c27_windows_counterexample; c27_windows_partial bounds it. The order and the at-most-once of the Windows timer are the platform's."
  },
  {
   "property": "C28",
   "status": "partial",
   "theorems": [
    "Verif.ExecuteAt.c28_second_use_counterexample",
    "Verif.ExecuteAt.c28_execute_at_partial"
   ],
   "note": "The code violates the property for a second use (counterexample for every positive duration); proved for at most one use or zero duration."
  },
  {
   "property": "C29",
   "status": "partial",
   "theorems": [
    "Verif.Task.c29_calls_partial",
    "Verif.Task.c29_destroyed_once_partial",
    "Verif.Task.c29_unique_owner_partial",
    "Verif.Task.c29_bool_partial",
    "Verif.Task.c29_self_assign_counterexample",
    "Verif.Task.c29_self_swap_counterexample",
    "Verif.Task.c29_moved_from_counterexample"
   ],
   "note": "Proved for all histories without self-move-assignment, self-swap and calls of moved-from tasks. Those three are undefined behaviour or misreported by the code (counterexamples): task.hpp:226-232 has no self check and moving does not reset the source's vtable."
  },
  {
   "property": "C30",
   "status": "partial",
   "theorems": [
    "Verif.MoveOnly.c30_move_only_resolved_once",
    "Verif.MoveOnly.c30_move_only_counterexample",
    "Verif.Shared.c30_no_undefined",
    "Verif.Shared.c30_resolved_once",
    "Verif.Shared.c30_same_outcome",
    "Verif.Shared.c30_stays_ready",
    "Verif.Shared.c30_ready_seen",
    "Verif.Shared.c30_lvalue_kept"
   ],
   "note": "Every interleaving of any number of threads, futures and continuations on one copyable shared state (Verif.Future.Shared): no undefined behaviour, resolved at most once, all observers see the same outcome, readiness never reverts. For move-only results (Verif.Future.MoveOnly) the future is resolved at most once, but two reads do not see the same outcome, since get_try moves the value out of the shared state even through a const future: c30_move_only_counterexample; C55 states what holds instead."
  },
  {
   "property": "C31",
   "status": "proved",
   "theorems": [
    "Verif.MoveOnly.c31_move_only_once",
    "Verif.MoveOnly.c31_move_only_scheduled",
    "Verif.Shared.c31_scheduled_once",
    "Verif.Shared.c31_not_early",
    "Verif.Shared.c31_called_once",
    "Verif.Shared.c31_called_after",
    "Verif.Shared.c31_given_after",
    "Verif.Shared.c31_not_lost",
    "Verif.Shared.c31_progress"
   ],
   "note": "Each continuation of one shared state is scheduled exactly once, never before the state is ready, called at most once and only after, and none is lost; progress: a quiescent state has no continuation left in the queue. Move-only results: c31_move_only_*."
  },
  {
   "property": "C32",
   "status": "proved",
   "theorems": [
    "Verif.Graph.c32_no_undefined",
    "Verif.Graph.c32_not_called",
    "Verif.Graph.c32_chain",
    "Verif.Graph.c32_chain_not_called",
    "Verif.Graph.c32_chain_arrives",
    "Verif.Graph.c32_recover",
    "Verif.Graph.c32_own_result",
    "Verif.Graph.c32_then_value"
   ],
   "note": "Any graph built from async, then, recover and functions returning futures (Verif.Future.Graph): along a chain of any length; arrival is stated for states in which the executors have nothing left to do."
  },
  {
   "property": "C33",
   "status": "partial",
   "theorems": [
    "Verif.MoveOnly.c33_move_only_broken",
    "Verif.MoveOnly.c33_move_only_ready",
    "Verif.Shared.c33_destroy_breaks",
    "Verif.Shared.c33_resolved_partial",
    "Verif.Shared.c33_overwritten_counterexample",
    "Verif.Shared.c33_overwritten_promise_counterexample"
   ],
   "note": "Destroying an unresolved promise or packaged_task breaks it (proved). Overwriting one by the defaulted move assignment (future.hpp:584, 668) does not: counterexamples. c33_resolved_partial is the part that holds for histories without such assignments."
  },
  {
   "property": "C34",
   "status": "partial",
   "theorems": [
    "Verif.Graph.c34_graph_never_called",
    "Verif.Graph.c34_owned_iff",
    "Verif.Graph.c34_graph_others",
    "Verif.Graph.c34_graph_kept",
    "Verif.Graph.c34_graph_all_resolved",
    "Verif.Graph.c34_graph_detached",
    "Verif.MoveOnly.c34_move_only_detached_partial",
    "Verif.MoveOnly.c34_move_only_detached_counterexample",
    "Verif.MoveOnly.c34_move_only_not_called",
    "Verif.MoveOnly.c34_move_only_canceled",
    "Verif.MoveOnly.c34_move_only_stays_canceled",
    "Verif.Shared.c34_canceled_not_called",
    "Verif.Shared.c34_dropped_not_invoked",
    "Verif.Shared.c34_kept_runs",
    "Verif.Shared.c34_detached_alive"
   ],
   "note": "Interleavings inside one shared state (c34_canceled_not_called etc., Verif.Future.Shared) and any graph (c34_graph_*, Verif.Future.Graph), for copyable result types. Move-only results (Verif.Future.MoveOnly): detach() is lost when a continuation is attached afterwards, because the single entry _then is overwritten (c34_move_only_detached_counterexample); everything else holds (c34_move_only_detached_partial, _canceled)."
  },
  {
   "property": "C35",
   "status": "proved",
   "theorems": [
    "Verif.Graph.c35_outcome",
    "Verif.Graph.c35_resolved",
    "Verif.Graph.c35_inner_kept"
   ],
   "note": "Any graph; outcome, order, progress at quiescence, and the inner future stays owned while the outer one is."
  },
  {
   "property": "C36",
   "status": "partial",
   "theorems": [
    "Verif.When.c36_once",
    "Verif.When.c36_no_undefined",
    "Verif.When.c36_results",
    "Verif.When.c36_failed_not_called",
    "Verif.When.c36_first_error",
    "Verif.When.c36_called",
    "Verif.When.c36_fails",
    "Verif.When.c36_fails_early",
    "Verif.When.c36_empty_range",
    "Verif.When.c36_empty_pack_counterexample"
   ],
   "note": "Proved for every n > 0, pack and range, every interleaving of attaching, resolution and execution. An empty pack never calls the function (counterexample); an empty range does."
  },
  {
   "property": "C37",
   "status": "proved",
   "theorems": [
    "Verif.When.c37_once",
    "Verif.When.c37_no_undefined",
    "Verif.When.c37_first_success",
    "Verif.When.c37_last_error",
    "Verif.When.c37_all_failed_not_called",
    "Verif.When.c37_called",
    "Verif.When.c37_called_early",
    "Verif.When.c37_called_first",
    "Verif.When.c37_fails",
    "Verif.When.c37_empty_range"
   ],
   "note": "Every n > 0, pack and range; an empty range gives a broken promise."
  },
  {
   "property": "C38",
   "status": "proved",
   "theorems": [
    "Verif.Await.Plain.c38_await_outcome",
    "Verif.Await.Plain.c38_await_no_dangling",
    "Verif.Await.Plain.c38_await_progress",
    "Verif.Await.Plain.c38_await_terminates",
    "Verif.Await.Timed.c38_for_ready",
    "Verif.Await.Timed.c38_for_hold",
    "Verif.Await.Timed.c38_for_hold_ready",
    "Verif.Await.Timed.c38_for_once",
    "Verif.Await.Timed.c38_for_progress",
    "Verif.Await.Timed.c38_for_prompt"
   ],
   "note": "Both functions as transition systems of the waiting thread and the continuation, with the mutex, the condition variable, spurious wake-ups and the time-out at any moment: the right outcome, no dangling use of await's local variables, no lost wake-up (progress and a decreasing measure), and for await_for that hold is resolved with the same outcome and is never delivered in addition to the result. The deprecated blocking_get_for (await.hpp:152-156) flows off its end without a return; that is recorded in DESIGN.md, and not part of this property."
  },
  {
   "property": "C39",
   "status": "proved",
   "theorems": [
    "Verif.Channel.c39_one_at_a_time",
    "Verif.Channel.c39_in_order",
    "Verif.Channel.c39_results",
    "Verif.Channel.c39_result_of_each_call",
    "Verif.Channel.c39_threads_go_on",
    "Verif.Channel.c39_all_handled"
   ],
   "note": "Any network of function processes (not only pipelines) in which each process with downstream has at least one downstream process with buffer size 1 (Net.Tight; the default sizes satisfy it). Errors included: everything is handled except what is before or in a process that got an error (see C46). Safety in every reachable state; liveness as: in every state where no thread is doing anything every message has been handled, and every thread outside of a user function can take a step. That such a state is reached is C59."
  },
  {
   "property": "C40",
   "status": "partial",
   "theorems": [
    "Verif.Channel.c40_counterexample",
    "Verif.Channel.c40_any_number_counterexample",
    "Verif.Channel.c40_one_at_a_time_partial"
   ],
   "note": "Proved if one downstream process has buffer size 1. False for every other size, 0 included: c40_any_number_counterexample, for every such size and every n, n threads in the function of the same process."
  },
  {
   "property": "C41",
   "status": "partial",
   "theorems": [
    "Verif.Channel.c41_counterexample",
    "Verif.Channel.c41_any_number_counterexample",
    "Verif.Channel.c41_bound_partial",
    "Verif.Channel.c41_upstream_waits_partial"
   ],
   "note": "Proved (with bound 1) if one downstream process has buffer size 1. False for every size from 2: c41_any_number_counterexample, any number of results in the queue."
  },
  {
   "property": "C42",
   "status": "partial",
   "theorems": [
    "Verif.Channel.c42_counterexample",
    "Verif.Channel.c42_zip_pairs",
    "Verif.Channel.c42_zip_order_partial"
   ],
   "note": "Every invocation is with the n-th messages of all upstreams for some n, any buffer sizes. That the k-th invocation is the k-th tuple is proved for Net.Tight and false if the next process has buffer size 2 (c42_counterexample)."
  },
  {
   "property": "C43",
   "status": "partial",
   "theorems": [
    "Verif.Channel.c43_counterexample",
    "Verif.Channel.c43_round_robin_takes",
    "Verif.Channel.c43_round_robin_partial"
   ],
   "note": "As C42: cyclic order of what is taken for any buffer sizes, cyclic order of invocations for Net.Tight, counterexample with buffer size 2."
  },
  {
   "property": "C44",
   "status": "partial",
   "theorems": [
    "Verif.Channel.c44_counterexample",
    "Verif.Channel.c44_unordered_partial",
    "Verif.Channel.c44_unordered_sent",
    "Verif.Channel.c44_nothing_lost_partial"
   ],
   "note": "As C42; exactly once and in order for Net.Tight, counterexample with buffer size 2."
  },
  {
   "property": "C45",
   "status": "partial",
   "theorems": [
    "Verif.Channel.c45_counterexample",
    "Verif.Channel.c45_open_while_sender",
    "Verif.Channel.c45_handled_before_close",
    "Verif.Channel.c45_close_order",
    "Verif.Channel.c45_not_run_and_close",
    "Verif.Channel.c45_all_closed_partial",
    "Verif.Handles.c45_sender_keeps_open",
    "Verif.Handles.c45_counterexample_assign"
   ],
   "note": "Never closed while a sender exists; closed only after everything its queue gives out was handled; after all senders are gone, quiescence implies that every process is closed, for networks of plain processes and unordered merges, unless a process got an error (C46). False for zip_with with unequal numbers of messages (c45_counterexample). Senders as objects: a channel whose last sender is overwritten by an assignment is never closed (c45_counterexample_assign)."
  },
  {
   "property": "C46",
   "status": "partial",
   "theorems": [
    "Verif.Channel.c46_counterexample",
    "Verif.Channel.c46_no_call",
    "Verif.Channel.c46_failed_iff",
    "Verif.Channel.c46_wedged",
    "Verif.Channel.c46_running_partial"
   ],
   "note": "False, not only in an example (c46_counterexample): in every network with Net.Tight, a process that takes an error from its queue stays marked as running whatever happens afterwards, calls and sends nothing, is never closed, and its receivers neither get the error nor are closed (c46_wedged); these are exactly the processes that took an error (c46_failed_iff). Proved of the claim: no function is called with an error (c46_no_call), and any other process marked as running has a thread or waits for a downstream process that has (c46_running_partial)."
  },
  {
   "property": "C47",
   "status": "partial",
   "theorems": [
    "Verif.Handles.c47_not_too_early",
    "Verif.Handles.c47_no_underflow",
    "Verif.Handles.c47_exact_partial",
    "Verif.Handles.c47_counterexample_copy",
    "Verif.Handles.c47_counterexample_assign"
   ],
   "note": "Any history of receivers of any number of processes: data never flows while a receiver is not ready, and the counts never underflow. The other direction is false: a copy of a ready receiver and a receiver that is overwritten block the process for ever (two counterexamples); proved for histories without these."
  },
  {
   "property": "C48",
   "status": "partial",
   "theorems": [
    "Verif.Annotate.c48_counterexample",
    "Verif.Annotate.c48_counterexample_executor",
    "Verif.Annotate.c48_counterexample_size",
    "Verif.Annotate.c48_any_order_partial",
    "Verif.Annotate.c48_annotations_first",
    "Verif.Annotate.c48_one_annotation"
   ],
   "note": "False: (f & buffer_size) & executor loses the executor; executor_task_pair & buffer_size does not compile. Proved: the orders that combine the two annotations first, one annotation alone, and that no order gives a wrong value."
  },
  {
   "property": "C49",
   "status": "partial",
   "theorems": [
    "Verif.Progress.c49_no_underflow",
    "Verif.Progress.c49_completed",
    "Verif.Progress.c49_steps_partial",
    "Verif.Progress.c49_counterexample",
    "Verif.Progress.c49_counterexample_assign",
    "Verif.Progress.c49_counterexample_self"
   ],
   "note": "False in three ways (counterexamples): destruction after the call reduces steps(), assignment does not drop the overwritten callable, self-assignment. Proved: steps() is the number of existing wrapped callables if none is overwritten, completed() the number of calls, no underflow."
  },
  {
   "property": "C50",
   "status": "partial",
   "theorems": [
    "Verif.Tuple.c50_find_partial",
    "Verif.Tuple.c50_counterexample",
    "Verif.Tuple.c50_for_each",
    "Verif.Tuple.c50_get",
    "Verif.Tuple.c50_void",
    "Verif.Tuple.c50_when_all_arguments",
    "Verif.Tuple.c50_when_all_missing",
    "Verif.Tuple.c50_argument_types",
    "Verif.Tuple.c50_apply_indexed",
    "Verif.Tuple.c50_ignore_placeholders_counterexample",
    "Verif.Tuple.c50_ignore_placeholders_partial",
    "Verif.Tuple.c50_find_argument_error"
   ],
   "note": "tuple_find of the empty tuple gives 1 (counterexample); everything else for all tuples. apply_ignore_placeholders passes the placeholders (counterexample); the library only uses it for tuples without."
  },
  {
   "property": "C51",
   "status": "proved",
   "theorems": [
    "Verif.Forest.c51_push_back",
    "Verif.Forest.c51_push_front",
    "Verif.Forest.c51_pop_front",
    "Verif.Forest.c51_pop_back"
   ],
   "note": "At every node and at the root."
  },
  {
   "property": "C52",
   "status": "proved",
   "theorems": [
    "Verif.Forest.c52_insert_range",
    "Verif.Forest.c52_own_before",
    "Verif.Forest.c52_own_after",
    "Verif.Forest.c52_own_end"
   ],
   "note": "Ranges of another forest, and of the same forest with the position before or after the range. Appending a range to itself never ends (c52_own_end: none for every supply of memory); a position strictly inside the range is not considered."
  },
  {
   "property": "C53",
   "status": "partial",
   "theorems": [
    "Verif.ThreadPool.c53_join_calls",
    "Verif.ThreadPool.c53_join_bounded",
    "Verif.ThreadPool.c53_join_not_stuck",
    "Verif.ThreadPool.c53_join_partial",
    "Verif.ThreadPool.c53_join_counterexample"
   ],
   "note": "Proved for tasks whose execute returned before join; violated for tasks submitted by tasks still running (counterexample). That join returns: c53_join_calls (its calls of done go through), c53_join_bounded and c53_join_not_stuck (the threads then finish within a bounded number of steps and are never all stuck)."
  },
  {
   "property": "C54",
   "status": "partial",
   "theorems": [
    "Verif.ThreadPool.c54_await_partial",
    "Verif.ThreadPool.c54_await_enabled_partial",
    "Verif.ThreadPool.c54_await_counterexample",
    "Verif.ThreadPool.c54_scan_partial",
    "Verif.ThreadPool.c54_limit"
   ],
   "note": "The code violates the property when the woken thread fails a try_lock (counterexample). Partial: in any interleaving, a woken or added thread that gets the locks starts a task within N+3 of its steps while some queue stays non-empty, and until then it has a step to make."
  },
  {
   "property": "C55",
   "status": "proved",
   "theorems": [
    "Verif.MoveOnly.c55_value_once",
    "Verif.MoveOnly.c55_outcome",
    "Verif.MoveOnly.c55_not_lost"
   ],
   "note": "Every history of one shared state with a move-only result."
  },
  {
   "property": "C56",
   "status": "partial",
   "theorems": [
    "Verif.Fanout.c56_no_undefined_partial",
    "Verif.Fanout.c56_rest_partial",
    "Verif.Fanout.c56_stall_counterexample",
    "Verif.Fanout.c56_move_only_counterexample",
    "Verif.Fanout.c56_undefined_counterexample"
   ],
   "note": "Proved as long as no receiver is destroyed. Otherwise disproved: with one receiver gone and one left the process waits for ever after the next message (any number of receivers, any continuation); with a result that cannot be copied even without any receiver; and free_buffer() is called twice in line 681, the second result being dereferenced."
  },
  {
   "property": "C57",
   "status": "proved",
   "theorems": [
    "Verif.Channel.c57_at_most_once",
    "Verif.Channel.c57_taken_in_order"
   ],
   "note": "Any network, any buffer sizes, errors included."
  },
  {
   "property": "C58",
   "status": "proved",
   "theorems": [
    "Verif.Coroutine.c58_no_undefined",
    "Verif.Coroutine.c58_history",
    "Verif.Coroutine.c58_value",
    "Verif.Coroutine.c58_resolved_once",
    "Verif.Coroutine.c58_result",
    "Verif.Coroutine.c58_finished",
    "Verif.Coroutine.c58_no_lost_wakeup",
    "Verif.Coroutine.c58_resolvable",
    "Verif.Coroutine.c58_quiescent",
    "Verif.Coroutine.c58_progress",
    "Verif.Coroutine.c58_bounded"
   ],
   "note": "Transition system of any number of coroutines, futures and threads. Continuations other than those of co_await, the lazy moves of the value, and a co_await on an empty future (a null pointer in the code) are left out. Dropping the future of a coroutine does not cancel the coroutine; its result is discarded."
  },
  {
   "property": "C59",
   "status": "proved",
   "theorems": [
    "Verif.Channel.c59_terminates",
    "Verif.Channel.c59_no_infinite_run",
    "Verif.Channel.c59_rest",
    "Verif.Channel.c59_all_handled",
    "Verif.Channel.c59_all_handled_but_errors",
    "Verif.Channel.c59_closed"
   ],
   "note": "Any acyclic finite network, any buffer sizes, also with errors and thrown exceptions: a lexicographic measure decreases in every step. The functions themselves are assumed to return. The delivery part is for networks with a downstream process of buffer size 1 after each process that has downstream, and no zip or round robin merge below (see C45); with errors, for all that is not before a process that got one (c59_all_handled_but_errors). The closing part is for executions without errors."
  },
  {
   "property": "C60",
   "status": "partial",
   "theorems": [
    "Verif.Process.c60_one_at_a_time",
    "Verif.Process.c60_one_at_a_time_receiver",
    "Verif.Process.c60_in_order",
    "Verif.Process.c60_yield_state",
    "Verif.Process.c60_await_state",
    "Verif.Process.c60_results",
    "Verif.Process.c60_backpressure",
    "Verif.Process.c60_backpressure_member",
    "Verif.Process.c60_no_undefined",
    "Verif.Process.c60_rest",
    "Verif.Process.c60_close_partial",
    "Verif.Process.c60_close_early_counterexample",
    "Verif.Process.c60_close_yield_counterexample",
    "Verif.Process.c60_timeout_backpressure_counterexample",
    "Verif.Process.c60_timeout_undefined_counterexample"
   ],
   "note": "Any process object, any number of receivers with buffer size 1, every interleaving, members that throw, delayed yields; for processes that do not await with a time-out. False as stated in four ways (counterexamples): close is called whenever the queue is empty; close leading to yield leaves the receivers open; with a time-out back-pressure is exceeded and the destroyed process object is used. The closing part is proved if close, called in an await state, leaves the process awaiting forever."
  },
  {
   "property": "C61",
   "status": "proved",
   "theorems": [
    "Verif.Process.c61_function",
    "Verif.Process.c61_function_rest"
   ],
   "note": "Any function of one argument, any number of receivers with buffer size 1, every interleaving; an instance of the process model of C60 with a further invariant relating messages, binding and results. Error messages are dropped by the code, as function_process has no set_error."
  },
  {
   "property": "C62",
   "status": "partial",
   "theorems": [
    "Verif.PoolThreads.c62_sizes",
    "Verif.PoolThreads.c62_sizes_counterexample",
    "Verif.PoolThreads.c62_sizes_partial",
    "Verif.PoolThreads.c62_limit",
    "Verif.PoolThreads.c62_waiter",
    "Verif.PoolThreads.c62_join_partial",
    "Verif.PoolThreads.c62_join_counterexample",
    "Verif.PoolThreads.c62_maximum_counterexample"
   ],
   "note": "Sizes for all numbers of cores and maxima, the thread limit and the waiters in every interleaving; the end of the threads if add_thread is not called once join has been. False in three ways (counterexamples): a task that waits while join runs adds a thread that is not joined and uses destroyed queues; STLAB_TASK_POOL_MAXIMUM does not bound the number of threads (for every maximum below 9); with a maximum and an unknown number of cores std::clamp is called with bounds 1 and 0."
  },
  {
   "property": "C63",
   "status": "proved",
   "theorems": [
    "Verif.Shared.c63_ready",
    "Verif.Shared.c63_exceptional",
    "Verif.Shared.c63_broken",
    "Verif.Shared.c63_no_undefined"
   ],
   "note": "Copyable results. The making of the future is the beginning of an execution of the shared state model of C30; anything may follow, in any interleaving."
  },
  {
   "property": "C64",
   "status": "proved",
   "theorems": [
    "Verif.SetNext.c64_splice",
    "Verif.SetNext.c64_skip_next",
    "Verif.SetNext.c64_skip",
    "Verif.SetNext.c64_others"
   ],
   "note": "Any doubly linked circular lists; set_next links both ways as in forest.hpp."
  },
  {
   "property": "C65",
   "status": "partial",
   "theorems": [
    "Verif.Shared.c65_order_partial",
    "Verif.Shared.c65_overtake_counterexample"
   ],
   "note": "Proved for continuations attached before the future is resolved; disproved otherwise: a continuation attached after the future became ready is started at once, even if the resolving thread has not started the earlier ones yet."
  },
  {
   "property": "C66",
   "status": "partial",
   "theorems": [
    "Verif.Channel.c66_rest_partial",
    "Verif.Channel.c66_failed_iff",
    "Verif.Channel.c66_all_handled_partial",
    "Verif.Channel.c66_accounts_partial",
    "Verif.Channel.c66_close_counterexample"
   ],
   "note": "Proved for all networks and all buffer sizes as long as no process was closed: at rest every message was handled exactly once by its process and all after it, except before and in processes that got an error, and rest is reached whatever the schedule; the accounts hold at any time. Only for processes with no zip or round robin merge below (they wait for more messages). False when a process is closed, with downstream buffer sizes 0 or 2 (c66_close_counterexample: the function object is destroyed while it executes and its result is lost)."
  },
  {
   "property": "C67",
   "status": "partial",
   "theorems": [
    "Verif.Process.c67_in_order",
    "Verif.Process.c67_rest",
    "Verif.Process.c67_wakes_partial",
    "Verif.Process.c67_one_at_a_time_partial",
    "Verif.Process.c67_results_partial",
    "Verif.Process.c67_state_partial",
    "Verif.Process.c67_state_counterexample",
    "Verif.Process.c67_cancel_counterexample",
    "Verif.Process.c67_undefined_counterexample",
    "Verif.Process.c67_close_counterexample",
    "Verif.Process.c67_late_counterexample",
    "Verif.Process.c67_close_waits_counterexample",
    "Verif.Process.c67_two_yields_counterexample",
    "Verif.Process.c67_order_counterexample"
   ],
   "note": "Order of the messages and that nothing is forgotten: every process object, every interleaving; also that a message that arrives while a time-out is pending starts the process. One member at a time, members in the right state, results to every receiver in the same order: for objects that never delay a yield; with a delayed yield these are false (two steps set a timer each). False for any of them (counterexamples): clear_to_send asks for the state while await is called; a message in time does not cancel the time-out; one that arrives just before the time-out is set waits for it; a step uses the object after its destruction; the receivers are not closed if the last sender goes before the time-out is set."
  },
  {
   "property": "C68",
   "status": "partial",
   "theorems": [
    "Verif.When.c68_let_go",
    "Verif.When.c68_decided_partial",
    "Verif.When.c68_any_pack_counterexample",
    "Verif.When.c68_late_counterexample"
   ],
   "note": "c68_let_go for all four variants once the result is delivered or dropped and no continuation is being called. At the moment of the decision: proved for when_all and for when_any of a range; false for when_any of a pack, whose failing or later arguments are kept until the function was called, and for an argument whose continuation is being stored."
  },
  {
   "property": "C69",
   "status": "partial",
   "theorems": [
    "Verif.Channel.c69_never_waits",
    "Verif.Channel.c69_not_blocked_partial",
    "Verif.Channel.c69_error_counterexample"
   ],
   "note": "c69_never_waits: every network, errors and closing included. c69_not_blocked_partial, that a thread of the process itself is there to go on: as long as no process was closed and the process did not get an error; after an error a process stops (C46; c69_error_counterexample)."
  },
  {
   "property": "C70",
   "status": "partial",
   "theorems": [
    "Verif.Source.c70_one_at_a_time_partial",
    "Verif.Source.c70_values",
    "Verif.Source.c70_when_due_partial",
    "Verif.Source.c70_in_order_partial",
    "Verif.Source.c70_goes_on_partial",
    "Verif.Source.c70_ends_partial",
    "Verif.Source.c70_backpressure_partial",
    "Verif.Source.c70_state_counterexample",
    "Verif.Source.c70_delayed_counterexample",
    "Verif.Source.c70_backpressure_counterexample"
   ],
   "note": "Results and states (c70_values) without condition. One thread at a time, order, progress and end: for sources that do not delay their results, all buffer sizes, and for all sources if some receiver has buffer size 1 or there is none. Back-pressure and that the state is not asked for meanwhile: if some receiver has buffer size 1. False otherwise (counterexamples): with the only buffer of size 2 the queue grows without bound, the state is asked for during yield, and two threads call yield of a delayed source. Nothing closes the receivers when a source ends."
  },
  {
   "property": "C71",
   "status": "partial",
   "theorems": [
    "Verif.Life.c71_lifetime",
    "Verif.Life.c71_no_leak",
    "Verif.Life.c71_destruction",
    "Verif.Life.c71_discards_counterexample"
   ],
   "note": "All of it, for the graph, the receivers and the owners. That messages not yet handled are discarded with the last receiver is shown as well (c71_discards_counterexample: it is not what C45 says)."
  },
  {
   "property": "C72",
   "status": "partial",
   "theorems": [
    "Verif.Life.c72_errors",
    "Verif.Life.c72_pipe_partial",
    "Verif.Life.c72_merge_partial",
    "Verif.Life.c72_still",
    "Verif.Life.c72_merge_empty_counterexample",
    "Verif.Life.c72_merge_late_counterexample",
    "Verif.Life.c72_merge_closed_counterexample",
    "Verif.Life.c72_move_only_counterexample",
    "Verif.Life.c72_void_counterexample"
   ],
   "note": "operator| for receivers with copyable results, and with results that cannot be copied if nothing else is attached later; zip and merge_channel for receivers that have a process and are not ready. Counterexamples: zip/merge_channel check neither (null dereference; results missed; never closed); a second process attached to a move-only result replaces the first; a process with result void runs before its receiver is ready."
  },
  {
   "property": "C73",
   "status": "partial",
   "theorems": [
    "Verif.Race.c73_no_race_partial",
    "Verif.Race.c73_read_partial",
    "Verif.Race.c73_acquire_partial",
    "Verif.Race.c73_unique_partial",
    "Verif.Race.c73_moveonly_partial",
    "Verif.Race.c73_move_counterexample",
    "Verif.Race.c73_error_counterexample"
   ],
   "note": "Runs without error() in which no result is moved out of a future that had copies and has none left; futures that are only read; futures that are never copied, move-only results among them; all runs, if use_count() were an acquire load. Counterexamples: use_count() is a relaxed load, so moving the result out is not ordered after reads by owners that are gone; the deprecated error() reads while the resolver writes."
  },
  {
   "property": "C74",
   "status": "partial",
   "theorems": [
    "Verif.Channel.c74_no_race_partial",
    "Verif.Channel.c74_race_counterexample",
    "Verif.Channel.c74_destroyed_counterexample",
    "Verif.Channel.c74_defined_partial",
    "Verif.Channel.c74_front",
    "Verif.Process.c74_process_no_race_partial",
    "Verif.Process.c74_process_assertions",
    "Verif.Process.c74_timed_race_partial",
    "Verif.Process.c74_timed_race_counterexample"
   ],
   "note": "Function processes: networks in which every process with receivers has one with buffer size 1, errors included; for others there are races, and functions destroyed while they are called. Processes with await and yield: all that never await with a time-out; with time-outs and no delayed yield the only races are those of clear_to_send asking for the state (line 837), and these happen. The assertion of line 817 holds for every such process."
  },
  {
   "property": "C75",
   "status": "partial",
   "theorems": [
    "Verif.Dispatch.c75_once",
    "Verif.Dispatch.c75_destroy",
    "Verif.Dispatch.c75_rest_partial",
    "Verif.Dispatch.c75_wait",
    "Verif.Dispatch.c75_timer_counterexample",
    "Verif.Dispatch.c75_handler_counterexample",
    "Verif.Dispatch.c75_closure_counterexample",
    "Verif.Dispatch.c75_assert_counterexample",
    "Verif.Dispatch.c75_assert_partial"
   ],
   "note": "Proved: at most once and destroyed after the call in every execution; all of it but the destruction of the timer's tasks if, from the moment pre_exit() waits for the group, only tasks use the executor and the timer and the timer was used before; the wait is not stuck. Counterexamples: the timer used for the first time by a task during the wait, a handler registered before the first use of the executor, closures of timer tasks destroyed after pre_exit(), a task that uses the timer during the wait fails an assertion."
  },
  {
   "property": "C76",
   "status": "partial",
   "theorems": [
    "Verif.Exit.c76_pool_partial",
    "Verif.Exit.c76_timer_counterexample",
    "Verif.Exit.c76_delayed_counterexample",
    "Verif.Exit.c76_first_use_counterexample"
   ],
   "note": "The pool part holds whatever else happens: tasks accepted before pre_exit() joins the pool have been executed, and none is started later. False for the timer (counterexamples): nothing stops it, so its tasks are called after pre_exit(); a delayed task for the pool then uses a destroyed queue, or fails the assertion of at_pre_exit if the pool was not used before."
  },
  {
   "property": "C77",
   "status": "partial",
   "theorems": [
    "Verif.Locks.c77_no_deadlock_partial",
    "Verif.Locks.c77_no_ub_partial",
    "Verif.Locks.c77_user_unlocked_partial",
    "Verif.Locks.c77_asleep_unlocked_partial",
    "Verif.Locks.c77_gives_up_partial",
    "Verif.Locks.c77_no_ub_plain_partial",
    "Verif.Locks.c77_when_all_counterexample",
    "Verif.Locks.c77_when_all_deadlock_counterexample",
    "Verif.Locks.c77_single_trigger_counterexample",
    "Verif.Locks.c77_when_any_void_counterexample",
    "Verif.Locks.c77_task_done_counterexample",
    "Verif.Locks.c77_broadcast_counterexample",
    "Verif.Locks.c77_yield_counterexample"
   ],
   "note": "The functions are modelled by their lock operations and calls of foreign code, with every branch open. Violated by when_all, when_any of ranges (tasks of other arguments destroyed under _guard), when_any of future<void> (_f called under _guard), task_done (downstream told of the end under _downstream_mutex), broadcast (process may be destroyed under it) and step of processes with yield on an inline executor (counterexamples); proved for all others and for these when what they destroy does not call back."
  },
  {
   "property": "C78",
   "status": "partial",
   "theorems": [
    "Verif.Counters.c78_remaining",
    "Verif.Counters.c78_remaining_one_partial",
    "Verif.Counters.c78_remaining_counterexample",
    "Verif.Counters.c78_counts",
    "Verif.Counters.c78_wait_exact_partial",
    "Verif.Counters.c78_wait_counterexample",
    "Verif.Counters.c78_not_missed_partial",
    "Verif.Counters.c78_returns_partial",
    "Verif.Counters.c78_missed_counterexample",
    "Verif.Counters.c78_constructor_counterexample",
    "Verif.Counters.c78_two_waiters_counterexample",
    "Verif.Counters.c78_ub_counterexample",
    "Verif.Counters.c78_ub_partial"
   ],
   "note": "Proved: what every counter counts (c78_counts), and remaining() for any number of originals (c78_remaining): it is the number of objects if exactly one was made by the constructor from counters. False (counterexamples): with two originals; wait(1) returns although there are always three objects, as remaining() reads three counters one after another; wait(0) sleeps for ever because ~annotate counts and notifies without the mutex; constructors do not notify; notify_one wakes the wrong waiter; the notification may come after wait() returned and the counters are gone. The partial theorems hold without these: no copies or moves during the call, one waiter, no destructor counting while the predicate is evaluated."
  },
  {
   "property": "C79",
   "status": "partial",
   "theorems": [
    "Verif.Windows.c79_once",
    "Verif.Windows.c79_rest_partial",
    "Verif.Windows.c79_join_partial",
    "Verif.Windows.c79_no_ub_partial",
    "Verif.Windows.c79_wait",
    "Verif.Windows.c79_exit",
    "Verif.Windows.c79_priority_counterexample",
    "Verif.Windows.c79_timer_counterexample",
    "Verif.Windows.c79_timer_first_counterexample",
    "Verif.Windows.c79_handler_counterexample",
    "Verif.Windows.c79_release_counterexample",
    "Verif.Windows.c79_exit_counterexample"
   ],
   "note": "The thread pool of Windows by its contract. In every execution: at most once, closure deleted after the call, join is not stuck, no failing assertion at exit after pre_exit(). The rest if from the moment a pool is joined only tasks of its own priority use its executor, other calls having returned. False otherwise (counterexamples): the pools are joined one after another, so a task pre_exit() still waits for may use a closed pool of another priority; the timer has no pre-exit handler, its tasks are called after pre_exit() and use closed pools or fail an assertion; handlers registered before the first use; a call in progress while the pool is joined uses a released work object; exit without pre_exit() fails an assertion."
  },
  {
   "property": "C80",
   "status": "partial",
   "theorems": [
    "Verif.Sync.Serial.c80_no_race",
    "Verif.Sync.Serial.c80_order",
    "Verif.Sync.Serial.c80_destroyed",
    "Verif.Sync.Serial.c80_destroy_counterexample"
   ],
   "note": "Happens-before by vector clocks (`clocks_iff`: exactly the paths of program order and release-acquire edges). No data race on `_queue` and `_running`, the submission and the ends of all earlier tasks happen before each task, with schedule_mode::all also their destruction, for every execution. With schedule_mode::single the destruction of a task is not ordered with the next task and may overlap it (counterexample): `f` lives until the end of single(), after the executor was called again."
  },
  {
   "property": "C81",
   "status": "partial",
   "theorems": [
    "Verif.Sync.Pool.c81_submit",
    "Verif.Sync.Pool.c81_no_race_partial",
    "Verif.Sync.Pool.c81_join_partial",
    "Verif.Sync.Pool.c81_await_counterexample",
    "Verif.Sync.Pool.c81_add_thread_counterexample",
    "Verif.Sync.Pool.c81_notify_counterexample",
    "Verif.Sync.Pool.c81_notify_late_counterexample"
   ],
   "note": "Submission happens before the call, for every execution. No race, and join() orders the ends of all tasks, for every execution in which all uses of the pool by other user threads and all calls of add_thread() happen before the call of join(). Without that the claim is false (counterexamples): join() reads `_threads` without `_mutex` while a task that awaits may add a thread; notify_one after the critical section of a push races with the destruction of the condition variable by `_q.clear()`, even if the task pushed has been done."
  },
  {
   "property": "C82",
   "status": "partial",
   "theorems": [
    "Verif.NoThread.c82_construct_partial",
    "Verif.NoThread.c82_construct_counterexample",
    "Verif.NoThread.c82_add_thread",
    "Verif.NoThread.c82_add_thread_throws",
    "Verif.NoThread.Plain.c82_await_partial",
    "Verif.NoThread.Plain.c82_await_outcome",
    "Verif.NoThread.Plain.c82_await_counterexample",
    "Verif.NoThread.Plain.c82_await_needless_counterexample",
    "Verif.NoThread.Plain.c82_await_woken",
    "Verif.NoThread.Timed.c82_await_for",
    "Verif.NoThread.Timed.c82_await_for_outcome",
    "Verif.NoThread.Timed.c82_await_for_cancelled",
    "Verif.NoThread.Timed.c82_await_for_ends",
    "Verif.NoThread.Timed.c82_await_for_woken"
   ],
   "note": "add_thread() and await_for() for all refusals and interleavings. The constructor of the pool throws only if its first thread is refused; if a later one is, the destructor of `_threads` terminates the program (proved for all sizes). await(): the continuation uses the mutex, condition variable and result of a frame that is gone if the future is resolved while add_thread() throws (counterexample), and is safe otherwise; it also throws if the result is already there (counterexample)."
  },
  {
   "property": "C83",
   "status": "partial",
   "theorems": [
    "Verif.Forest.c83_insert_parent",
    "Verif.Forest.c83_insert_range",
    "Verif.Forest.c83_unflatten",
    "Verif.Forest.c83_copy_partial",
    "Verif.Forest.c83_copy_counterexample",
    "Verif.Forest.c83_copy_completes",
    "Verif.Forest.c83_copy_assign_partial"
   ],
   "note": "insert, insert_parent, insert of a range and unflatten for every place of the exception. The copy constructor (forest.hpp:798-800) does not delegate, so when its body throws ~forest() is not called: exactly the nodes copied so far are leaked (proved for every source and every place of the exception; none only if the first copy throws), also by copy assignment. The forests that existed before keep their nodes and values."
  },
  {
   "property": "C84",
   "status": "proved",
   "theorems": [
    "Verif.Forest.c84_defined",
    "Verif.Forest.c84_results",
    "Verif.Forest.c84_unchanged",
    "Verif.Forest.c84_wait_free",
    "Verif.Forest.c84_returns"
   ],
   "note": "Transition system with one step per access of the atomic _size; the walk over the nodes is one step since no thread writes nodes. Results, absence of undefined behaviour, the forests unchanged, wait-freedom (at most 11 steps of the thread itself) and termination of every call."
  },
  {
   "property": "C85",
   "status": "proved",
   "theorems": [
    "Verif.Sync.When.c85_no_race",
    "Verif.Sync.When.c85_once",
    "Verif.Sync.When.c85_when_all",
    "Verif.Sync.When.c85_when_any"
   ],
   "note": "Vector clocks; each critical section of _guard and each call of _f is one step that lists its accesses to the members; the ends of the shares of the context (the call, the task, the running continuations) are steps too, and the last one writes all members. Copying and destroying the user's values is not modelled."
  },
  {
   "property": "C86",
   "status": "partial",
   "theorems": [
    "Verif.Sync.Timer.c86_no_race_partial",
    "Verif.Sync.Timer.c86_submission",
    "Verif.Sync.Timer.c86_destructor",
    "Verif.Sync.Timer.c86_destroyed_partial",
    "Verif.Sync.Timer.c86_race_counterexample",
    "Verif.Sync.Timer.c86_ub_counterexample",
    "Verif.Sync.Timer.c86_exit_counterexample"
   ],
   "note": "Vector clocks; each critical section is one step. False if another thread submits a task after the destructor has set _stop (race with the destruction of the queue, or use of destroyed members), and if a task calls std::exit (the destructor joins its own thread): counterexamples. Proved for executions in which, after the destructor has begun, only tasks of the timer submit tasks; the happens-before claims about calls hold in all executions."
  },
  {
   "property": "C87",
   "status": "partial",
   "theorems": [
    "Verif.MainExecutor.c87_memory",
    "Verif.MainExecutor.c87_once",
    "Verif.MainExecutor.c87_order_partial",
    "Verif.MainExecutor.c87_order_sides_partial",
    "Verif.MainExecutor.c87_not_nested_partial",
    "Verif.MainExecutor.c87_complete",
    "Verif.MainExecutor.c87_progress",
    "Verif.MainExecutor.c87_defined_partial",
    "Verif.MainExecutor.c87_order_counterexample",
    "Verif.MainExecutor.c87_nested_counterexample",
    "Verif.MainExecutor.c87_defined_counterexample"
   ],
   "note": "The contracts of the platforms are part of the model. Proved for all three: once, memory, completeness. Order fails for Emscripten between functions given on the main thread and on others (counterexample; proved for each of the two), nesting fails for Qt if code runs an event loop (counterexample; proved for the other two), and with Qt the executor must not be used after the application has ended (counterexample)."
  },
  {
   "property": "C88",
   "status": "proved",
   "theorems": [
    "Verif.Sync.Await.c88_await",
    "Verif.Sync.Await.c88_await_result",
    "Verif.Sync.Await.c88_await_for",
    "Verif.Sync.Await.c88_await_for_result",
    "Verif.Sync.Await.c88_await_for_destroyed"
   ],
   "note": "Proved for await and for await_for with vector clocks, in every execution; attaching and resolving synchronise through the shared state of the future, as proved for C73."
  },
  {
   "property": "C89",
   "status": "proved",
   "theorems": [
    "Verif.Forest.c89_push_back",
    "Verif.Forest.c89_push_front",
    "Verif.Forest.c89_front",
    "Verif.Forest.c89_back",
    "Verif.Forest.c89_empty",
    "Verif.Forest.c89_sequence"
   ],
   "note": "Proved for every reachable world of forests; the assertions of the header are modelled as failures."
  },
  {
   "property": "C90",
   "status": "partial",
   "theorems": [
    "Verif.SerialQueue.Throw.c90_safe_partial",
    "Verif.SerialQueue.Throw.c90_full",
    "Verif.SerialQueue.Throw.c90_refuse_counterexample",
    "Verif.SerialQueue.Throw.c90_terminate_counterexample",
    "Verif.SerialQueue.Throw.c90_before_partial",
    "Verif.Channel.Refuse.c90_channel_counterexample"
   ],
   "note": "Order, at most once and no overlap are proved with any failures, and that a task that cannot be appended has no effect. The rest is false: after the executor has thrown in enqueue, or lost a job, _running (or _process_running) stays set and nothing is ever run again (counterexamples, for all such executions); an exception when a job hands on the next one terminates the program."
  },
  {
   "property": "C91",
   "status": "partial",
   "theorems": [
    "Verif.TaskTarget.c91_task_partial",
    "Verif.TaskTarget.c91_assign_throws",
    "Verif.TaskTarget.c91_layout",
    "Verif.TaskTarget.c91_reference_counterexample",
    "Verif.TaskTarget.c91_throwing_move_counterexample",
    "Verif.TaskTarget.c91_moved_from_counterexample",
    "Verif.TaskTarget.c91_other_function_counterexample"
   ],
   "note": "Proved for every history in which moved-from tasks are only assigned to or destroyed, for callables that do not return references and, if small, do not throw on being moved; also the size claims of the layout comment. False otherwise (counterexamples): operator() returns auto, so a returned reference becomes a copy; a throwing move of a small callable terminates the program; a moved-from task is non-empty if small, and empty but with the target_type of its former callable if large; an empty std::function with another signature (or an empty task of another type) gives a non-empty task."
  },
  {
   "property": "C92",
   "status": "partial",
   "theorems": [
    "Verif.Handle.c92_handles_partial",
    "Verif.Handle.c92_others_kept",
    "Verif.Handle.c92_monostate_counterexample",
    "Verif.Handle.c92_void_counterexample",
    "Verif.Handle.c92_move_only_counterexample",
    "Verif.Handle.c92_null_exception_counterexample",
    "Verif.Handle.c92_twice_counterexample"
   ],
   "note": "Proved for all histories in which a future given up in a read is not read again, and for two futures of a copyable value any way of reading one leaves the other intact. False: get_ready() of a kept future<void> returns a std::monostate; results of type std::monostate are taken for void; get_try of a kept future moves out a move-only result; a null exception_ptr makes a ready future without a result; reading twice with std::move gives what is left of the value."
  },
  {
   "property": "C93",
   "status": "partial",
   "theorems": [
    "Verif.Forest.c93_navigate",
    "Verif.Forest.c93_depth",
    "Verif.Forest.c93_traverse",
    "Verif.Forest.c93_postorder",
    "Verif.Forest.c93_preorder_counterexample",
    "Verif.Forest.c93_made",
    "Verif.Forest.c93_child_range_counterexample"
   ],
   "note": "Proved for all stacks, except the two ways in which it is false. The loop from child_begin(i) to child_end(i) for a reverse iterator i on a leading edge never ends, in every forest (child_end assigns the edge and leaves the base). preorder_range over a reversed filter range reads the value of the sentinel when its end is made. For child ranges at a settled end, and for postorder, the loops are proved. A filter is made for the whole range below it (parts of ranges are in C17)."
  },
  {
   "property": "C94",
   "status": "proved",
   "theorems": [
    "Verif.Graph.c94_sequential",
    "Verif.Graph.c94_deterministic",
    "Verif.Graph.c94_complete"
   ],
   "note": "Proved for the graph model of C32, C34 and C35: async, then, recover and reduction of futures of futures. when_all/when_any are not nodes of that model. Executors that discard tasks are excluded by hypothesis (then the outcome is broken_promise)."
  },
  {
   "property": "C95",
   "status": "proved",
   "theorems": [
    "Verif.Channel.c95_calls",
    "Verif.Channel.c95_deterministic",
    "Verif.Channel.c95_at_most",
    "Verif.Channel.c95_at_least",
    "Verif.Channel.c95_complete"
   ],
   "note": "Proved for the networks of C39-C46 with the buffer sizes of Net.Tight (the default sizes among them). For larger buffers results overtake each other (counterexamples under C39-C44). Unordered merges are excluded, their order is that of arrival. The last part needs that no process was sent an error, and consistent rates (Rates: a round robin merge is called once for each slot)."
  },
  {
   "property": "C96",
   "status": "partial",
   "theorems": [
    "Verif.Refuse.c96_safe_partial",
    "Verif.Refuse.c96_never_called",
    "Verif.Refuse.c96_others_kept",
    "Verif.Refuse.c96_others_run",
    "Verif.Refuse.c96_lvalue_no_effect",
    "Verif.Refuse.c96_rvalue_counterexample",
    "Verif.Refuse.c96_resolve_counterexample",
    "Verif.Refuse.c96_resolve_two_counterexample"
   ],
   "note": "False in two ways (counterexamples): the program is terminated if the executor throws while the future is being resolved, and then()/recover() of an rvalue whose executor throws lose the value. Proved for the rest: throws while attaching to a resolved lvalue, and tasks that are destroyed uncalled; every history is one of Future/Shared."
  },
  {
   "property": "C97",
   "status": "partial",
   "theorems": [
    "Verif.Relay.c97_no_underflow",
    "Verif.Relay.c97_open",
    "Verif.Relay.c97_closed_iff",
    "Verif.Relay.c97_order",
    "Verif.Relay.c97_end_to_end",
    "Verif.Relay.c97_cycle_counterexample",
    "Verif.Relay.c97_own_sender_counterexample"
   ],
   "note": "False for relays that form a cycle (counterexamples): each keeps the next open for ever, in the simplest case the receiver of a channel piped into its own sender. Proved for relays without cycles; the other parts for all."
  },
  {
   "property": "C98",
   "status": "proved",
   "theorems": [
    "Verif.JoinGraph.c98_sequential",
    "Verif.JoinGraph.c98_deterministic",
    "Verif.JoinGraph.c98_once",
    "Verif.JoinGraph.c98_no_undefined",
    "Verif.JoinGraph.c98_complete"
   ],
   "note": "Each join of the graph is a run of the transition system of C36 and C37, whose arguments are nodes of the graph. Executors that drop tasks are excluded (C34, C36 and C94 treat them)."
  },
  {
   "property": "C99",
   "status": "partial",
   "theorems": [
    "Verif.Channel.CopyThrow.c99_one_at_a_time_counterexample",
    "Verif.Channel.CopyThrow.c99_same_for_all_counterexample",
    "Verif.Channel.CopyThrow.c99_one_at_a_time_partial",
    "Verif.Channel.CopyThrow.c99_same_for_all_partial",
    "Verif.Channel.CopyThrow.c99_in_order_partial",
    "Verif.Channel.CopyThrow.c99_one_receiver",
    "Verif.Channel.CopyThrow.c99_taken_in_order"
   ],
   "note": "False: if the copy for a later receiver throws, the first ones get the result and the error, and the suspend count is lowered for both, so that the function may be executed twice at the same time. Proved if the copy for the first receiver is the one that throws, in particular for processes with one receiver; that messages are taken in order and handled at most once holds always."
  },
  {
   "property": "C100",
   "status": "proved",
   "theorems": [
    "Verif.Scope.c100_nested",
    "Verif.Scope.c100_destroyed",
    "Verif.Scope.c100_inside",
    "Verif.Scope.c100_exception",
    "Verif.Scope.c100_mutual_exclusion",
    "Verif.Scope.c100_no_deadlock",
    "Verif.Scope.c100_no_relock"
   ],
   "note": "The code given to scope is a small language with actions, exceptions, handlers and nested calls. Results are passed on and left out; destructors do not throw."
  },
  {
   "property": "C101",
   "status": "partial",
   "theorems": [
    "Verif.Await.Blocking.c101_blocking_get",
    "Verif.Await.Blocking.c101_blocking_get_for_counterexample",
    "Verif.Await.Blocking.c101_repaired_partial"
   ],
   "note": "blocking_get_for has no return statement, so that its result and that of blocking_get with a time-out are never defined (counterexample for every run). Proved for blocking_get, and for the other two if the return were there."
  },
  {
   "property": "C102",
   "status": "partial",
   "theorems": [
    "Verif.Same.c102_same_object",
    "Verif.Same.c102_same_channel_partial",
    "Verif.Same.c102_not_gone",
    "Verif.Same.c102_copied",
    "Verif.Same.c102_moved",
    "Verif.Same.c102_swapped",
    "Verif.Same.c102_gone_counterexample"
   ],
   "note": "Proved for futures and receivers, and for senders of channels that exist. Senders compare what lock() gives, so that all senders of channels that are gone are equal to each other and to a default constructed one (counterexample)."
  },
  {
   "property": "C103",
   "status": "partial",
   "theorems": [
    "Verif.When.Throw.c103_no_undefined",
    "Verif.When.Throw.c103_once",
    "Verif.When.Throw.c103_all_results",
    "Verif.When.Throw.c103_any_results",
    "Verif.When.Throw.c103_error",
    "Verif.When.Throw.c103_all_fails_partial",
    "Verif.When.Throw.c103_any_pack_partial",
    "Verif.When.Throw.c103_all_lost_counterexample",
    "Verif.When.Throw.c103_any_pack_lost_counterexample",
    "Verif.When.Throw.c103_any_range_lost_counterexample"
   ],
   "note": "The exception is lost in the future of the continuation. Proved: nothing undefined, at most one call, never with anything else than results; when_all fails if an argument fails; when_any on a pack calls the function if another result can be stored. Counterexamples, for all executions: otherwise the result never gets ready; for when_any on a range, not even if other arguments succeed."
  },
  {
   "property": "C104",
   "status": "partial",
   "theorems": [
    "Verif.Depth.Resolve.c104_path_partial",
    "Verif.Depth.Resolve.c104_bounded_partial",
    "Verif.Depth.Resolve.c104_executors",
    "Verif.Depth.Resolve.c104_chain_counterexample",
    "Verif.Depth.Cancel.c104_cancel_partial",
    "Verif.Depth.Cancel.c104_cancel_counterexample",
    "Verif.Depth.Serial.c104_serial_threads",
    "Verif.Depth.Serial.c104_serial_all_partial",
    "Verif.Depth.Serial.c104_serial_counterexample",
    "Verif.Depth.Serial.c104_serial_all_counterexample"
   ],
   "note": "Proved for executors with threads: resolving futures and running serial queues nest at most one call. With the immediate_executor calls are nested exactly along chains of immediate continuations; with schedule_mode::all a serial queue nests as deep as tasks append tasks. Counterexamples for every n: a chain of n immediate continuations, n pending continuations given up (any executor), n tasks on a serial queue with the immediate_executor in either mode."
  },
  {
   "property": "C105",
   "status": "partial",
   "theorems": [
    "Verif.Graph.c105_like_throwing",
    "Verif.Graph.c105_sequential",
    "Verif.Graph.c105_error",
    "Verif.Graph.c105_all_ready",
    "Verif.Graph.c105_no_undefined",
    "Verif.Graph.c105_terminates_partial",
    "Verif.Graph.c105_flatten_counterexample",
    "Verif.Graph.c105_move_counterexample"
   ],
   "note": "Proved for every execution: a continuation whose argument throws behaves as if its function had thrown (simulation by the system without throwing copies, outcomes of sequential evaluation, every owned future gets ready). The program is terminated, however, if a future returned by a function throws when its result is copied (the lambda that flattens is noexcept), and if a result throws when it is moved into the state (set_value is noexcept): counterexamples; if moves do not throw, only the former (partial). when_all and when_any are C103."
  },
  {
   "property": "C106",
   "status": "proved",
   "theorems": [
    "Verif.Forest.c106_value",
    "Verif.Forest.c106_write",
    "Verif.Forest.c106_valid",
    "Verif.Forest.c106_erased",
    "Verif.Forest.c106_order",
    "Verif.Forest.c106_history"
   ],
   "note": "Proved for the operations of the histories of C06 (all members except reverse, which is C08, and the algorithms that only read), in every reachable world, for one call and by induction for every history."
  },
  {
   "property": "C107",
   "status": "proved",
   "theorems": [
    "Verif.Layers.c107_parts",
    "Verif.Layers.c107_no_undefined",
    "Verif.Layers.c107_terminates",
    "Verif.Layers.c107_comes_to_rest",
    "Verif.Layers.c107_at_rest",
    "Verif.Layers.c107_all_resolved",
    "Verif.Layers.c107_sequential",
    "Verif.Layers.c107_complete",
    "Verif.Layers.c107_exclusive",
    "Verif.Layers.c107_order",
    "Verif.Layers.c107_called_by",
    "Verif.Layers.c107_one_per_thread",
    "Verif.Layers.c107_threads"
   ],
   "note": "The models of C21-C26 and C32-C34 are put together into one transition system and the theorems are about all its reachable states. Functions do not block (see C54, C88 for await) and the pool is not joined meanwhile (C53, C76); serial queues are over default_executor. c107_all_resolved needs that no function returns a future that waits for its own; c107_complete needs instead that sequential evaluation ends."
  },
  {
   "property": "C108",
   "status": "proved",
   "theorems": [
    "Verif.ChannelLayers.c108_parts",
    "Verif.ChannelLayers.c108_terminates",
    "Verif.ChannelLayers.c108_no_infinite_run",
    "Verif.ChannelLayers.c108_at_rest",
    "Verif.ChannelLayers.c108_rest",
    "Verif.ChannelLayers.c108_all_handled",
    "Verif.ChannelLayers.c108_streams",
    "Verif.ChannelLayers.c108_exclusive",
    "Verif.ChannelLayers.c108_threads"
   ],
   "note": "The network of C39 and the executors of C107 are put together; c108_terminates, c108_at_rest and c108_rest are for every bounded network, c108_all_handled and c108_streams also need that of the processes after a process one has the default buffer size (Tight), as C39 and C95 do. A step that the executor has not begun holds no thread; functions do not block."
  },
  {
   "property": "C109",
   "status": "proved",
   "theorems": [
    "Verif.Process.c109_terminates",
    "Verif.Process.c109_goes_on",
    "Verif.Process.c109_only_failures",
    "Verif.Process.c109_at_rest",
    "Verif.Process.c109_rest"
   ],
   "note": "On the transition system of C60. Untimed: without await with a time-out (for which C67 has counterexamples); StopsYielding: from every state the object stops yielding after some number of yields, without a bound. c109_only_failures is about runs with failing try_locks."
  },
  {
   "property": "C110",
   "status": "partial",
   "theorems": [
    "Verif.Source.c110_terminates_partial",
    "Verif.Source.c110_goes_on",
    "Verif.Source.c110_at_rest_partial",
    "Verif.Source.c110_once_more_counterexample"
   ],
   "note": "Proved for sources that do not delay their results, whatever the buffer sizes, and for all sources if some receiver has buffer size 1 (or there is none); c110_goes_on without these. False for a delayed source whose receivers all have larger buffers (c110_once_more_counterexample): it is called once more after it stopped yielding."
  },
  {
   "property": "C111",
   "status": "proved",
   "theorems": [
    "Verif.JoinLayers.c111_parts",
    "Verif.JoinLayers.c111_no_undefined",
    "Verif.JoinLayers.c111_terminates",
    "Verif.JoinLayers.c111_no_infinite_run",
    "Verif.JoinLayers.c111_rest",
    "Verif.JoinLayers.c111_at_rest",
    "Verif.JoinLayers.c111_all_resolved",
    "Verif.JoinLayers.c111_same",
    "Verif.JoinLayers.c111_exclusive",
    "Verif.JoinLayers.c111_join_serial",
    "Verif.JoinLayers.c111_threads"
   ],
   "note": "Proved for the product of the graphs of C98 with the executors of C107. At rest assumes that a function that returns a future returns one that was made (Made)."
  },
  {
   "property": "C112",
   "status": "proved",
   "theorems": [
    "Verif.SerialTree.c112_parts",
    "Verif.SerialTree.c112_no_undefined",
    "Verif.SerialTree.c112_inside",
    "Verif.SerialTree.c112_exclusive",
    "Verif.SerialTree.c112_call_is_job",
    "Verif.SerialTree.c112_terminates",
    "Verif.SerialTree.c112_no_infinite_run",
    "Verif.SerialTree.c112_rest",
    "Verif.SerialTree.c112_all_executed",
    "Verif.SerialTree.c112_executed"
   ],
   "note": "Proved for forests of copies of the serial queue of C21-C23, the jobs of one being tasks of the next."
  },
  {
   "property": "C113",
   "status": "proved",
   "theorems": [
    "Verif.Sync.Channel.c113_uses_ordered",
    "Verif.Sync.Channel.c113_access",
    "Verif.Sync.Channel.c113_message",
    "Verif.Sync.Channel.c113_pipeline",
    "Verif.Sync.Channel.c113_all_executions"
   ],
   "note": "Proved with vector clocks over the networks of C40-C48; the networks are those for which the exclusion of C40 holds (default buffer size)."
  },
  {
   "property": "C114",
   "status": "proved",
   "theorems": [
    "Verif.Sync.Process.c114_uses_ordered",
    "Verif.Sync.Process.c114_access",
    "Verif.Sync.Process.c114_receiver",
    "Verif.Sync.Process.c114_message",
    "Verif.Sync.Process.c114_result",
    "Verif.Sync.Process.c114_all_executions"
   ],
   "note": "Proved with vector clocks over the process of C60. With time-outs the order is lost, see C67 and C74."
  },
  {
   "property": "C115",
   "status": "partial",
   "theorems": [
    "Verif.Copy.c115_copy_partial",
    "Verif.Copy.c115_copy_counterexample",
    "Verif.Copy.c115_nests_counterexample",
    "Verif.Copy.c115_rejects",
    "Verif.Copy.c115_move",
    "Verif.Copy.c115_move_if"
   ],
   "note": "False for classes with a constructor from an initializer list that takes an object of the class as its element: the copy of a std::vector<std::any> is a vector with the original as its only element. Proved for all other classes; the parts about rvalues, move and move_if are proved."
  },
  {
   "property": "C116",
   "status": "proved",
   "theorems": [
    "Verif.AllTrue.c116_all_true",
    "Verif.AllTrue.c116_append"
   ],
   "note": "Proved by induction over the pack."
  },
  {
   "property": "C117",
   "status": "partial",
   "theorems": [
    "Verif.ThreadName.c117_named_partial",
    "Verif.ThreadName.c117_never_named_counterexample",
    "Verif.ThreadName.c117_keeps_creators_counterexample"
   ],
   "note": "False on Linux, where names of more than 15 characters are refused and the result of the call is ignored: no thread of the pool ever has its name. Proved for the other systems."
  },
  {
   "property": "C118",
   "status": "proved",
   "theorems": [
    "Verif.Sync.Graph.c118_log",
    "Verif.Sync.Graph.c118_one_future",
    "Verif.Sync.Graph.c118_argument",
    "Verif.Sync.Graph.c118_resolution",
    "Verif.Sync.Graph.c118_read",
    "Verif.Sync.Graph.c118_past",
    "Verif.Sync.Graph.c118_read_past",
    "Verif.Sync.Graph.c118_thread",
    "Verif.Sync.Graph.c118_order",
    "Verif.Sync.Graph.c118_all_executions"
   ],
   "note": "Proved with vector clocks over the graphs of C32, C34, C35 and C94. That two functions that continue the same future are not ordered is shown by an example. Executors are assumed to order giving a task before executing it, which C80 and C81 show for serial queues and the pool."
  },
  {
   "property": "C119",
   "status": "proved",
   "theorems": [
    "Verif.Sync.JoinGraph.c119_log",
    "Verif.Sync.JoinGraph.c119_when_all",
    "Verif.Sync.JoinGraph.c119_when_any",
    "Verif.Sync.JoinGraph.c119_argument",
    "Verif.Sync.JoinGraph.c119_resolution",
    "Verif.Sync.JoinGraph.c119_error",
    "Verif.Sync.JoinGraph.c119_past",
    "Verif.Sync.JoinGraph.c119_call",
    "Verif.Sync.JoinGraph.c119_read",
    "Verif.Sync.JoinGraph.c119_thread",
    "Verif.Sync.JoinGraph.c119_all_executions"
   ],
   "note": "Proved with vector clocks over the graphs of C98. That the function of a when_any is not ordered after the arguments it does not get is shown by an example. Executors are assumed to order giving a task before executing it, which C80 and C81 show for serial queues and the pool."
  }
 ]
}