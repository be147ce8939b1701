{"claims": [
  {"property": "C01", "status": "proved", "theorems": ["Verif.Bitfield.C01_field_roundtrip", "Verif.Bitfield.C01_empty_field_at_end_panics"], "note": "Any word width; shift overflow is an explicit panic value. The empty field behind the last bit meets the documented precondition yet panics (separate theorem)."},
  {"property": "C02", "status": "proved", "theorems": ["Verif.Bitfield.C02_bit_ops"], "note": "Any word width and in-range bit."},
  {"property": "C03", "status": "proved", "theorems": ["Verif.Bitfield.C03_last_write_wins", "Verif.Bitfield.C03_store_from_reset"], "note": "Any finite chain of field operations."},
  {"property": "C04", "status": "proved", "theorems": ["Verif.Atomic.C04_no_lost_update", "Verif.Atomic.C04_register_fields", "Verif.Atomic.C04_soft_register"], "note": "All interleavings of load/compare-exchange steps with spurious failures; sequentially consistent accesses."},
  {"property": "C05", "status": "proved", "theorems": ["Verif.Heap.C05_no_ub", "Verif.Heap.C05_disjoint"], "note": "All histories of all requests, for configurations whose blocks hold a pointer."},
  {"property": "C06", "status": "proved", "theorems": ["Verif.Heap.C06_exhaustion", "Verif.Heap.C06_no_effect"], "note": "Sequential histories."},
  {"property": "C07", "status": "proved", "theorems": ["Verif.Heap.C07_best_fit"], "note": ""},
  {"property": "C08", "status": "partial", "theorems": ["Verif.Heap.C08_alignment_false", "Verif.Heap.C08_alignment_partial", "Verif.Heap.C08_exact"], "note": "False as stated: the code ignores the alignment. Proved when base and block sizes are multiples of the alignment. C08_exact: exactly the configurations whose sufficient blocks are all aligned."},
  {"property": "C09", "status": "proved", "theorems": ["Verif.Heap.C09_grow", "Verif.Heap.C09_grow_zeroed", "Verif.Heap.C09_shrink", "Verif.Heap.C09_fails_iff"], "note": ""},
  {"property": "C10", "status": "proved", "theorems": ["Verif.Heap.C10_allocate_zeroed", "Verif.Heap.C10_grow_zeroed"], "note": ""},
  {"property": "C11", "status": "partial", "theorems": ["Verif.Heap.Conc.C11_soft", "Verif.Heap.Conc.C11_lock_free_aba", "Verif.Heap.Conc.C11_lock_free_partial", "Verif.Heap.Conc.C11_single_allocator_partial", "Verif.Heap.Conc.C11_no_return_partial"], "note": "Proved for the build without atomics. False for the lock-free build (ABA), proved there when allocate_free sections do not overlap, and, with overlap, when no block returns to the free list while another context is about to compare-exchange with it."},
  {"property": "C12", "status": "proved", "theorems": ["Verif.Heap.C12_lookup", "Verif.Heap.C12_outside", "Verif.Heap.C12_lookup_reachable"], "note": ""},
  {"property": "C13", "status": "partial", "theorems": ["Verif.Heap.C13_small_blocks_corrupt", "Verif.Heap.C13_release_partial", "Verif.Heap.C13_step_partial"], "note": "False for blocks shorter than a pointer; proved for all others."},
  {"property": "C14", "status": "partial", "theorems": ["Verif.Heap.C14_decodes", "Verif.Heap.C14_format", "Verif.Heap.C14_zeroed_not_traced", "Verif.Heap.C14_failure_traced", "Verif.Heap.C14_live_bytes_partial"], "note": "Messages decode exactly. Live-byte accounting is false because zeroed requests are not traced and failing requests are; proved for the other histories."},
  {"property": "C15", "status": "proved", "theorems": ["Verif.LinkedList.C15_stack", "Verif.LinkedList.C15_drop_releases", "Verif.LinkedList.C15_drain_order", "Verif.LinkedList.C15_lifo"], "note": "sequential operations of the list over a node heap"},
  {"property": "C16", "status": "proved", "theorems": ["Verif.LinkedList.Conc.C16_drain", "Verif.LinkedList.Conc.C16_conservation"], "note": "every schedule of one drainer and any number of pushers, both builds; sequential consistency"},
  {"property": "C17", "status": "partial", "theorems": ["Verif.LinkedList.Conc.C17_soft", "Verif.LinkedList.Conc.C17_lock_free_use_after_free", "Verif.LinkedList.Conc.C17_lock_free_aba", "Verif.LinkedList.Conc.C17_false", "Verif.LinkedList.Conc.C17_lock_free_partial", "Verif.LinkedList.Conc.C17_safe_partial"], "note": "proved without atomics; false with atomics (use after free, ABA), partial there: pops apart, or overlapping pops without release before a link read and without reuse of the address before a compare-exchange"},
  {"property": "C18", "status": "proved", "theorems": ["Verif.LinkedList.Conc.C18_resume", "Verif.LinkedList.Conc.C18_completed", "Verif.LinkedList.Conc.C16_drain", "Verif.LinkedList.Conc.C16_conservation"], "note": "resume = drain whose filter is the advance of the fiber"},
  {"property": "C19", "status": "proved", "theorems": ["Verif.Oneshot.C19_delivery"], "note": "every schedule of the two ends, single-access granularity"},
  {"property": "C20", "status": "proved", "theorems": ["Verif.Oneshot.C20_history", "Verif.Oneshot.C20_send_after_close", "Verif.Oneshot.C20_receive", "Verif.Oneshot.C20_is_terminated"], "note": "results are right about their past in every schedule; exact results when the sender is between calls"},
  {"property": "C21", "status": "partial", "theorems": ["Verif.Oneshot.C21_false", "Verif.Oneshot.C21_false_cancel", "Verif.Oneshot.C21_partial", "Verif.Oneshot.C21_same_waker_partial", "Verif.Oneshot.C21_cancel_partial"], "note": "false of the code: a re-poll with another waker keeps the first waker; the first pending poll's waker is woken exactly once"},
  {"property": "C22", "status": "partial", "theorems": ["Verif.Oneshot.C22_false", "Verif.Oneshot.C22_false_send", "Verif.Oneshot.C22_false_drop", "Verif.Oneshot.C22_partial", "Verif.Oneshot.C22_sequential_partial", "Verif.Oneshot.C22_exact"], "note": "false of the code: use after free when one end is preempted between its last state update and its waker access; proved for schedules without that overlap, and the condition is shown necessary"},
  {"property": "C23", "status": "proved", "theorems": ["Verif.Oneshot.C23_cancellation", "Verif.Oneshot.C23_answers", "Verif.Oneshot.C23_wake"], "note": "answers over all schedules; the stored waker is woken"},
  {"property": "C24", "status": "partial", "theorems": ["Verif.Pulse.C24_false", "Verif.Pulse.C24_partial", "Verif.Pulse.C24_open_partial", "Verif.Pulse.C24_receive"], "note": "false of the code: a send on a closed channel returns Canceled but its pulses are counted and received; proved for logs without refused sends"},
  {"property": "C25", "status": "partial", "theorems": ["Verif.Pulse.C25_false", "Verif.Pulse.C25_false_saturating", "Verif.Pulse.C25_partial", "Verif.Pulse.C25_open_partial"], "note": "false of the code for Canceled (the pulses are still added); proved for Full, which is the only error on an open channel"},
  {"property": "C26", "status": "proved", "theorems": ["Verif.Pulse.C26_send", "Verif.Pulse.C26_history", "Verif.Pulse.C26_no_spill"], "note": "every word width; sequential effect of one call and the history over all interleavings"},
  {"property": "C27", "status": "proved", "theorems": ["Verif.Pulse.C27_saturating", "Verif.Pulse.C27_history"], "note": "every word width and argument"},
  {"property": "C28", "status": "partial", "theorems": ["Verif.Pulse.C28_false", "Verif.Pulse.C28_partial", "Verif.Pulse.C28_end_no_error", "Verif.Pulse.C28_error", "Verif.Pulse.C28_end", "Verif.Pulse.C28_is_terminated", "Verif.Pulse.C28_memory_false", "Verif.Pulse.C28_memory_false_receiver", "Verif.Pulse.C28_memory_partial", "Verif.Pulse.C28_sequential_partial"], "note": "false of the code twice: items follow the end after a close and a refused send; use after free when both ends leave at once. The error part, the end condition and is_terminated are proved in full, finality when the sender left, memory for schedules without that overlap"},
  {"property": "C29", "status": "proved", "theorems": ["Verif.Ring.C29_removals", "Verif.Ring.C29_fifo", "Verif.Ring.C29_try_send", "Verif.Ring.C29_history"], "note": "every interleaving in which the ends never work on the same slot, in particular every sequence of whole calls; every capacity 1 < cap < 2^COUNT_BITS; any word width"},
  {"property": "C30", "status": "partial", "theorems": ["Verif.Ring.C30_false", "Verif.Ring.C30_partial"], "note": "false at MAX_CAPACITY = 2^COUNT_BITS: the length field overflows and all values are lost; proved for every smaller capacity"},
  {"property": "C31", "status": "proved", "theorems": ["Verif.Ring.C31_overwrite", "Verif.Ring.C31_history"], "note": "single call from every reachable state, and the history over all interleavings without slot clashes"},
  {"property": "C32", "status": "partial", "theorems": ["Verif.Ring.C32_false", "Verif.Ring.C32_false_order", "Verif.Ring.C32_false_slots", "Verif.Ring.C32_false_drop", "Verif.Ring.C32_false_leave", "Verif.Ring.C32_partial", "Verif.Ring.C32_priority_partial", "Verif.Ring.C32_sequential_partial"], "note": "false: the receiver claims a slot before reading it, so a sender that preempts it overwrites the value; also a preempted Drop, and release while the other end is leaving. Proved for schedules without those overlaps, and for a receiver that runs at the higher priority"},
  {"property": "C33", "status": "partial", "theorems": ["Verif.Ring.C33_false", "Verif.Ring.C33_false_state", "Verif.Ring.C33_partial", "Verif.Ring.C33_noclose_partial"], "note": "false: close() consumes the sender's waker and leaves its flags set, a later receive wakes it again. Proved in every run without undefined behaviour, and absence of undefined behaviour without close"},
  {"property": "C34", "status": "partial", "theorems": ["Verif.Ring.C34_receiver", "Verif.Ring.C34_false_waker", "Verif.Ring.C34_false", "Verif.Ring.C34_partial", "Verif.Ring.C34_sequential", "Verif.Ring.C34_polls"], "note": "receiver: every interleaving, same waker; false with changing wakers. Sender: proved for non-overlapping calls; false when a receive lands inside send_overwrite after a pending poll_ready; proved for all other interleavings"},
  {"property": "C35", "status": "partial", "theorems": ["Verif.Ring.C35_false", "Verif.Ring.C35_partial"], "note": "false: try_send on a closed full channel returns Full. Proved for non-full channels, send_overwrite and send_err"},
  {"property": "C36", "status": "proved", "theorems": ["Verif.Mutex.C36_mutual_exclusion", "Verif.Mutex.C36_locked_while_held", "Verif.Mutex.C36_free_when_unheld"], "note": "All interleavings of atomic accesses, any number of clients, up to the first undefined behaviour (C38)."},
  {"property": "C37", "status": "partial", "theorems": ["Verif.Mutex.C37_no_forgotten_waiter_partial", "Verif.Mutex.C37_sequential_partial", "Verif.Mutex.C37_false", "Verif.Mutex.C37_false_drop", "Verif.Mutex.C37_false_waker"], "note": "The code violates it: a poll or a drop whose try_lock runs between the search for a waiter and the release of the lock in another unlock is forgotten; a second poll with another waker keeps the first. Proved for all interleavings without that try_lock position, one waker per future."},
  {"property": "C38", "status": "partial", "theorems": ["Verif.Mutex.C38_no_use_after_free_partial", "Verif.Mutex.C38_false", "Verif.Mutex.C38_false_drop", "Verif.Mutex.C38_freed_once", "Verif.Mutex.C38_waker_once", "Verif.Mutex.C38_drop_releases_all"], "note": "The code violates the first half, even without overlapping calls: an unlock frees the node of a woken future that was not yet polled. Proved for all interleavings where this does not happen; nodes are freed at most once and wakers consumed at most once in every run."},
  {"property": "C39", "status": "partial", "theorems": ["Verif.Mutex.C39_drop_passes_wake_partial", "Verif.Mutex.C39_false"], "note": "Fails when the node of the woken future was already freed (use after free). Proved for every reachable state between calls where it was not."},
  {"property": "C40", "status": "partial", "theorems": ["Verif.Soft.C40_priority_order_partial", "Verif.Soft.C40_interrupted_partial", "Verif.Soft.C40_calm_partial", "Verif.Soft.C40_strictly_above", "Verif.Soft.C40_false", "Verif.Soft.C40_false_interrupt", "Verif.Soft.C40_repaired", "Verif.Soft.C40_wide"], "note": "The order is proved for pools of at most 32 threads when no thread is requested at a level that is running or preempted and no set_pending is interrupted; each restriction is shown necessary by a concrete history. With interrupted requests, only threads whose request has not reached its second update can be passed over; this holds for every pool size if no scheduler loop has a further level to go on with (C40_calm_partial). 'Strictly above the preempted level' is proved without restrictions and for pools of every size. With the `- 1` of line 273 of row_next removed it holds without the restriction on levels in progress (C40_repaired, about a changed model), and with the pointer of line 281 computed anew for every pool size (C40_wide, about a changed model)."},
  {"property": "C41", "status": "partial", "theorems": ["Verif.Soft.C41_none_forgotten_partial", "Verif.Soft.C41_interrupted_partial", "Verif.Soft.C41_calm_partial", "Verif.Soft.C41_false", "Verif.Soft.C41_false_starved", "Verif.Soft.C41_repaired", "Verif.Soft.C41_repaired_no_fault", "Verif.Soft.C41_repair_conservative", "Verif.Soft.C41_wide"], "note": "Holds, also when requests are interrupted anywhere, if no thread is requested at a level in progress (at most 32 threads), and for every pool size if no scheduler loop has a further level to go on with (C41_calm_partial). A thread that pends itself while running is left pending, and later requests for it do nothing. With the `- 1` of line 273 of row_next removed it holds for every history (C41_repaired, about a changed model), and nothing else changes (C41_repair_conservative). With the pointer of line 281 computed anew it holds for every pool size (C41_wide, about a changed model)."},
  {"property": "C42", "status": "partial", "theorems": ["Verif.Soft.C42_addressing", "Verif.Soft.C42_resumed_is_pending_partial", "Verif.Soft.C42_no_fault_partial", "Verif.Soft.C42_in_pool", "Verif.Soft.C42_only_reads", "Verif.Soft.C42_reach", "Verif.Soft.C42_quiet_no_fault_partial", "Verif.Soft.C42_quiet_resumed_partial", "Verif.Soft.C42_one_level_partial", "Verif.Soft.C42_false", "Verif.Soft.C42_false_bounds", "Verif.Soft.C42_false_overflow", "Verif.Soft.C42_false_clear", "Verif.Soft.C42_wide_no_fault", "Verif.Soft.C42_wide_resumed", "Verif.Soft.C42_wide_account"], "note": "Addressing is proved for every pool size, as is that only threads of the pool are resumed (C42_in_pool) and that the first faulting access, if any, is the read of the next cell in the search for the threads of a level (C42_only_reads), at a bounded distance behind the end (C42_reach). Resumes are of pending threads, without clear_pending, for pools of at most 32 threads, and for every pool size if no scheduler loop goes on to another level (C42_quiet_*), which is the case when all threads have one level (C42_one_level_partial). Refuted with 40 threads (a wrong thread is resumed; the array of pending threads is read behind its end), with more than 65504 threads, and with clear_pending of a thread of the level being served. With the pointer of line 281 computed anew, and the search of line 273 started one level higher, it holds up to 65504 threads (C42_wide_*, about a changed model)."},
  {"property": "C43", "status": "partial", "theorems": ["Verif.Soft.C43_below_waits", "Verif.Soft.C43_above_runs_partial", "Verif.Soft.C43_interrupted_partial", "Verif.Soft.C43_calm_partial", "Verif.Soft.C43_restored", "Verif.Soft.C43_false", "Verif.Soft.C43_repaired", "Verif.Soft.C43_wide"], "note": "Requests at or below the running level never start anything, and the recorded level is restored, for pools of every size. With at most 32 threads a request above the running level runs the thread before it returns, also if it is interrupted, unless a thread was requested at a level in progress; for every pool size if no scheduler loop has a further level to go on with (C43_calm_partial). With the `- 1` of line 273 of row_next removed the restriction is not needed (C43_repaired, about a changed model), and with the pointer of line 281 computed anew it holds for every pool size (C43_wide, about a changed model)."},
  {"property": "C44", "status": "partial", "theorems": ["Verif.Soft.C44_one_run_per_request_partial", "Verif.Soft.C44_settled_partial", "Verif.Soft.C44_idle_partial", "Verif.Soft.C44_false"], "note": "The count of runs per thread and level equals the count of fresh requests, with arbitrary set_priority calls in between. For the thread as a whole (pending at one level only, is_pending exact, one run per request) it is proved for priorities that are changed only while the thread is not pending; otherwise it is refuted: set_priority makes a pending thread not pending, and a second request makes it run twice."},
  {"property": "C45", "status": "proved", "theorems": ["Verif.Soft.C45_in_body", "Verif.Soft.C45_outside", "Verif.Soft.C45_restored"], "note": "Every pool size, every history of nested calls and interrupts."},
  {"property": "C46", "status": "proved", "theorems": ["Verif.Stream.C46_lossless", "Verif.Stream.C46_received_prefix", "Verif.Stream.C46_unread_untouched", "Verif.Stream.C46_in_bounds", "Verif.Stream.C46_no_panic"], "note": "All interleavings of writers (one memory access per step) with a probe that follows the implied protocol; the probe is not in the repository."},
  {"property": "C47", "status": "proved", "theorems": ["Verif.Stream.C47_progress", "Verif.Stream.C47_too_large_never_accepted", "Verif.Stream.C47_accept_iff"], "note": "Progress within two attempts when the probe drains before each; a frame of at least the buffer size makes write_transaction spin forever."},
  {"property": "C48", "status": "proved", "theorems": ["Verif.Stream.C48_split", "Verif.Stream.C48_empty", "Verif.Stream.C48_transaction", "Verif.Stream.C48_end_to_end", "Verif.Stream.C48_doc_limit_wrong"], "note": "Documentation says lengths above 256 panic; 256 panics too (C48_doc_limit_wrong)."},
  {"property": "C49", "status": "proved", "theorems": ["Verif.Stream.C49_bootstrap", "Verif.Stream.C49_once", "Verif.Stream.C49_default", "Verif.Stream.C49_enabled"], "note": "BOOTSTRAP_SEQUENCE is an external constant: any non-empty sequence not starting with 0."},
  {"property": "C50", "status": "partial", "theorems": ["Verif.Fib.Future.C50_value", "Verif.Fib.Future.C50_resolves", "Verif.Fib.Future.C50_finishes", "Verif.Fib.Future.C50_wakes", "Verif.Fib.Future.C50_close", "Verif.Fib.Future.C50_false", "Verif.Fib.Future.C50_false_repoll", "Verif.Fib.Future.C50_false_race", "Verif.Fib.Future.C50_defined_partial"], "note": "Every fiber and every schedule at single-access granularity, composed with the oneshot channel model. Value exactness, resolution, wake-up and close are proved. Polls are not always defined: poll after close or after the result reaches unreachable (C50_false, C50_false_repoll), and the channel's release race (C50_false_race); definedness is proved for careful use."},
  {"property": "C51", "status": "partial", "theorems": ["Verif.Fib.RingStream.C51_ring_calls", "Verif.Fib.RingStream.C51_ring_fits", "Verif.Fib.RingStream.C51_ring_end", "Verif.Fib.RingStream.C51_ring_last", "Verif.Fib.RingStream.C51_ring_saturating", "Verif.Fib.RingStream.C51_ring_overwriting", "Verif.Fib.RingStream.C51_ring_close", "Verif.Fib.RingStream.C51_ring_delivered_partial", "Verif.Fib.RingStream.C51_ring_removed_partial", "Verif.Fib.RingStream.C51_ring_defined_partial", "Verif.Fib.PulseStream.C51_false", "Verif.Fib.PulseStream.C51_false_single", "Verif.Fib.PulseStream.C51_pulse_calls", "Verif.Fib.PulseStream.C51_pulse_fits", "Verif.Fib.PulseStream.C51_pulse_accepted", "Verif.Fib.PulseStream.C51_pulse_saturating_partial", "Verif.Fib.PulseStream.C51_pulse_end", "Verif.Fib.PulseStream.C51_pulse_last", "Verif.Fib.PulseStream.C51_pulse_saturating_end", "Verif.Fib.PulseStream.C51_pulse_close", "Verif.Fib.PulseStream.C51_pulse_defined_partial"], "note": "Ring and pulse streams, for every fiber behaviour and every interleaving of channel accesses. False: the saturating pulse stream uses send, so pulses that do not fit are dropped altogether (C51_false). Delivery in order on the ring only without slot clashes (C32); no undefined behaviour only without the overlaps of C28 and C32."},
  {"property": "C52", "status": "partial", "theorems": ["Verif.ProcLoop.C52_partial", "Verif.ProcLoop.C52_wrong_input_iff", "Verif.ProcLoop.C52_results", "Verif.ProcLoop.C52_completes", "Verif.ProcLoop.C52_false", "Verif.ProcLoop.C52_false_drop"], "note": "False after a failed request or a cmd future dropped while waiting: the next command is read as a request result. Proved exactly when this happens, and that results are right otherwise."},
  {"property": "C53", "status": "partial", "theorems": ["Verif.Inventory.C53_accounted", "Verif.Inventory.C53_counter", "Verif.Inventory.C53_closing", "Verif.Inventory.C53_borrowed", "Verif.Inventory.C53_active_partial", "Verif.Inventory.C53_false_two", "Verif.Inventory.C53_false_inactive", "Verif.Inventory.C53_false_swap", "Verif.Inventory.C53_guard"], "note": "Counting proved for every type-correct program (sum over all inventories of the type; exact per inventory when there is one). False: borrowed token of an inactive item, tokens of two inventories mixed up, items exchanged through DerefMut."},
  {"property": "C54", "status": "partial", "theorems": ["Verif.Platform.Irq.C54_partial", "Verif.Platform.Irq.C54_protected_iff", "Verif.Platform.Irq.C54_lifo", "Verif.Platform.Irq.C54_nested_off", "Verif.Platform.Irq.C54_paused", "Verif.Platform.Irq.C54_false"], "note": "False for handles dropped out of nesting order (witness: create two, drop the first: interrupts on while the second lives). Proved: protection holds exactly for drop orders where the oldest handle goes last; nested scopes and paused closures are always correct."},
  {"property": "C55", "status": "proved", "theorems": ["Verif.Atomic.C55_cas_loop_is_soft_try_modify", "Verif.Atomic.C55_modify_swap", "Verif.Atomic.C55_solo_progress", "Verif.Atomic.C04_no_lost_update"], "note": "Linearizability of the CAS loop to the critical-section operation, plus solo progress."},
  {"property": "C56", "status": "partial", "theorems": ["Verif.CfgCond.C56_partial", "Verif.CfgCond.C56_exclusive", "Verif.CfgCond.C56_exclusive_only", "Verif.CfgCond.C56_defined", "Verif.CfgCond.C56_attrs", "Verif.CfgCond.C56_add_clause", "Verif.CfgCond.C56_dnf", "Verif.CfgCond.C56_false", "Verif.CfgCond.C56_false_exclusive", "Verif.CfgCond.C56_false_overlap", "Verif.CfgCond.C56_false_repeated", "Verif.CfgCond.C56_false_three"], "note": "False in several ways: a conjunction of two clauses is emitted as any(); overlapping conditions give several variants; repeated literals repeat items; three clauses panic. Proved for single-clause items exactly in the configurations that set at most one of the literals used."},
  {"property": "C57", "status": "proved", "theorems": ["Verif.Fib.C57_each_resume_calls", "Verif.Fib.C57_completes_once", "Verif.Fib.C57_advance", "Verif.Fib.C57_once", "Verif.Fib.C57_generator"], "note": "FiberFn, FiberOnce and FiberGen for every behaviour of the closure or generator and number of resumes; closures that themselves panic are not modelled."},
  {"property": "C58", "status": "proved", "theorems": ["Verif.Fib.C58_polls_each_resume", "Verif.Fib.C58_ready", "Verif.Fib.C58_error_panics"], "note": "Executor fiber for every future behaviour and number of resumes; futures that themselves panic are not modelled."},
  {"property": "C59", "status": "partial", "theorems": ["Verif.Pulse.C59_false", "Verif.Pulse.C59_false_single", "Verif.Pulse.C59_partial", "Verif.Pulse.C59_same_waker_partial"], "note": "false of the code: the first stored waker is never replaced; proved when all polls use the same waker, and that the one stored waker is woken"},
  {"property": "C60", "status": "partial", "theorems": ["Verif.Ring.C60_partial"], "note": "for schedules without the overlaps of C32 and the use of the waker after close of C33 (in particular whole calls without close); otherwise false by C32_false_leave"},
  {"property": "C61", "status": "proved", "theorems": ["Verif.Ring.C61_final", "Verif.Ring.C61_end", "Verif.Ring.C61_empty", "Verif.Ring.C61_error", "Verif.Ring.C61_is_terminated"], "note": "every interleaving without undefined behaviour"},
  {"property": "C62", "status": "partial", "theorems": ["Verif.Macros.C62_false", "Verif.Macros.C62_reserved_iff", "Verif.Macros.C62_partial", "Verif.Macros.C62_distinct", "Verif.Macros.C62_kept"], "note": "Exactly four names (async, await, dyn, try) become reserved words (C62_false, C62_reserved_iff); all others are usable, all are distinct."},
  {"property": "C63", "status": "partial", "theorems": ["Verif.Macros.C63_partial", "Verif.Macros.C63_names", "Verif.Macros.C63_one_macro", "Verif.Macros.C63_false", "Verif.Macros.C63_false_register_cfg"], "note": "Proved when joined names are distinct and registers have no cfg attributes of their own; false otherwise (C63_false: colliding names drop a token; C63_false_register_cfg: evaluated in the application crate)."},
  {"property": "C64", "status": "partial", "theorems": ["Verif.Regs.C64_partial", "Verif.Regs.C64_exclusive", "Verif.Regs.C64_store_exclusive", "Verif.Regs.C64_one_unsync", "Verif.Regs.C64_false", "Verif.Regs.C64_false_variants"], "note": "Proved for registers whose variants all have fields and with one variant in the index; false for registers without fields (public marker, token can be forged) and for two variants of one address in the index."},
  {"property": "C65", "status": "partial", "theorems": ["Verif.Exec.C65_no_task_stuck_partial", "Verif.Exec.C65_all_complete_partial", "Verif.Exec.C65_done_means_fired", "Verif.Exec.C65_no_fault", "Verif.Exec.C65_false", "Verif.Exec.C65_false_dead"], "note": "At most 32 threads; no thread is woken at a level at which a thread runs or is preempted. Without that an event between the poll of a future and the return of its thread is lost (C65_false), and in a pool of one thread nothing runs again (C65_false_dead)."},
  {"property": "C66", "status": "proved", "theorems": ["Verif.Heap.C66_contents", "Verif.Heap.C66_disjoint", "Verif.Heap.C66_null_iff", "Verif.Heap.C66_trace", "Verif.Heap.C66_shrink_refused"], "note": "layouts with at least pointer-sized blocks (C13); alignment is C08"},
  {"property": "C67", "status": "partial", "theorems": ["Verif.Heap.C67_exact_iff", "Verif.Heap.C67_partial", "Verif.Heap.C67_false", "Verif.Heap.C67_false_tail"], "note": "exact condition proved; false for 8-byte pointers and for lengths that are not a multiple of 4"},
  {"property": "C68", "status": "proved", "theorems": ["Verif.Atomic.Refine.C68_oneshot", "Verif.Atomic.Refine.C68_pulse", "Verif.Atomic.Refine.C68_ring", "Verif.Atomic.Refine.C68_soft"], "note": "Same outcomes of the loop program and of the one-step program, for the three channels and the software threads. Pool, list and single cells have their own loop models (C04, C11, C16, C55)."},
  {"property": "C69", "status": "partial", "theorems": ["Verif.Periph.C69_expand_partial", "Verif.Periph.C69_expand_periph", "Verif.Periph.C69_struct_partial", "Verif.Periph.C69_traits_partial", "Verif.Periph.C69_singular_partial", "Verif.Periph.C69_false_variant", "Verif.Periph.C69_false_overlap", "Verif.Periph.C69_false_nested"], "note": "False: map! panics for registers with some variants absent; overlapping or nested conditions give two macros of one name. Proved for configurations that select at most one conjunction and mappings with all or no variants of a register."},
  {"property": "C70", "status": "partial", "theorems": ["Verif.Periph.C70_fields_partial", "Verif.Periph.C70_conv_partial", "Verif.Periph.C70_false_marker", "Verif.Periph.C70_false_keyword"], "note": "False for generic registers all of whose fields are absent (unknown field _marker) and for into_{variant} with keyword names; proved otherwise."},
  {"property": "C71", "status": "partial", "theorems": ["Verif.Print.C71_delivered", "Verif.Print.C71_prefix", "Verif.Print.C71_single_writer", "Verif.Print.C71_no_panic", "Verif.Print.C71_text_partial", "Verif.Print.C71_text_exact", "Verif.Print.C71_false", "Verif.Print.C71_compiles", "Verif.Print.C71_dbg"], "note": "Delivery is proved in full. The printed text equals that of format! exactly if there are arguments or no braces; with a single argument braces are printed raw (C71_false)."},
  {"property": "C72", "status": "partial", "theorems": ["Verif.Local.C72_partial", "Verif.Local.C72_one_pool_partial", "Verif.Local.C72_local", "Verif.Local.C72_factory", "Verif.Local.C72_false", "Verif.Local.C72_false_pools", "Verif.Local.C72_false_irq"], "note": "Holds if local() is called only by threads of its pool or while none is active and factories do not call it (in particular one pool, no other handlers); fails through add_fib_factory, through other pools and through interrupt handlers."},
  {"property": "C73", "status": "partial", "theorems": ["Verif.Token.C73_exclusive", "Verif.Token.C73_exact", "Verif.Token.C73_no_alias", "Verif.Token.C73_borrow", "Verif.Token.C73_send_partial", "Verif.Token.C73_false_send"], "note": "Exclusivity is proved in full and exactly. That a static whose type is not Send stays in one context is false, because its token is Send (C73_false_send); true if its token is not moved."},
  {"property": "C74", "status": "partial", "theorems": ["Verif.Bitfield.Derive.C74_partial", "Verif.Bitfield.Derive.C74_compiles_iff", "Verif.Bitfield.Derive.C74_range_exact", "Verif.Bitfield.Derive.C74_false", "Verif.Bitfield.Derive.C74_false_panic"], "note": "Proved for fields within the integer that share no bits; the macro does not check the range, and outside it the safe methods lose bits or panic. Exact conditions for name clashes and for the round trip."},
  {"property": "C75", "status": "partial", "theorems": ["Verif.Pool.C75_compiles_iff", "Verif.Pool.C75_soft_iff", "Verif.Pool.C75_false", "Verif.Pool.C75_tokens", "Verif.Pool.C75_tokens_distinct"], "note": "The code compiles exactly if nothing is disabled and names are distinct; conditions on threads or fields break it (C75_false). The correspondence of tokens and array elements is proved in full."},
  {"property": "C76", "status": "partial", "theorems": ["Verif.Regs.Def.C76_partial", "Verif.Regs.Def.C76_compiles_iff", "Verif.Regs.Def.C76_documented_compiles", "Verif.Regs.Def.C76_untouched", "Verif.Regs.Def.C76_false_name", "Verif.Regs.Def.C76_false_disabled", "Verif.Regs.Def.C76_false_variant", "Verif.Regs.Def.C76_false_range"], "note": "Full property is false: disabled fields and variants, reserved type names, and fields outside the integer. Proved for all accepted declarations with fields inside the integer; acceptance is characterised exactly."},
  {"property": "C77", "status": "partial", "theorems": ["Verif.Oneshot.C77_oneshot_partial", "Verif.Oneshot.C77_oneshot_exact", "Verif.Oneshot.C77_oneshot_false", "Verif.Oneshot.C77_oneshot_false_waker", "Verif.Oneshot.C77_oneshot_acqrel", "Verif.Oneshot.C77_oneshot_late", "Verif.Oneshot.C77_oneshot_covers", "Verif.Pulse.C77_pulse_partial", "Verif.Pulse.C77_pulse_exact", "Verif.Pulse.C77_pulse_false", "Verif.Pulse.C77_pulse_false_waker", "Verif.Pulse.C77_pulse_acqrel", "Verif.Pulse.C77_pulse_late", "Verif.Pulse.C77_pulse_unordered", "Verif.Pulse.C77_pulse_ordered", "Verif.Pulse.C77_pulse_covers", "Verif.Ring.C77_ring_wakers", "Verif.Ring.C77_ring_partial", "Verif.Ring.C77_ring_exact", "Verif.Ring.C77_ring_false", "Verif.Ring.C77_ring_acqrel", "Verif.Ring.C77_ring_late", "Verif.Ring.C77_ring_reuse", "Verif.Ring.C77_ring_overlap", "Verif.Ring.C77_ring_ordered", "Verif.Ring.C77_ring_covers"], "note": "Oneshot, pulse and ring channels. Full statement fails: the release of the shared object is not ordered after the other end's accesses (finding 44), and the sender's reuse of a ring slot is not ordered after the receiver's reading (finding 46). Proved: everything else (values, errors, wakers, slots) never races; exactly which orderings this needs; what AcqRel drops would give. For ring slots, schedules in which the sender writes to a claimed slot are excluded (C77_ring_overlap shows why)."},
  {"property": "C78", "status": "partial", "theorems": ["Verif.LinkedList.Conc.Order.C78_list_partial", "Verif.LinkedList.Conc.Order.C78_list_exact", "Verif.LinkedList.Conc.Order.C78_list_false", "Verif.LinkedList.Conc.Order.C78_list_covers"], "note": "Full statement fails: cut_out loads the head with Relaxed and accesses nodes pushed meanwhile (finding 47, C78_list_false). Proved: no other access ever completes a race; exactly which orderings rule out all races. One removing context; addresses are not reused."},
  {"property": "C79", "status": "partial", "theorems": ["Verif.Mutex.Order.C79_mutex_partial", "Verif.Mutex.Order.C79_mutex_data", "Verif.Mutex.Order.C79_mutex_data_exact", "Verif.Mutex.Order.C79_mutex_exact", "Verif.Mutex.Order.C79_mutex_false", "Verif.Mutex.Order.C79_mutex_covers"], "note": "the code violates it: the release of a node races with the read of the waker by a dropped future (C79_mutex_false); all races are between the release of a node and later accesses of its creator (C79_mutex_partial), the data has none (C79_mutex_data); exact orderings (C79_mutex_exact, C79_mutex_data_exact)"},
  {"property": "C80", "status": "partial", "theorems": ["Verif.Regs.Marker.C80_reg_partial", "Verif.Regs.Marker.C80_reg_exact", "Verif.Regs.Marker.C80_field_partial", "Verif.Regs.Marker.C80_field_exact", "Verif.Regs.Marker.C80_alias", "Verif.Regs.Marker.C80_generic_partial", "Verif.Regs.Marker.C80_generic_field", "Verif.Regs.Marker.C80_false", "Verif.Regs.Marker.C80_generic_false"], "note": "the code violates it: registers wider than 32 bits with feature atomics (C80_false), modify of SRwReg (C80_generic_false); everything else proved, exact conditions in C80_reg_exact and C80_field_exact"},
  {"property": "C81", "status": "partial", "theorems": ["Verif.Heap.Conc.Order.C81_pool_partial", "Verif.Heap.Conc.Order.C81_exclusive_partial", "Verif.Heap.Conc.Order.C81_pool_exact", "Verif.Heap.Conc.Order.C81_pool_false", "Verif.Heap.Conc.Order.C81_pool_covers"], "note": "No data race and no block with two owners in any schedule where one context allocates and any number deallocate, with the orderings of the source and loads that may return old values. False for two allocating contexts (link read of a block that is already owned by another context); pool_exact characterises the orderings and the allocators exactly; pool_covers: every schedule of the sequentially consistent model with one allocator is among those considered."},
  {"property": "C82", "status": "partial", "theorems": ["Verif.Soft.Order.C82_data", "Verif.Soft.Order.C82_data_exact", "Verif.Soft.Order.C82_found_partial", "Verif.Soft.Order.C82_found_exact", "Verif.Soft.Order.C82_served_partial", "Verif.Soft.Order.C82_served_exact", "Verif.Soft.Order.C82_lost", "Verif.Soft.Order.C82_covers"], "note": "No data races; requests of levels taken in row_start are found and not lost. False for levels taken in row_next, whose header update does not acquire (C82_lost); exact conditions on the orderings are proved."},
  {"property": "C83", "status": "proved", "theorems": ["Verif.Decl.C83_heap", "Verif.Decl.C83_stream", "Verif.Decl.C83_pool", "Verif.Decl.C83_soft", "Verif.Decl.C83_unambiguous", "Verif.Decl.C83_forward"], "note": "Equivalences between the parsers and independent grammars; types, expressions and paths are single tokens."},
  {"property": "C84", "status": "partial", "theorems": ["Verif.Gram.C84_singular", "Verif.Gram.C84_periph", "Verif.Gram.C84_map", "Verif.Gram.C84_tokens", "Verif.Gram.C84_reg", "Verif.Gram.C84_simple_token", "Verif.Gram.C84_simple_tokens", "Verif.Gram.C84_static_tokens", "Verif.Gram.C84_cfg_partial", "Verif.Gram.C84_cfg_only", "Verif.Gram.C84_false"], "note": "The grammars are proved in full. The code violates the claim on conditions for an empty any() (finding 53); C84_cfg_partial is exact."},
  {"property": "C85", "status": "proved", "theorems": ["Verif.Bound.C85_oneshot_sender", "Verif.Bound.C85_oneshot_receiver", "Verif.Bound.C85_pulse_sender", "Verif.Bound.C85_pulse_receiver", "Verif.Bound.C85_ring_sender", "Verif.Bound.C85_ring_receiver", "Verif.Bound.C85_oneshot_sections", "Verif.Bound.C85_pulse_sections", "Verif.Bound.C85_ring_sections", "Verif.Bound.C85_heap", "Verif.Bound.C85_list", "Verif.Bound.C85_drain", "Verif.Bound.C85_mutex", "Verif.Bound.C85_scheduler", "Verif.Bound.C85_oneshot_exact", "Verif.Bound.C85_pulse_exact", "Verif.Bound.C85_ring_exact", "Verif.Bound.C85_heap_mutex_exact", "Verif.Bound.C85_scheduler_exact", "Verif.Bound.C85_drain_exact"], "note": "Bounds per call with compare-exchange loops and with critical sections, for the channels, heap, list, mutex and the scheduler of up to 32 software threads; exactness of the bounds."},
  {"property": "C86", "status": "partial", "theorems": ["Verif.Heap.Multi.C86_empty", "Verif.Heap.Multi.C86_failed", "Verif.Heap.Multi.C86_no_release_partial", "Verif.Heap.Multi.C86_two_contexts_partial", "Verif.Heap.Multi.C86_three_contexts_false", "Verif.Heap.Multi.C86_two_pools_false", "Verif.Heap.Multi.C86_false", "Verif.Heap.Multi.C86_shared_soft", "Verif.Heap.Multi.C86_shared_partial", "Verif.Heap.Multi.C86_got"], "note": "False as stated in both builds (finding 54; C86_three_contexts_false, C86_two_pools_false): an allocation may fail although a fitting block was there at every moment. Proved: what a failing call has seen (C86_failed); the property if no block comes back to an empty pool during the call, or with one pool and two contexts. Ownership and separation over all pools: proved without atomics, with atomics unless a block returns under a compare-exchange (as C11)."},
  {"property": "C87", "status": "partial", "theorems": ["Verif.Mutex.C87_newcomers_partial", "Verif.Mutex.C87_starved", "Verif.Mutex.C87_false"], "note": "False as stated (finding 55): with three clients, sequential calls and prompt polls one of them can wait for ever (C87_starved, for every bound). Proved in every interleaving: whoever is woken while a future waits began to wait after it, each at most once (C87_newcomers_partial)."},
  {"property": "C88", "status": "partial", "theorems": ["Verif.Exec.Chan.C88_no_task_stuck_partial", "Verif.Exec.Chan.C88_all_complete_partial", "Verif.Exec.Chan.C88_answered", "Verif.Exec.Chan.C88_no_fault_partial", "Verif.Exec.Chan.C88_rests", "Verif.Exec.Chan.C88_live_partial", "Verif.Exec.Chan.C88_false", "Verif.Exec.Chan.C88_false_release"], "note": "Executor, software threads and oneshot channels in one state, all accesses interleaved; the threads always come to rest, and under the conditions all tasks complete after finitely many rounds once their senders have left. Partial because the code violates the full property: wakes at the level of a running thread are lost (C88_false), and a channel can be released during send (C88_false_release)."},
  {"property": "C89", "status": "partial", "theorems": ["Verif.Exec.Str.C89_no_task_stuck_partial", "Verif.Exec.Str.C89_all_complete_partial", "Verif.Exec.Str.C89_read_to_end", "Verif.Exec.Str.C89_delivered_partial", "Verif.Exec.Str.C89_no_fault_partial", "Verif.Exec.Str.C89_rests", "Verif.Exec.Str.C89_live_partial", "Verif.Exec.Str.C89_false", "Verif.Exec.Str.C89_false_clash"], "note": "Executor, software threads and channels of all three kinds in one state, all accesses interleaved; the threads always come to rest, and under the conditions all tasks complete after finitely many rounds once their senders have left. Partial because the code violates the full property: wakes at the level of a running thread are lost (C89_false), and a sender can write to the slot that the task is about to read (C89_false_clash)."},
  {"property": "C90", "status": "partial", "theorems": ["Verif.Exec.Lock.C90_no_task_stuck_partial", "Verif.Exec.Lock.C90_all_complete_partial", "Verif.Exec.Lock.C90_mutual_exclusion", "Verif.Exec.Lock.C90_done_rounds", "Verif.Exec.Lock.C90_rests", "Verif.Exec.Lock.C90_live_partial", "Verif.Exec.Lock.C90_no_fault_partial", "Verif.Exec.Lock.C90_false_same", "Verif.Exec.Lock.C90_false_missed", "Verif.Exec.Lock.C90_false_free"], "note": "Executor, software threads and mutex in one state, all accesses interleaved; the threads always come to rest, and under the conditions all tasks complete after finitely many rounds. Partial because the code violates the full property: wakes at the level of a running thread are lost (C90_false_same), an unlock misses a waiter that arrives during it (C90_false_missed), and nodes of woken waiters are released before they are polled (C90_false_free)."},
  {"property": "C91", "status": "partial", "theorems": ["Verif.Exec.Pipe.C91_no_deadlock_partial", "Verif.Exec.Pipe.C91_downward_no_clash", "Verif.Exec.Pipe.C91_completed_partial", "Verif.Exec.Pipe.C91_in_order_partial", "Verif.Exec.Pipe.C91_sent", "Verif.Exec.Pipe.C91_rests", "Verif.Exec.Pipe.C91_live_partial", "Verif.Exec.Pipe.C91_no_fault_partial", "Verif.Exec.Pipe.C91_false_same", "Verif.Exec.Pipe.C91_false_late", "Verif.Exec.Pipe.C91_false_clash", "Verif.Exec.Pipe.C91_false_release"], "note": "Refuted in full by C91_false_same, C91_false_late (wakes of a running level are lost), C91_false_clash (sender of greater priority overwrites the slot being read) and C91_false_release. Proved: whatever is sent is sent in order and once; when no sender has a greater priority than its receiver the ends never clash and everything received is in order; the threads always come to rest; under the waking rule both tasks of every ring complete and everything arrives."}
]}
