{"id": "C01", "title": "Register field write/read round trip", "statement": "Writing a value to a multi-bit field of a register word and reading the field back yields exactly the value truncated to the field width, and every bit of the word outside the field keeps its old value. The full-word field (width equal to the word width) reads and writes the whole word.", "quantifier": "for every word width, every word, every in-range field (offset inside the word, offset+width at most the word width), every written value", "why_tests_cant": "the space is words x fields x values (2^70 and up for 32-bit words); tests sample a handful of masks", "anchors": ["src/bitfield/mod.rs: Bitfield::read_bits, write_bits, Bits::bit_mask, bit_at", "src/reg/field.rs: RRRegFieldBits::read_bits, WWRegFieldBits::write_bits"]}
{"id": "C02", "title": "Single-bit field operations", "statement": "set/clear/toggle/write of a one-bit field makes a subsequent read of that bit return true/false/the opposite/the written value, and never changes any other bit.", "quantifier": "for every word width, word, in-range bit position and other bit position", "why_tests_cant": "exhaustive over word x position; unit tests check one register", "anchors": ["src/bitfield/mod.rs: read_bit, set_bit, clear_bit, toggle_bit, write_bit, maybe_bit_at", "src/reg/field.rs: RRRegFieldBit, WWRegFieldBit"]}
{"id": "C03", "title": "Independent fields are last-write-wins", "statement": "After any sequence of single-bit and multi-bit writes to pairwise non-overlapping fields of one word, reading a field returns the last value written to that field (truncated), or the initial contents if it was never written, whatever was written to the other fields and in whatever order.", "quantifier": "for every word, every set of pairwise disjoint in-range fields, every finite sequence of writes", "why_tests_cant": "quantifies over unbounded histories of writes and all field layouts", "anchors": ["src/bitfield/mod.rs", "src/reg/mod.rs: store, modify", "src/reg/field.rs"]}
{"id": "C04", "title": "Atomic register modify never loses an update", "statement": "When any number of threads concurrently run the register's atomic read-modify-write with arbitrary update functions, the final register contents equal the initial contents with all committed updates applied one after another in commit order, and each completed call has been applied exactly once.", "quantifier": "for every number of threads, every update functions, every interleaving of the load / exclusive-store steps including spurious failures", "why_tests_cant": "requires exploring all interleavings of retry loops of unbounded length", "anchors": ["src/reg/atomic.rs: RwRegUnsyncAtomic... modify loops", "src/reg/soft_atomic.rs", "src/atomic_macros.rs: modify_atomic, load_modify_atomic"]}
{"id": "C05", "title": "Live heap blocks never overlap", "statement": "At every point of any legal history of allocate / allocate_zeroed / deallocate / grow / shrink calls, the blocks handed out and not yet released are pairwise disjoint, lie inside their pool's region, and each is at least as long as was requested.", "quantifier": "for every pool configuration with word-or-larger blocks, every finite legal call history, every request size", "why_tests_cant": "an invariant of all histories; a fuzzer sees finitely many and aliasing can stay silent", "anchors": ["src/heap/mod.rs: allocate, allocate_zeroed, deallocate, grow, shrink", "src/heap/pool.rs: Pool::allocate, deallocate"]}
{"id": "C06", "title": "Allocation fails only on true exhaustion", "statement": "A non-zero-size allocation returns an error if and only if every block of every pool whose block size is large enough is currently live; zero-size allocations always succeed and consume nothing.", "quantifier": "for every pool configuration, every reachable heap state, every request size", "why_tests_cant": "needs the exact set of live blocks after arbitrary histories (no block may leak through free-list handling)", "anchors": ["src/heap/mod.rs: allocate", "src/heap/pool.rs: allocate_free, allocate_uninit"]}
{"id": "C07", "title": "Best-fit pool selection", "statement": "A successful allocation is served from the first pool (in increasing block size order) that has both sufficient block size and an available block; the reported length is exactly that pool's block size.", "quantifier": "for every sorted pool table, every reachable state, every request size", "why_tests_cant": "binary search boundaries over arbitrary tables; off-by-one only visible at specific sizes", "anchors": ["src/heap/pool.rs: pool_range_by_layout, binary_search", "src/heap/mod.rs: allocate"]}
{"id": "C08", "title": "Allocated memory honours the requested alignment", "statement": "The address returned for a request with alignment A is a multiple of A.", "quantifier": "for every pool configuration, every layout (size, alignment), every reachable state", "why_tests_cant": "depends on pool base addresses and block sizes that a given test configuration happens to align", "anchors": ["src/heap/mod.rs: allocate", "src/heap/pool.rs: Pool::new, allocate"]}
{"id": "C09", "title": "Reallocation preserves contents", "statement": "A successful grow keeps the first old-size bytes, a successful shrink keeps the first new-size bytes; a failing grow/shrink leaves the old block live and all its bytes unchanged; other live blocks are untouched in every case.", "quantifier": "for every reachable heap, every live block, every new size, every byte contents", "why_tests_cant": "needs all pool layouts, including the case where the old block becomes a free-list node during the call", "anchors": ["src/heap/mod.rs: grow, grow_zeroed, shrink"]}
{"id": "C10", "title": "Zeroed allocation is zero", "statement": "allocate_zeroed returns a block all of whose reported bytes are zero, and grow_zeroed returns a block whose bytes beyond the old size are all zero, whatever the block contained before (including free-list links).", "quantifier": "for every reachable heap and memory contents, every request size", "why_tests_cant": "stale contents come from arbitrary previous owners of the block", "anchors": ["src/heap/mod.rs: allocate_zeroed, grow_zeroed"]}
{"id": "C11", "title": "Concurrent allocations never hand out the same block twice", "statement": "If several contexts call allocate/deallocate on one pool concurrently, no block is ever handed to two owners at the same time.", "quantifier": "for every number of contexts and every interleaving of the load / link-read / compare-exchange steps", "why_tests_cant": "the failing schedules (ABA) need a precise preemption between two instructions", "anchors": ["src/heap/pool.rs: Pool::allocate_free, Pool::deallocate, allocate_uninit", "src/atomic_macros.rs: load_try_modify_atomic"]}
{"id": "C12", "title": "Pointer-to-pool lookup is exact", "statement": "For a table of contiguous pools sorted by address, the lookup used by deallocate returns the unique pool whose address range contains the pointer, and nothing for pointers outside the heap.", "quantifier": "for every table length, every pool sizes/counts, every pointer", "why_tests_cant": "binary-search correctness over all tables; tests fix one ten-entry table", "anchors": ["src/heap/pool.rs: pool_by_ptr, binary_search"]}
{"id": "C13", "title": "Releasing a block leaves other live blocks' bytes intact", "statement": "Deallocating a block never changes any byte of a block that is still live.", "quantifier": "for every pool configuration accepted by the constructor, every reachable heap, every deallocated block", "why_tests_cant": "corruption appears only for block sizes smaller than a pointer and specific neighbours", "anchors": ["src/heap/pool.rs: Pool::deallocate (writes the free-list link into the block)", "src/heap/mod.rs tests (2-byte blocks)"]}
{"id": "C14", "title": "Heap trace is decodable and balanced", "statement": "With tracing enabled, the byte stream emitted for any history of allocator calls decodes back to exactly the sequence of size changes performed, so the traced number of live bytes equals the real one.", "quantifier": "for every history of allocator calls and every sizes", "why_tests_cant": "needs every entry point in every order; a test of one entry point cannot show that another is silent", "anchors": ["src/heap/trace.rs", "macros/src/heap.rs: def_core_alloc"]}
{"id": "C15", "title": "Linked list is a LIFO stack", "statement": "Any sequence of push / pop / is_empty / into-iteration / drain-filter on a list behaves like the same operations on a stack: elements leave in last-in-first-out order, draining keeps the relative order of the elements not selected, each element leaves exactly once, and each node is released exactly once (including at drop).", "quantifier": "for every finite operation sequence and every filter predicate", "why_tests_cant": "pointer surgery over unbounded lists", "anchors": ["src/sync/linked_list.rs: push_raw, pop_raw, DrainFilterRaw::next, cut_out, IntoIter::next, Drop"]}
{"id": "C16", "title": "Concurrent pushes survive a concurrent drain", "statement": "While one context drains the list with a filter, any number of contexts may push; no pushed element is lost, no element is yielded twice, elements not selected stay, and elements pushed after the drain started are not visited.", "quantifier": "for every number of pushers and every interleaving of push steps with drain steps", "why_tests_cant": "interleavings of pointer updates at the list head", "anchors": ["src/sync/linked_list.rs: push_raw, drain_filter_raw, cut_out"]}
{"id": "C17", "title": "Concurrent pops hand out each element once", "statement": "When several contexts pop and push concurrently, every element is returned by at most one pop and no element disappears.", "quantifier": "for every number of contexts and every interleaving of load / next-read / compare-exchange steps", "why_tests_cant": "classic ABA schedule, needs node address reuse at the right moment", "anchors": ["src/sync/linked_list.rs: pop_raw", "src/atomic_macros.rs"]}
{"id": "C18", "title": "A thread resume advances each fiber exactly once", "statement": "Resuming a thread advances every fiber attached at the moment of the resume exactly once, in last-added-first order; a completed fiber is removed, released once and never advanced again; fibers added while the resume is running are not advanced until the next resume; the order of the surviving fibers is kept.", "quantifier": "for every chain, every fiber behaviours, every sequence of add and resume, including additions made by the fibers themselves", "why_tests_cant": "unbounded histories with re-entrant additions", "anchors": ["src/fib/chain.rs: Chain::add, drain, Drain::next, Node::advance, deallocate", "src/thr/mod.rs: Thread::resume"]}
{"id": "C19", "title": "Oneshot delivers at most one value, exactly the one sent", "statement": "Over every history of operations on the two ends of a oneshot channel, the receiver obtains at most one value and it is the value passed to send; a value whose send returned Ok is either delivered or dropped exactly once by the receiver; a value whose send failed is handed back.", "quantifier": "for every legal history of send, drop, close, try_recv, poll, poll_canceled, is_terminated", "why_tests_cant": "all orders of operations of two independent parties", "anchors": ["src/sync/spsc/oneshot/sender.rs", "src/sync/spsc/oneshot/receiver.rs", "src/sync/spsc/oneshot/mod.rs"]}
{"id": "C20", "title": "Oneshot close semantics", "statement": "After the receiver closed (or was dropped) a send returns the value in an error and the receiver never observes it; a value sent before the close can still be received; after the last value the receiver reports cancellation; the receiver reports cancellation only if the sender is gone or the channel was closed, and no value is pending.", "quantifier": "for every legal history", "why_tests_cant": "order of close relative to send/recv/drop in all combinations", "anchors": ["src/sync/spsc/oneshot/receiver.rs: close, try_recv, poll, is_terminated", "src/sync/spsc/oneshot/sender.rs: send"]}
{"id": "C21", "title": "Oneshot wakeups reach the latest waker", "statement": "If the receiver's last poll returned pending, then the event that makes the next poll ready (send or sender drop) wakes the waker passed to that last poll; symmetrically for poll_canceled and close/drop.", "quantifier": "for every legal history, with arbitrary waker passed at each poll", "why_tests_cant": "needs histories where the task migrated to a different waker between polls", "anchors": ["src/sync/spsc/oneshot/receiver.rs: poll (95-109)", "src/sync/spsc/oneshot/sender.rs: poll_canceled, send, drop"]}
{"id": "C22", "title": "Channel memory is released exactly once and never used afterwards", "statement": "The shared state of a oneshot channel is freed exactly once, when the second of the two ends goes away, no end touches it after that, and every stored waker is consumed exactly once.", "quantifier": "for every history, including interleavings of the individual memory accesses of the two ends", "why_tests_cant": "use-after-free appears only if one end is preempted between its flag update and its waker read", "anchors": ["src/sync/spsc/oneshot/sender.rs: send, Drop", "src/sync/spsc/oneshot/receiver.rs: close, Drop"]}
{"id": "C23", "title": "Sender learns about cancellation", "statement": "is_canceled / poll_canceled on a oneshot sender report cancellation if and only if the receiver closed the channel or was dropped, and a pending poll_canceled is followed by a wake when that happens.", "quantifier": "for every legal history", "why_tests_cant": "all orders of operations", "anchors": ["src/sync/spsc/oneshot/sender.rs: is_canceled, poll_canceled", "src/sync/spsc/oneshot/receiver.rs: close, Drop"]}
{"id": "C24", "title": "Pulses are conserved", "statement": "The total of all counts received from a pulse channel plus the count still pending equals the total of all successful sends.", "quantifier": "for every legal history, every word width, every pulse numbers", "why_tests_cant": "packed-counter arithmetic next to flag bits over unbounded histories", "anchors": ["src/sync/spsc/pulse/sender.rs: send, saturating_send", "src/sync/spsc/pulse/receiver.rs: try_next, poll_next"]}
{"id": "C25", "title": "A failed pulse send has no effect", "statement": "If send or saturating_send returns an error, the pulses of that call are never observed by the receiver.", "quantifier": "for every legal history and pulse number", "why_tests_cant": "effect shows only after close in a particular order", "anchors": ["src/sync/spsc/pulse/sender.rs: send 53-73, saturating_send 81-99"]}
{"id": "C26", "title": "Pulse overflow is reported exactly", "statement": "send reports Full if and only if the pending count plus the new pulses would exceed the channel's maximum count; in that case the pending count is unchanged. The counter never spills into the state flags and vice versa.", "quantifier": "for every word width, every reachable state, every pulse number", "why_tests_cant": "boundary at 2^27-1 / 2^59-1 pending pulses", "anchors": ["src/sync/spsc/pulse/sender.rs: send", "src/sync/spsc/pulse/mod.rs: PARAM_BITS, CAPACITY"]}
{"id": "C27", "title": "Saturating send saturates", "statement": "saturating_send on an open channel makes the pending count exactly min(pending + pulses, maximum) and never fails with Full.", "quantifier": "for every word width, every reachable state, every pulse number", "why_tests_cant": "saturation boundary needs huge counts", "anchors": ["src/sync/spsc/pulse/sender.rs: saturating_send"]}
{"id": "C28", "title": "Pulse errors and end of stream", "statement": "An error sent with send_err is delivered at most once and only after all pulses sent before it; the stream ends (None / Canceled) only after sender gone or channel closed with nothing pending; is_terminated is true exactly when no further item can arrive; memory is freed exactly once.", "quantifier": "for every legal history", "why_tests_cant": "all orders of send, send_err, close, drop, poll", "anchors": ["src/sync/spsc/pulse/sender.rs: send_err, Drop", "src/sync/spsc/pulse/receiver.rs: try_next, poll_next, is_terminated, Drop"]}
{"id": "C29", "title": "Ring channel is a bounded FIFO", "statement": "Over every sequential history the receiver of a ring channel obtains exactly the successfully sent values in order without loss, duplication or reordering; at most `capacity` values are pending, and try_send on an open channel fails with Full if and only if exactly `capacity` values are pending.", "quantifier": "for every capacity smaller than the documented maximum, every word width, every history of both ends", "why_tests_cant": "cursor/length packing and wrap-around over unbounded histories", "anchors": ["src/sync/spsc/ring/mod.rs: get_length, get_cursor, add_cursor, claim_next, add_length", "src/sync/spsc/ring/sender.rs: try_send", "src/sync/spsc/ring/receiver.rs: try_next, take_value"]}
{"id": "C30", "title": "Ring channel works at the documented maximum capacity", "statement": "A ring channel created with the largest capacity accepted by the constructor stores that many values.", "quantifier": "for every word width, capacity = MAX_CAPACITY", "why_tests_cant": "needs 2^13 (32-bit) or 2^29 (64-bit) pending values", "anchors": ["src/sync/spsc/ring/mod.rs: channel assertion, MAX_CAPACITY, COUNT_BITS, add_length"]}
{"id": "C31", "title": "Overwriting send keeps the newest values", "statement": "send_overwrite on an open channel always accepts the value; when the channel is full the oldest pending value is returned to the sender and everything else is kept in order.", "quantifier": "for every capacity, every reachable state", "why_tests_cant": "interplay of overwrite with cursor wrap-around", "anchors": ["src/sync/spsc/ring/sender.rs: send_overwrite", "src/sync/spsc/ring/mod.rs: claim_next_if_full"]}
{"id": "C32", "title": "Ring channel is safe under preemption", "statement": "If the two ends run in different contexts that can preempt each other between any two memory accesses, the receiver still obtains exactly the sent values in order and no slot is accessed by both ends at the same time.", "quantifier": "for every capacity, every interleaving of the individual steps of the two ends", "why_tests_cant": "failing schedule needs preemption between claiming and reading a slot of a full buffer", "anchors": ["src/sync/spsc/ring/receiver.rs: take_value, claim_next_unless_empty, Drop", "src/sync/spsc/ring/sender.rs: try_send, send_overwrite"]}
{"id": "C33", "title": "Stored wakers are used only while valid", "statement": "A ring channel end only wakes or drops a waker of the other end that is currently stored, and consumes it exactly once.", "quantifier": "for every sequential history of both ends", "why_tests_cant": "needs close() followed by receive on a channel with a registered sender waker", "anchors": ["src/sync/spsc/ring/receiver.rs: close, take_value, Drop", "src/sync/spsc/ring/sender.rs: poll_ready, poll_flush, poll_close"]}
{"id": "C34", "title": "Ring sink and stream wakeups are not lost", "statement": "If the receiver's last poll was pending, the next operation that makes an item or the end available wakes it; if the sender's last poll_ready / poll_flush / poll_close was pending, the receive, drain or close that makes it ready wakes it.", "quantifier": "for every legal history in which each end keeps polling with the same waker", "why_tests_cant": "two encoded waker-kind bits with all transitions over all histories", "anchors": ["src/sync/spsc/ring/sender.rs: poll_ready, poll_flush, poll_close", "src/sync/spsc/ring/receiver.rs: take_value, poll_next, close, Drop"]}
{"id": "C35", "title": "Send on a closed ring reports cancellation", "statement": "try_send / send_overwrite / send_err on a ring channel closed by the receiver return Canceled together with the value, whatever is pending, and never Full.", "quantifier": "for every reachable state", "why_tests_cant": "needs a full channel that is then closed without draining", "anchors": ["src/sync/spsc/ring/sender.rs: try_send 48-67, send_overwrite, send_err"]}
{"id": "C36", "title": "Mutex mutual exclusion", "statement": "At most one guard of a mutex exists at any time.", "quantifier": "for every number of tasks and every interleaving of try_lock, lock-future polls, future drops and unlocks at the level of atomic accesses", "why_tests_cant": "all interleavings, unbounded tasks", "anchors": ["src/sync/mutex.rs: try_lock, poll, unlock, MutexGuard::drop"]}
{"id": "C37", "title": "Mutex never forgets a waiter", "statement": "Whenever the mutex is unlocked and some lock future is pending, at least one pending lock future has been woken and not polled since (so the lock is eventually retried).", "quantifier": "for every history; full strength for every interleaving with unlock", "why_tests_cant": "lost wake-up needs a poll between two accesses inside unlock", "anchors": ["src/sync/mutex.rs: unlock, MutexLockFuture::poll, MutexLockFuture::drop"]}
{"id": "C38", "title": "Mutex waiter nodes are used only while allocated", "statement": "No lock future accesses its waiter node after the node has been freed by an unlock, and each node is freed at most once.", "quantifier": "for every history of polls, drops and unlocks", "why_tests_cant": "needs a waiter that is woken and not polled while a later unlock sweeps the list", "anchors": ["src/sync/mutex.rs: unlock 157-175, poll 189, drop 209-213"]}
{"id": "C39", "title": "Dropping a woken lock future passes the wake on", "statement": "If a lock future that was woken is dropped before acquiring the lock, and the mutex is free, another pending future is woken.", "quantifier": "for every reachable state", "why_tests_cant": "needs drop at a particular point of the wake protocol", "anchors": ["src/sync/mutex.rs: MutexLockFuture::drop"]}
{"id": "C40", "title": "Software threads run in priority order", "statement": "Whenever the software scheduler picks a pending thread to run from an outermost or nested preempt, no thread with a higher priority level is pending, and its level is strictly above the level it preempts.", "quantifier": "for every pool of at most 32 threads, every assignment of the 27 priorities, every pattern of pending requests made by running threads", "why_tests_cant": "nested preemption trees of unbounded size", "anchors": ["src/thr/soft/mod.rs: row_start, row_run, row_next, cursor_find_priority, set_pending, preempt"]}
{"id": "C41", "title": "No pended software thread is forgotten", "statement": "When the outermost preempt call returns, no thread is left pending.", "quantifier": "for every pool, priorities, and pending requests made by running threads", "why_tests_cant": "needs a thread pending itself or an equal-priority peer while running", "anchors": ["src/thr/soft/mod.rs: row_next (next_priority = *priority - 1), row_run (stale cell)"]}
{"id": "C42", "title": "Software threads: the thread that was pended is the one resumed", "statement": "Every resume performed by the scheduler is of a thread that is pending at that moment, for every pool size; cell/bit addressing maps distinct (thread, priority) pairs to distinct in-bounds bits.", "quantifier": "for every thread count, every pending set", "why_tests_cant": "pools with more than 32 threads and two pending priority levels", "anchors": ["src/thr/soft/mod.rs: cell_idx, pending_bit, row_size, pending_size, row_run, row_next"]}
{"id": "C43", "title": "Preemption nests and restores the running level", "statement": "A pend request for a thread at or below the running priority never runs it immediately; one above the running priority does, and when preempt returns the recorded running priority is the one recorded before the call.", "quantifier": "for every reachable scheduler state", "why_tests_cant": "arbitrary nesting", "anchors": ["src/thr/soft/mod.rs: will_preempt, preempt, row_next, cursor_set_priority"]}
{"id": "C44", "title": "Changing the priority of a pending thread keeps it pending exactly once", "statement": "set_priority on a pending thread keeps is_pending true and the thread runs exactly once for the one pend request.", "quantifier": "for every reachable state, every pair of priorities", "why_tests_cant": "needs set_priority between pend and run", "anchors": ["src/thr/soft/mod.rs: set_priority, is_pending, clear_pending, cell_idx"]}
{"id": "C45", "title": "Current-thread index follows a stack discipline", "statement": "Inside a thread body the current-thread storage is that thread's; after any nested calls return, it is again the storage of the interrupted thread, and outside of all threads there is none.", "quantifier": "for every tree of nested thread calls", "why_tests_cant": "arbitrary nesting depth", "anchors": ["src/thr/mod.rs: Thread::call, local_checked"]}
{"id": "C46", "title": "Debug stream ring buffer is lossless", "statement": "The probe reading the stream buffer concurrently obtains exactly the transactions written, in order, with intact stream number, length and payload; unread bytes are never overwritten.", "quantifier": "for every buffer size, every sequence of transactions, every interleaving with reader progress", "why_tests_cant": "wrap-around markers and cursor equality in all positions", "anchors": ["src/stream/runtime.rs: Transaction::write, write_transaction"]}
{"id": "C47", "title": "Debug stream write makes progress", "statement": "A transaction whose frame is smaller than the buffer is accepted after finitely many attempts once the reader keeps draining; a transaction that returns has been stored exactly once. A frame as large as the buffer or larger is never accepted.", "quantifier": "for every buffer size, cursor positions and frame length", "why_tests_cant": "endless retry loop shows only for particular sizes", "anchors": ["src/stream/runtime.rs: Transaction::write, write_transaction"]}
{"id": "C48", "title": "Long writes are split without loss", "statement": "Writing a byte slice of any length to a stream emits transactions whose payloads concatenate to the slice, each of 1 to 64 bytes; writing the empty slice emits nothing; a single-transaction write is accepted exactly when the length fits one byte.", "quantifier": "for every byte slice", "why_tests_cant": "all lengths and contents", "anchors": ["src/stream/runtime.rs: write_bytes", "src/stream/mod.rs: write_transaction, write_bytes"]}
{"id": "C49", "title": "Stream runtime bootstrap", "statement": "Initialisation takes over the runtime structure supplied by the probe exactly when the full bootstrap sequence is present at the start of the buffer, consumes the sequence so that a second initialisation does not see it, and otherwise starts with empty cursors and the configured size.", "quantifier": "for every memory contents", "why_tests_cant": "all buffer contents including partial matches", "anchors": ["src/stream/mod.rs: init"]}
{"id": "C50", "title": "Fiber future resolves with the fiber's result", "statement": "The future returned for a fiber becomes ready with exactly the value the fiber completes with, once, and polling it is always defined.", "quantifier": "for every fiber behaviour, every history of thread resumes, polls and close", "why_tests_cant": "needs poll after close / after completion", "anchors": ["src/fib/future.rs: add_rx, FiberFuture::poll, close"]}
{"id": "C51", "title": "Fiber streams respect their overflow policy", "statement": "A saturating pulse stream reports min(total, maximum) pulses; a saturating value stream drops exactly the values that do not fit; an overwriting stream drops the oldest; a try stream ends with the overflow error; a completed fiber's last value or error is the last item.", "quantifier": "for every fiber behaviour and every interleaving (at operation level) of thread resumes and receives", "why_tests_cant": "unbounded histories and overflow boundaries", "anchors": ["src/fib/stream_pulse.rs: add_rx, add_saturating_pulse_stream", "src/fib/stream_ring.rs: add_rx, add_rx_overwrite"]}
{"id": "C52", "title": "Process loop protocol", "statement": "The stackful command loop always receives a command when it waits for a command and a request result when it waits for a request result; each cmd call returns the result of that command.", "quantifier": "for every behaviour of the loop and of the request handler, every sequence of cmd calls", "why_tests_cant": "needs a failing request followed by another command", "anchors": ["src/proc_loop.rs: Sess::cmd, In, Out"]}
{"id": "C53", "title": "Inventory tokens are accounted", "statement": "Through any sequence of share/merge/guard/teardown calls, the counter in the inventory type equals the number of outstanding tokens; the item can be torn down or freed only with no outstanding token; a borrowed token is available only while the item is active.", "quantifier": "for every sequence of type-correct calls", "why_tests_cant": "type-level protocol over unbounded sequences", "anchors": ["src/inventory.rs: Inventory::new, free, guard, teardown, share*, merge*, inventory_token"]}
{"id": "C54", "title": "Critical sections nest", "statement": "While any critical-section handle is alive interrupts are disabled; after all handles are dropped the interrupt state is the one before the first was created.", "quantifier": "for every sequence of creating and dropping handles (any drop order)", "why_tests_cant": "needs non-LIFO drop orders", "anchors": ["src/platform/interrputs.rs: Interrupts::pause, paused, Drop"]}
{"id": "C55", "title": "Software atomics equal hardware atomics", "statement": "A read-modify-write through the critical-section atomics and through the compare-exchange loop have the same result and the same effect on the cell; a try-modify that declines leaves the cell unchanged and returns the value it saw.", "quantifier": "for every cell value, update function, interference and number of spurious failures", "why_tests_cant": "interference between load and exchange", "anchors": ["src/sync/soft_atomic.rs: modify, try_modify, swap", "src/atomic_macros.rs"]}
{"id": "C56", "title": "Conditional compilation variants cover every configuration", "statement": "Transposing a list of conditionally compiled items yields variants such that under every configuration exactly one variant is active and it contains exactly the items whose condition holds.", "quantifier": "for every list of conditions and every configuration (truth assignment)", "why_tests_cant": "exponentially many configurations", "anchors": ["macros-core/src/cfg_cond.rs: CfgCond::transpose, to_dnf, add_clause, attrs"]}
{"id": "C57", "title": "Closure fibers run to completion once", "statement": "A fiber built from a closure is called once per resume until it completes, its completion value is returned exactly once, after which any resume panics without calling the closure; a once-fiber calls its closure exactly once.", "quantifier": "for every closure behaviour, every number of resumes", "why_tests_cant": "unbounded number of resumes", "anchors": ["src/fib/closure.rs: FiberFn::resume, FiberOnce::resume, advance", "src/fib/generator.rs: FiberGen::resume, advance"]}
{"id": "C58", "title": "Executor fiber polls until ready", "statement": "A future attached to a thread is polled exactly once per resume with the thread's own waker until it is ready, its output is consumed once, an error output panics, and it is not polled afterwards.", "quantifier": "for every future behaviour, every number of resumes", "why_tests_cant": "unbounded number of resumes", "anchors": ["src/thr/exec.rs: add_exec_factory, ExecOutput", "src/thr/soft/wake.rs"]}
{"id": "C59", "title": "Pulse receiver wakeups are not lost", "statement": "If the latest poll of the pulse receiver returned pending and pulses or an error are then sent, or the sender is dropped, on an open channel, the waker passed to that poll has been woken when the sender's call returns.", "quantifier": "for every interleaving of the two ends at atomic-access granularity, every number of polls and sends, every choice of wakers", "why_tests_cant": "depends on a send landing between the steps of a poll and on the waker changing between polls", "anchors": ["src/sync/spsc/pulse/receiver.rs: poll_next", "src/sync/spsc/pulse/sender.rs: send, saturating_send, send_err, Drop"]}
{"id": "C60", "title": "Ring channel loses and leaks nothing when both ends are gone", "statement": "When both ends of a ring channel have been dropped the shared object has been released exactly once, no value, error or waker is left in it, and the successfully sent values are, counted with multiplicity, exactly those received, those handed back by overwriting sends and those dropped.", "quantifier": "for every interleaving of the two ends, every sequence of operations, every capacity below the maximum", "why_tests_cant": "depends on which end leaves last and on what is pending then; unbounded histories", "anchors": ["src/sync/spsc/ring/sender.rs: Drop, send_err", "src/sync/spsc/ring/receiver.rs: Drop, drop_values"]}
{"id": "C61", "title": "Ring errors and end of stream", "statement": "An error sent to a ring channel is handed out at most once and after all values; the end is reported only when nothing is pending and the sender left or the channel is closed, and nothing is received after it; emptiness is reported only when nothing is pending on an open channel with a live sender; is_terminated is true exactly when the next receive would report the end.", "quantifier": "for every interleaving of the two ends, every sequence of operations, every capacity below the maximum", "why_tests_cant": "unbounded histories; the state can change between any two accesses", "anchors": ["src/sync/spsc/ring/sender.rs: send_err, Drop", "src/sync/spsc/ring/receiver.rs: try_next, poll_next, is_terminated"]}
{"id": "C62", "title": "Generated identifiers are usable and distinct", "statement": "The name of a register block, register or field, after snake-case conversion, becomes an identifier that is not a reserved word, and different names become different identifiers.", "quantifier": "for every name", "why_tests_cant": "unboundedly many names; the failing ones are a handful of words", "anchors": ["macros-core/src/unkeywordize.rs: unkeywordize"]}
{"id": "C63", "title": "Register token index is complete and free of duplicates", "statement": "The index of an application that uses a chain of register token macros has one field for every register enabled by the cfg attributes of its block, minus those excluded by the application, with the token type of that register, whatever the number of crates in the chain; the chain of macros always expands.", "quantifier": "for every chain of crates, every block and register list, every cfg configuration of every crate, every exclusion list", "why_tests_cant": "exponentially many configurations, unbounded chains; one test build sees one configuration", "anchors": ["macros/src/reg_tokens.rs", "macros/src/reg_tokens_inner.rs"]}
{"id": "C64", "title": "Register tokens prevent lost updates", "statement": "If safe code moves, lends, splits, converts and copies the tokens of one register between contexts in any way, then every finished update of the register worked on the content the update before it left, and during an unsynchronized update no other context can access the register.", "quantifier": "for every sequence of token operations and accesses, every number of contexts, every set of fields and variants", "why_tests_cant": "the guarantee is about all programs the type checker accepts; a lost update needs a preemption between a load and a store", "anchors": ["src/reg/mod.rs: into_unsync, into_sync, into_copy, modify, store", "src/reg/field.rs: into_copy", "src/reg/tag.rs", "macros/src/reg.rs"]}
{"id": "C65", "title": "Futures run by software threads are never stuck", "statement": "Whenever nothing runs, every future started with exec (or polled once) has completed or waits for an event that has not occurred; a future completes only when all events it awaits have occurred, and is never polled after completion.", "quantifier": "for every pool of at most 32 threads, every assignment of priorities, every set of futures awaiting any number of events, every interleaving of events, interrupts, polls and scheduler accesses", "why_tests_cant": "an event must arrive between the poll of a future and the end of its thread body", "anchors": ["src/thr/exec.rs: exec, add_exec_factory", "src/thr/soft/wake.rs", "src/thr/soft/mod.rs: set_pending, preempt, row_run, row_next", "src/thr/mod.rs: Thread::resume, Thread::call"]}
{"id": "C66", "title": "Objects in the global allocator keep their contents", "statement": "A program that allocates, zero-allocates, writes, reallocates and deallocates through the GlobalAlloc implementation of a heap never causes undefined behaviour, every object keeps the bytes written to it (also over reallocation, as far as both sizes reach) and a zeroed object starts with zeros; objects never overlap; a request is refused exactly if all blocks that are large enough are in use; the traced live bytes are the size of the objects plus the refused requests.", "quantifier": "for every legal pool configuration, every history of operations, every initial memory", "why_tests_cant": "unbounded histories of allocations with a free list stored inside the freed memory", "anchors": ["macros/src/heap.rs: GlobalAlloc", "src/heap/mod.rs: Allocator::allocate, deallocate", "src/heap/pool.rs"]}
{"id": "C67", "title": "Heap start-up copies exactly the heap section", "statement": "heap init makes every byte of the heap section equal to its load image and changes no other byte.", "quantifier": "for every section length and position, every pointer width", "why_tests_cant": "wrong only for lengths and pointer widths that the test target does not have", "anchors": ["macros/src/heap.rs: init"]}
{"id": "C68", "title": "Compare-exchange loops behave as single updates", "statement": "With feature atomics the state word of a channel or of the software thread pool is updated by a load and a loop of compare-exchanges that may fail, also spuriously. The possible outcomes (final state with its history, or undefined behaviour) are exactly those of the program in which each update is one indivisible step.", "quantifier": "for every interleaving of any length, every pattern of failures, every call history", "why_tests_cant": "a lost race needs a preemption between the load and the compare-exchange", "anchors": ["src/atomic_macros.rs: load_atomic, modify_atomic", "src/sync/spsc/oneshot, pulse, ring", "src/thr/soft.rs: SoftThread"]}
{"id": "C69", "title": "Peripheral macros fit together", "statement": "If a periph::map! or periph::singular! follows the documentation of periph! (optional parts may be absent), both macros expand, and in every configuration the code compiles: the generated macro gives a value of the right type to every field of the peripheral struct exactly once, and every trait that is required is implemented exactly once with agreeing associated types.", "quantifier": "for every peripheral declaration, every mapping of it, every cfg configuration", "why_tests_cant": "exponentially many configurations, each needs a compiler run", "anchors": ["macros/src/periph.rs", "macros/src/periph_map.rs", "macros/src/periph_singular.rs", "src/periph.rs"]}
{"id": "C70", "title": "Fields of a mapped register convert without loss", "statement": "from_fields and into_fields of a mapped register compile in every configuration and are inverses of each other, the accessor methods give the same fields as into_fields, and into_{variant} calls a conversion that reg! defines.", "quantifier": "for every list of fields, every mapping to the fields of a register, every cfg configuration, every register name", "why_tests_cant": "exponentially many configurations and combinations of absent fields", "anchors": ["macros/src/periph_map.rs", "macros/src/periph.rs", "macros/src/reg.rs"]}
{"id": "C71", "title": "Printed text reaches the probe", "statement": "Whatever contexts execute print!, println!, eprint!, eprintln! and dbg! and preempt each other, the probe obtains, on every enabled stream, a merge of the texts of the contexts, complete when they are done, in order, without panics; the text of a macro is the text that format! gives for the same arguments.", "quantifier": "for every interleaving of any number of contexts with the probe, every buffer size, every program of print macros, every format string", "why_tests_cant": "the interleaving with the probe happens at memory-access granularity; unbounded text and format strings", "anchors": ["src/stream/macros.rs", "src/stream/mod.rs: write_str, write_fmt, Stream", "src/stream/runtime.rs: GlobalRuntime, LocalRuntime"]}
{"id": "C72", "title": "Thread-local storage is used only by its thread", "statement": "A reference to the thread-local storage of a thread (which need not be Sync) is used only by code of this thread, whatever threads, interrupt handlers, fibers and fiber factories do in safe code.", "quantifier": "for every program of thread calls, preemptions, returns, local() calls, fibers and fiber factories, every number of pools and threads", "why_tests_cant": "needs a preemption at the right moment, or a fiber that is created by one thread and run by another", "anchors": ["src/thr/mod.rs: ThrToken, LocalOpaque, Thread::call, add_fib, add_fib_factory, local, local_checked", "macros/src/thr_pool.rs: pool!"]}
{"id": "C73", "title": "Static tokens give exclusive access", "statement": "If no leaf token is instantiated twice, a reference to a static obtained from its token is exclusive as long as it is usable: no other access to the static takes place and its content stays. This is exactly the contract needed: otherwise safe code can obtain two mutable references to one static. A static whose type is not Send is used from one context only.", "quantifier": "for every program of take, split, join, move, get, into_static, read, write and drop, every number of contexts and statics", "why_tests_cant": "all programs accepted by the type checker; aliasing is undefined behaviour that tests do not observe", "anchors": ["src/token.rs", "macros/src/static_tokens.rs", "macros/src/simple_tokens.rs", "macros/src/simple_token.rs"]}
{"id": "C74", "title": "derive(Bitfield) gives a record of fields", "statement": "The methods that derive(Bitfield) generates compile, never panic, and behave as a record of independent numbers: every sequence of calls returns what the record returns and leaves other bits alone; two methods never have one name.", "quantifier": "for every integer size, every list of fields with any mode, offset and width, every sequence of calls", "why_tests_cant": "unbounded field lists and call sequences, each needs a compiler run", "anchors": ["macros/src/bitfield.rs", "src/bitfield/mod.rs"]}
{"id": "C75", "title": "Thread pool macros give one thread per token", "statement": "The code of thr::pool! and thr::soft! compiles whatever parts of the declaration a configuration disables, and every thread token refers to its own element of the thread array, which was constructed with the position of the thread.", "quantifier": "for every declaration, every configuration, every number of threads", "why_tests_cant": "exponentially many configurations, each needs a compiler run", "anchors": ["macros/src/thr_pool.rs", "macros/src/thr_soft.rs", "src/thr/mod.rs: ThrToken::to_thr"]}
{"id": "C76", "title": "reg! gives a register whose operations act on exactly the named fields", "statement": "The code of reg! compiles whatever fields and variants a configuration disables, and the operations of the tokens behave as the documentation says: the register is a record of numbers, store starts with the reset values, modify and field operations with the current ones (write-only registers: with the reset values), fields that are not named and bits outside of the fields stay, nothing panics.", "quantifier": "for every declaration, configuration, content of the register, closure and sequence of operations", "why_tests_cant": "unbounded declarations and closures, each needs a compiler run; the example test runs on one register", "anchors": ["macros/src/reg.rs", "src/reg/mod.rs: Reg, RReg, WReg, WRegUnsync, WRegAtomic, RwRegUnsync", "src/reg/field.rs", "src/reg/atomic.rs", "src/reg/soft_atomic.rs"]}
{"id": "C77", "title": "Shared memory is accessed without data races, by the orderings of the source", "statement": "In the C++20 memory model (happens-before from the Acquire, Release and Relaxed orderings written in the source, old values for relaxed loads), every two conflicting accesses to the shared object of a component, one of which is not atomic, are ordered, including the release of the object.", "quantifier": "for every schedule of the threads and every value that relaxed loads are allowed to return", "why_tests_cant": "races depend on orderings that the test machine does not reorder; loom explores bounded schedules of fixed programs", "anchors": ["src/sync/spsc/oneshot/sender.rs", "src/sync/spsc/oneshot/receiver.rs", "src/sync/spsc/pulse/sender.rs", "src/sync/spsc/pulse/receiver.rs", "src/sync/spsc/ring/sender.rs", "src/sync/spsc/ring/receiver.rs", "src/sync/spsc/mod.rs", "src/atomic_macros.rs"]}
{"id": "C78", "title": "List nodes are published with the orderings that their readers need", "statement": "In the C++20 memory model, with the orderings of the source, the accesses to the nodes of a linked list (links, filter calls, moving values out, releasing nodes) are never in a data race, whatever contexts push while another one pops or drains.", "quantifier": "for any number of pushing contexts and one removing context, every schedule, every spurious failure of a compare-exchange, every value that relaxed loads are allowed to return", "why_tests_cant": "races depend on orderings that the test machine does not reorder; loom explores bounded schedules of fixed programs", "anchors": ["src/sync/linked_list.rs: push_raw, pop_raw, pop, drain_filter_raw, DrainFilterRaw::next, DrainFilterRaw::cut_out", "src/atomic_macros.rs", "src/fib/chain.rs"]}
{"id": "C79", "title": "The mutex orders the accesses to the data and to waiter nodes", "statement": "In the C++20 memory model, with the orderings of the source, the accesses of guard owners to the protected data, the accesses to the waiter nodes (flag, waker), and the release of the nodes are never in a data race.", "quantifier": "for any number of clients that lock, use, unlock, poll and drop futures, every schedule, every value that relaxed loads are allowed to return", "why_tests_cant": "races depend on orderings that the test machine does not reorder; loom explores bounded schedules of fixed programs", "anchors": ["src/sync/mutex.rs: try_lock, unlock, poll_lock, Waiter::take, Waiter::is_taken, Waiter::drop, MutexLockFuture::drop", "src/sync/linked_list.rs: push_raw, drain_filter_raw, iter_raw"]}
{"id": "C80", "title": "Marker traits of register tokens say what the tokens are", "statement": "A token of a register or field that is declared as documented implements exactly the marker trait (URwReg, SRwRwRegFieldBit, \u2026) for its tag, its access and its width, and generic code bounded by a marker trait can use all operations of that kind.", "quantifier": "for every declaration, tag, field, marker trait and configuration of the feature atomics", "why_tests_cant": "about 60 traits with hand-written where clauses, each combination needs a compiler run; the compile tests cover a few", "anchors": ["src/reg/marker.rs", "src/reg/tag.rs", "src/reg/field.rs", "src/reg/atomic.rs", "src/reg/soft_atomic.rs", "src/reg/mod.rs"]}
{"id": "C81", "title": "The owner of a heap block has it for itself, by the orderings of the source", "statement": "In the C++20 memory model, with the orderings of the source, the accesses of the pool to the links in free blocks and the accesses of the owners to their blocks are never in a data race, and no block has two owners, also if atomic loads return old values.", "quantifier": "for every pool, any number of allocating and deallocating contexts, every schedule, every value that loads are allowed to return", "why_tests_cant": "races depend on orderings that the test machine does not reorder; loom explores bounded schedules of fixed programs", "anchors": ["src/heap/pool.rs: Pool::allocate, Pool::deallocate, Pool::allocate_free, Pool::allocate_uninit", "src/atomic_macros.rs"]}
{"id": "C82", "title": "Software threads see the requests and the data of other contexts, by the orderings of the source", "statement": "In the C++20 memory model, with the orderings of the source: a thread that the scheduler resumes sees what other contexts wrote before they set it pending (no data races), the scheduler finds every request of a level that it has taken from the header, and no request gets lost.", "quantifier": "for any number of threads, priorities and requesting contexts, every schedule, every value that relaxed loads are allowed to return", "why_tests_cant": "a lost wakeup needs a stale relaxed load on a weakly ordered machine, between two specific accesses", "anchors": ["src/thr/soft/mod.rs: will_preempt, set_pending, preempt, row_start, row_run, row_next, clear_pending", "src/atomic_macros.rs"]}
{"id": "C83", "title": "Declaration macros read exactly what is written", "statement": "heap!, stream!, thr::pool! and thr::soft! accept exactly the semicolon-separated listings of their keys, in any order, each key at most once, the required ones all present and attributes only where they are kept; the declaration has the values that are written. What thr::soft! hands over to thr::pool! declares the same types, index, threads and fields, after a field for the priority.", "quantifier": "for every sequence of tokens and every declaration", "why_tests_cant": "a test sees single inputs; the claim is an equivalence over all texts, including which ones are rejected", "anchors": ["macros/src/heap.rs: Parse for Input", "macros/src/stream.rs: Parse for Input", "macros/src/thr_pool.rs: Parse for Input, Thr, Local, Field, Index, Threads", "macros/src/thr_soft.rs: Parse for Input, def_pool"]}
{"id": "C84", "title": "Register macros read exactly what is written, and conditions mean what they say", "statement": "reg!, reg::tokens!, periph!, periph::map!, periph::singular!, token::simple_token!, token::simple_tokens! and token::static_tokens! accept exactly the texts of their grammars and take the names, numbers, attributes and conditions that are written. The condition taken from #[cfg(..)] holds in the configurations in which the written predicate holds; other attributes in its place are rejected.", "quantifier": "for every sequence of tokens, every declaration and every configuration", "why_tests_cant": "a test sees single inputs; the claim is an equivalence over all texts, including which ones are rejected, and over all configurations", "anchors": ["macros/src/reg.rs: Parse for Input, Variant, Field", "macros/src/reg_tokens.rs: Parse for Input, Block, Reg", "macros/src/periph.rs: Parse for Input, Block, Reg, Variant, Field", "macros/src/periph_map.rs: Parse for Input, Block, Reg, Variant, Field", "macros/src/periph_singular.rs: Parse for Input, Block, Reg, Field", "macros/src/simple_token.rs: Parse for Input", "macros/src/simple_tokens.rs: Parse for Input, Token", "macros/src/static_tokens.rs: Parse for Input, Token", "macros-core/src/cfg_cond.rs: Parse for CfgCond"]}
{"id": "C85", "title": "Calls return after a bounded number of accesses", "statement": "Every call on a channel, the mutex, the heap, the list and the scheduler of software threads returns after a number of its own accesses to shared memory that depends on the call only (for the mutex and the drain of a list also on the number of nodes, for the drop of a ring receiver on the capacity, for the scheduler on the number of threads). Without atomics this holds whatever other contexts do. With atomics each spurious failure and each change of the word by another context between a load and the compare-exchange may add a repetition, nothing else. The numbers cannot be lowered.", "quantifier": "for every reachable state, every call, any number of other contexts, every schedule", "why_tests_cant": "a test observes one schedule; an interrupt handler needs the worst case over all schedules", "anchors": ["src/atomic_macros.rs", "src/sync/spsc/oneshot/sender.rs", "src/sync/spsc/oneshot/receiver.rs", "src/sync/spsc/pulse/sender.rs", "src/sync/spsc/pulse/receiver.rs", "src/sync/spsc/ring/sender.rs", "src/sync/spsc/ring/receiver.rs", "src/heap/pool.rs", "src/sync/linked_list.rs", "src/sync/mutex.rs", "src/thr/soft/mod.rs: set_pending, preempt, row_start, row_run, row_next"]}
{"id": "C86", "title": "Contexts that share the heap get what is there", "statement": "An allocation fails only if at some moment of the call no pool with blocks of at least the requested size had a block to give. Blocks that are handed out have the length that is told, at least the requested one; they have one owner, do not overlap, lie in the heap, and deallocate finds their pool.", "quantifier": "for every heap configuration, any number of contexts, every schedule of their accesses, both builds", "why_tests_cant": "spurious failures need a release between two specific accesses of an interrupted allocation", "anchors": ["src/heap/mod.rs: allocate, deallocate", "src/heap/pool.rs: Pool::allocate, Pool::deallocate, pool_range_by_layout, pool_by_ptr"]}
{"id": "C87", "title": "Mutex waiters are served in turn", "statement": "While a future waits for the lock, the number of others that are woken before it is bounded: no future waits for ever while others get the lock again and again.", "quantifier": "for every number of clients, every schedule of any length", "why_tests_cant": "starvation needs an unbounded run; a test sees a finite one", "anchors": ["src/sync/mutex.rs: unlock, poll", "src/sync/linked_list.rs: push_raw, iter_raw"]}
{"id": "C88", "title": "A task that awaits a oneshot channel gets the value, end to end", "statement": "A future run by a software thread that awaits the receiver of a oneshot channel goes on with exactly the value that was sent, or with Canceled if the sender was dropped; when nothing runs, every started task has completed or awaits a receiver whose sender was neither used nor dropped; the threads come to rest after finitely many accesses, so that all tasks do complete once their senders have left; there is no undefined behaviour.", "quantifier": "for any number of threads, tasks and channels, all priorities, every interleaving of the accesses of both ends of the channels, of set_pending and of the scheduler", "why_tests_cant": "a lost wakeup needs an interrupt between two specific accesses of three modules at once; the unit tests exercise each module alone", "anchors": ["src/thr/exec.rs", "src/thr/soft/mod.rs", "src/thr/soft/wake.rs", "src/sync/spsc/oneshot/sender.rs", "src/sync/spsc/oneshot/receiver.rs"]}
{"id": "C89", "title": "A task that reads a stream gets everything that is sent, end to end", "statement": "A task run by a software thread that reads channels one after the other (streams of the pulse and ring channels to their end, the value of a oneshot channel) goes past a channel only when the sender has left, and then has got everything that was sent: the value, the accepted pulses, the values of the ring in order apart from those that were overwritten, and the error. When nothing runs, every started task has completed or reads a channel whose sender is still there and from which it has got everything; the threads come to rest after finitely many accesses, so that all tasks do complete once their senders have left; there is no undefined behaviour.", "quantifier": "for any number of threads, tasks and channels of any kinds and capacities, all priorities, every interleaving of the accesses of both ends of the channels, of set_pending and of the scheduler", "why_tests_cant": "a lost wakeup or a lost item needs an interrupt between two specific accesses of three modules at once; the unit tests exercise each module alone", "anchors": ["src/thr/exec.rs", "src/thr/soft/mod.rs", "src/thr/soft/wake.rs", "src/sync/spsc/oneshot/", "src/sync/spsc/pulse/sender.rs", "src/sync/spsc/pulse/receiver.rs", "src/sync/spsc/ring/sender.rs", "src/sync/spsc/ring/receiver.rs"]}
{"id": "C90", "title": "Tasks that share a mutex get the lock, end to end", "statement": "Tasks run by software threads that take the lock of an asynchronous mutex, sleep with the guard and drop it, beside other clients of the mutex: at most one guard exists; a task that completes has had the lock as often as it asked for it; when nothing runs, every started task has completed, or has the guard and waits for a signal that has not occurred, or waits for a lock that somebody has who waits for such a signal or is no task; the threads come to rest after finitely many accesses; there is no undefined behaviour.", "quantifier": "for any number of threads, tasks, other clients and critical sections, all priorities, every interleaving of the accesses of the mutex, of set_pending and of the scheduler", "why_tests_cant": "a lost wakeup needs an interrupt between two specific accesses of three modules at once; the unit tests of the mutex use no thread of the library", "anchors": ["src/thr/exec.rs", "src/thr/soft/mod.rs", "src/thr/soft/wake.rs", "src/sync/mutex.rs", "src/sync/linked_list.rs"]}
{"id": "C91", "title": "Tasks that send to each other through rings complete, end to end", "statement": "One task run by a software thread sends values through the sink of a ring channel, waiting for room and for flushes, and drops the sender; another one reads the stream to its end. What is received is at any time the beginning of what was sent, in order; the threads come to rest after finitely many accesses, and when nothing runs, two such tasks that were both started have both completed, and everything has arrived; there is no undefined behaviour.", "quantifier": "for any number of threads, tasks and rings of any capacities, all priorities, all lists of values and flushes, every interleaving of the accesses of both ends, of set_pending and of the scheduler", "why_tests_cant": "a deadlock of the two ends or an overwritten slot depends on priorities and on the moment of a wakeup; the unit tests of the ring use no thread of the library", "anchors": ["src/thr/exec.rs", "src/thr/soft/mod.rs", "src/thr/soft/wake.rs", "src/sync/spsc/ring/sender.rs: poll_ready, start_send, poll_flush, drop", "src/sync/spsc/ring/receiver.rs: poll_next, take_value, drop"]}
