# Formal model of drone-core: design

## Layout

* `properties.jsonl` – the properties, in API terms.
* `lean/Verif/<Area>/…Model.lean` – executable model, one definition per Rust
  function, each citing file and lines of `/repo`.
* `lean/Verif/<Area>/…Spec.lean` – small specification vocabulary used to state
  the properties (where the statement needs more than plain Lean).
* `lean/Verif/<Area>/…` other files – helper lemmas and invariants.
* `lean/Verif/<Area>/…Props.lean` (`Props2`, `ConcProps`, `TraceProps`) – the
  property theorems, named `Cnn_…`, each followed by an `example` that meets
  its hypotheses.
* `MANIFEST.json` – property → theorem names.
* `seeded/LOG.jsonl` – log of seeded faults: what was edited in the model, which
  theorems stopped proving.

Suffix conventions: `…_partial` is a theorem that covers only part of a
property, its comment says what is missing; `…_false…` is a machine-checked
refutation of the full property with a concrete witness history. Where a
property is false the `_partial` theorem states the largest class of histories
for which it could be proved, in several places with a matching "only if".

## Trusted base

* Lean 4.33.0 kernel. No `native_decide`, `bv_decide`, own axioms, `sorry`.
* Axioms: at most `propext`, `Classical.choice`, `Quot.sound` (table at the end).
* The reading of the Rust source: models were written by hand from the text of
  `/repo` (nothing was compiled or run). Every definition cites its lines.
  As a check of this reading, the models of the channels, the mutex, the list
  and the pool are compared with the results recorded in the repository's own
  loom tests: see "Comparison with the loom tests" below.
* Sequential consistency of the modelled atomic accesses, except in C77, where
  the memory orderings (`Relaxed`, `Acquire`, …) of the source are modelled; the
  target is single-core with preemption, where program order is what another
  context observes. The
  interleaving models allow arbitrary alternation of contexts, which is more
  than nested preemption (except `Soft`, where nesting is modelled exactly).
* The Rust type system is trusted for ownership facts: `&mut self` operations
  of one channel end are not concurrent with each other, a consumed sender is
  not used again, `unsafe` preconditions documented in the API are respected
  by callers (they appear as explicit hypotheses).
* External parts with an assumed contract: the probe and the constants of the
  `drone_stream` crate (`Stream`), the platform functions that save and restore
  interrupts (`Platform`), the stackful fiber of platform crates (`ProcLoop`),
  `HashMap` (`CfgCond`: entries in arbitrary order), `typenum` arithmetic
  (`Inventory`), the global allocator as used by `Box`/`Arc` (allocation never
  fails, addresses are not reused in the channel, list and mutex models; the
  list model for C17 does reuse addresses, which is where ABA comes from).

## Configurations

The crate has two builds. With feature `atomics` every read-modify-write is a
load followed by `compare_exchange_weak` in a loop (`src/sync/…`,
`atomic_macros`). Without it, it is a closure run with interrupts disabled
(`src/sync/soft_atomic.rs`). On one core the second build makes each
read-modify-write one atomic step. Where the two differ observably (heap pool,
linked list, register modify) both are modelled; elsewhere one read-modify-write
is one atomic step, justified by C04 and C55 (`Verif/Atomic`).

Word widths, numbers of blocks, capacities, numbers of threads and clients are
parameters of the models; theorems hold for all of them except where stated
(`Soft`: the positive theorems need at most 32 threads, because the code is
wrong above).

## Comparison with the loom tests

The repository has exhaustive interleaving tests (`src/sync/**/test*`, with the
loom tool) which list every outcome that occurs. `Verif/{Oneshot,Pulse,Ring,
Mutex,Heap,LinkedList}/Loom.lean` run the same test programs on the models,
explore all interleavings and compare the outcomes with the tables of the
repository. These are evaluated checks (`#guard`), not proofs; no theorem
depends on them. All tables agree, with these exceptions. Each is an outcome
that the models have and loom does not report, because its exploration remembers
only the last access to an object, so that a thread's own load hides an earlier
access with which another thread could be exchanged:

* oneshot, `loom_recv_cancellation`: key 22 with sender state 0;
* pulse, `loom_next_cancellation`: key 23 with sender state 0;
* ring, `loom_next_poll_close`: key 23 with sender state 0, and
  `loom_send_next_persistent`: key 1200 with sender state 0 (some entries of its
  table never occur, the test does not ask for that);
* mutex, `loom_lock`: values 101;
* list, `loom_drain_filter_raw`: the value is pushed before the drain loads the
  head; line 155 of that test would panic in this interleaving.

The undefined behaviour of findings 9, 12 and of C17 occurs in interleavings of
these test programs too. Loom does not see it, because only atomics and not the
memory they guard are tracked there. As in loom, the ring and mutex programs are
interrupted only before atomic accesses.

`Verif/Loom/Unit.lean` does the same for the ordinary tests: each `#[test]` of `tests/bitfield.rs`, `tests/future.rs`,
`tests/soft_threads.rs`, `tests/threads.rs` and of the test modules in `src/` that does not need a compiler is an `example` on
the models with the expected values of the test.

## What is modelled, per property

### Registers: `Bitfield`, `Atomic`

* **C01–C03** `bitfield.rs` default methods on `BitVec w`, any `w`; a shift by
  the word width or more is an explicit panic value. Bit extensionality;
  induction over the history of writes.
* **C04, C55** Threads that load, compute, compare-exchange (with spurious
  failures) and retry; a log of commits. Invariant over all schedules: the cell is
  the fold of the commit log; each finished call occurs once. C55 also has the
  critical-section version and solo progress.
* **C68** `Refine*`: a generic machine whose updates of one word are made either
  in one step or by load and compare-exchange loop (`after` is the one-step
  result); a lawful machine has the same outcomes both ways (forward and
  backward simulation). Instances for oneshot, pulse, ring and software threads.
  The waiter list of the mutex is covered by C16/C17.

### Heap: `Heap`

* **C05–C07, C09, C10, C12, C13** Pools with a byte memory (address → byte) and a
  free list threaded through the memory words, exactly as in `heap/pool.rs`;
  `allocate`, `deallocate`, `grow`, `shrink`, zeroed variants of `heap/mod.rs`,
  binary search over the pools. Invariant: the free list in memory is a
  duplicate-free list of block addresses, live blocks are the rest.
* **C08** Refuted; proved if pool base and block size are multiples of the
  alignment. `C08_exact`: a configuration is right for a layout if and only if all
  blocks that are long enough are aligned (a history that fills the pools reaches
  each of them).
* **C11** `ConcModel`: any number of contexts, one step per memory access or
  compare-exchange, both builds. The lock-free build is right as long as no block
  comes back to the free list while another context is about to compare-exchange
  with it (`C11_no_return_partial`).
* **C14** `Trace`: the bytes written for each call, and a decoder.
* **C66** `Global*`: the `GlobalAlloc` methods generated by `macros/src/heap.rs`
  and the provided methods of the trait (`alloc_zeroed`, `realloc`), programs as
  histories of calls and writes; compared with an ideal store of objects.
* **C67** `initCopy`: the copy of the heap pools from the load image at start-up.

### Lists: `LinkedList`

* **C15, C18** Node heap with `next` pointers; refinement to `List`. Resuming a
  thread is a drain whose filter is the advance of the fiber, with additions
  during the drain.
* **C16, C17** Interleavings at single access granularity, both builds, address
  reuse. `ConcPops`: with atomics, overlapping pops are right if no node is
  released while another pop is about to read its link and no node is published
  at an address another pop is about to compare-exchange with.

### Channels: `Spsc`, `Oneshot`, `Pulse`, `Ring`

* **C19–C23, C24–C28, C59, C29–C35, C60, C61** Both ends as program counters, the
  shared word (8 bits for oneshot, any width for the others), data cells, waker
  cells, the error cell, and whether the shared object is released. One step is
  one access. Reading an empty waker cell, a slot without value or anything in
  a released object is undefined behaviour (`none`). A log of events newest first;
  the properties are statements about the log. One large invariant per channel
  links word, cells, program counters and log.

### Mutex: `Mutex`

* **C36–C39** Any number of clients (a lock future with guards), the waiter list,
  nodes with `taken` flag and waker. One step is one access; removal of a node
  from the list is one step (C16).

### Threads: `Soft`

* **C40–C45** Pending array, header word, priorities, current-thread index, and
  the stack of calls in progress; interrupts may push a new call at any step.
  `Soft/Irq.lean` is the invariant for interrupted requests. `Soft/FixModel.lean`
  is the scheduler with one change, no `- 1` in line 273 of `row_next`; the
  `_repaired` theorems are about it and say that this expression is the only cause of
  the forgotten requests (finding 18). It is not a model of the code.
  `Soft/Header.lean` is the part of the invariant that does not depend on the pool size, `Soft/Reach.lean` bounds the cell pointer.
  `Soft/Wide*.lean` are the invariants for pools of every size: `WideModel` has both
  repairs of `row_next`, `WideQuiet` is about the code as it is.
  `Soft/Level.lean` (C44) is about a thread as a whole: pending at its own level
  only, if its priority is changed only while it is not pending.
* **C65** (`Exec`) Futures on top of `Soft`: tasks awaiting one-shot signals, wakers
  as thread indices, the `drain` of a thread as the list of fibers still to
  resume. A poll of one signal is one step; the wake it causes is a `Soft`
  request made access by access. Every step is at most one step of `Soft`.

### Fibers: `Fib`

* **C57, C58** Closures, generators and futures as arbitrary functions of their state.
* **C50, C51** The generator loops of `fib/future.rs`, `fib/stream_ring.rs`,
  `fib/stream_pulse.rs` composed with the channel models. A composite step is at
  most one channel step, so the channel theorems carry over.

### Others

* **C46–C49** `Stream`: the buffer and its two cursors, writers one access per
  step, the probe as a second context; the split of long writes; bootstrap.
* **C52** `ProcLoop`: the `cmd` future as a state machine over an arbitrary
  synchronous program. The log of a run is shown to be a sequence of complete
  commands, each agreeing with the program.
* **C53** `Inventory`: programs as sequences of type-correct calls; the borrow
  checker and the type-level counter decide which calls are possible.
* **C54** `Platform/Irq`: the interrupt word and the live handles.
* **C56** `CfgCond`: conditions, the attributes emitted, `to_dnf`, `transpose`
  for every iteration order of the hash map, and the meaning of `cfg` predicates.

* **C62, C63** `Macros`: the word list; the `macro_rules!` chain that collects
  register definitions crate by crate, with `cfg` evaluated per crate, and the
  index structure built from it. C63 by induction over the chain.
* **C64** `Regs`: programs as sequences of type-correct token operations of any
  number of contexts on one register (which operations are possible is decided
  by ownership, borrows and the tag). Invariant: affine tokens are unique per
  field, exclude copies of the field and other variants; a pending unsynchronized
  update excludes everybody else.

* **C69, C70** `Periph`: `periph!`, `periph::map!` and `periph::singular!` as functions
  from parsed input to the traits, implementations, struct fields and macro arms
  they emit, with conditions. Compilation is modelled as: one compiled item per
  name, required traits implemented, associated types equal, struct literals
  and patterns with exactly the fields of the struct. Simplified: names are
  lists of parts (their concatenation is C62/C63), identifiers are given in snake case,
  one tag, the mapping lists its parts in the order of the declaration, marker
  traits are omitted.
* **C71** `Print`: the print macros as programs of `write_str`/`write_fmt` calls on top of
  the model of C46–C49; format strings are lists of literal pieces, escaped braces and
  arguments. Delivery is proved by tagging every transaction with its context.
* **C72** `Local`: the stack of active threads and handlers, the `CURRENT` static of every
  pool, handles of local storage in stack frames and in fibers. Invariant: `CURRENT` of a
  pool names its innermost active thread. Simplified: contents of the storage and
  `Send` payloads are omitted.
* **C73** `Token`: programs as sequences of type-correct operations on token values and
  references. Invariant: the number of occurrences of a leaf in all values is bounded by the number
  of its instantiations.
* **C74** `Bitfield/Derive`: the derive macro as a function from the field list to methods (name
  and body), calls by name; refinement of a record. Compilation means distinct method names.
* **C75** `Pool`: the two macros as functions to structs, implementations, struct literals and number
  literals with conditions; acceptance by the compiler as in C69. The case conversion of
  identifiers is an arbitrary function.
* **C76** `Regs/Def*`: `reg!` as a function to imports, structs, implementations, constructor and
  methods with conditions; acceptance by the compiler as in C75, exactly characterised; calls by
  name through the generated methods; refinement of a record of numbers with the bits outside.
  The register is memory (no side effects of the device); conversions of the crate `heck` are
  arbitrary functions; the token has the tag the operation asks for.
* **C77** `Order`, `Oneshot/Order*`, `Pulse/Order*`, `Ring/Order*`: the interleaving models of the channels with the trace of their
  accesses, each with the ordering of the source; relaxed loads return any value that coherence
  allows. `Order/Model.lean` has release sequences, synchronises-with, happens-before and data races
  on such traces (modification order is trace order; no fences, no `SeqCst`, no consume). A
  read-modify-write macro is one access with the success ordering of its compare-exchange: loads
  before it and failed attempts could only order more. Creation of the ends, and user code that the
  wakers run, is outside of the trace. Partial: findings 44, 46; the required orderings are exactly
  characterised (`C77_oneshot_exact`, `C77_pulse_exact`, `C77_ring_exact`), so that a weaker one anywhere gives a race.
* **C78** `LinkedList/Order*`: the interleaving model of the list as such a machine (C77); a failed
  compare-exchange is a load with the first ordering of the macro and may return an old value. Any
  number of contexts push, one removes; addresses are not reused (ordering the accesses to two objects
  at one address is the allocator's duty). Proved by an invariant on the values of the head: what
  was published before a value is known to whoever acquires it. Partial: finding 47; the required
  orderings are exactly characterised (`C78_list_exact`).
* **C79** `Mutex/Order*`: the mutex model as such a machine; creating a node, destroying it and using the
  data are accesses of their own. Invariant: who holds the lock knows all accesses to the data; what was
  written to a node before its push is known to whoever acquires the list head. Partial: finding 48; all
  races are of that kind (`C79_mutex_partial`), and the orderings needed for this, and those needed for the
  data alone, are exactly characterised (`C79_mutex_exact`, `C79_mutex_data_exact`).
* **C80** `Regs/Marker*`: the traits as predicates, their blanket implementations as Horn clauses, what
  `reg!` (C76) implements as facts; the trait solver is the least set closed under the clauses. It is
  computed in four rounds because the clauses have no cycles, which turns the claims into finite tables
  over all tags, accesses, widths and features. Partial: findings 49 and 50, exact conditions proved.
* **C81** `Heap/Order*`: the pool of `ConcModel` as such a machine; owners read and write their blocks and
  pass them on through a release/acquire flag. Invariant: the allocating context knows all accesses to a
  block that is reachable from any value of `free` that it may still load. Partial: finding 51 and C11;
  without races exactly if one context allocates and the orderings are strong enough (`C81_pool_exact`). All
  schedules of `ConcModel` with one allocating context are among these (`C81_pool_covers`).
* **C82** `Soft/Order*`: the core of `Soft/Model` as context 0 of such a machine, with any number of contexts
  that write a message and set a thread pending. No races of the messages (`C82_data`), exactly if the cell is
  released by `set_pending` and acquired by `row_run` (`C82_data_exact`). The scheduler finds the requests of
  levels taken in `row_start` (`C82_found_partial`); of all levels exactly if `row_next` also acquires
  (`C82_found_exact`). Invariant for lost requests: a level taken is held by a scheduler loop in progress, others
  are in the header; none is lost unless taken in `row_next` (`C82_served_partial`), none at all exactly if
  `row_next` acquires (`C82_served_exact`). `C82_lost` is a run of the source's orderings with a lost request.
  `Coherent` is write-read coherence of C++20, stated with happens-before. Priorities do not change here.
  All schedules of `Soft/Model` without priority changes are among these (`C82_covers`).
* **C83** `Decl/*`: the `Parse` implementations of the four macros as functions on token lists (types,
  expressions and paths are one token each, braces are trees), the table of keys per macro, and `def_pool`.
  `Written` is the grammar: a permutation of the entries of a declaration, each spelled out, with semicolons
  between them. Each parser is shown to read exactly one form, whatever follows (`Reads`).
* **C84** `Gram/*`: the `Parse` implementations of the eight macros and of `CfgCond` as functions on token trees,
  function by function; paths, types, items and visibilities are one token each. The grammars are relations
  between declarations and texts (`Gram/Spec.lean`). `Sem p R` says that a parser reads `f` in front of `rest`
  iff `R a f rest`; it is proved for each parser by composition, with what the loops look at in `rest` (the
  `@` of the next variant, `#`, `;`, `!`). So the theorems are equivalences: no other text is accepted.
  Partial: finding 53; `C84_cfg_partial` has the exact condition.
* **C85** `Bound/*`: `Prog` is a program seen from one context: which accesses are its own, whether its call is
  still running, what is excused. `Within s n`: each schedule from `s` with at least `n` own accesses plus the excuses
  contains the return. The programs are the models of the channels at the level of loads and compare-exchanges
  (`Atomic/Refine*`), the same with critical sections, `Heap/ConcModel`, `LinkedList/ConcModel`, `Mutex/Model`. Proof:
  a potential that falls with each own access and rises by at most the excuse with each other step; for the
  channels from a rank of the program counter (`Ctx`). `Tables.lean` has the numbers; `C85_*_exact` has a schedule per
  call that uses all but one access. The drain (conditions of C16, no pops or other drains after the call) reuses the
  invariant of C16; elements pushed meanwhile cost at most a walk over them, once. The scheduler (up to 32 threads, as for
  C40–C44): the potential of a call on the stack counts the levels above the one it interrupted.
* **C86** `Heap/Multi*`: the loop of `allocate` over the pools, `deallocate` and the look-ups on top of the concurrent pools of
  `ConcModel.lean`; each access is a step. `Fails` is a schedule that is one failing call of a context, with anything of other
  contexts in between. `C86_failed`: each pool that fits was seen with an empty free list and later without new blocks. From this
  follows the property if no block comes back to an empty pool meanwhile, or with one pool and two contexts; otherwise it is
  false (finding 54). `C86_shared_*`: one owner per block, no overlaps over all pools, `deallocate` finds the pool, by the
  invariant of C11 per pool (same restriction with `atomics`); `C86_got`: length and ownership of what is handed out.
* **C87** `Mutex/Fair*`: `Desc` (the list and the stored nodes are sorted, newest first) and `Pc.older` (no client is about to wake a node
  older than `n`) are invariants while `n` waits, so only newcomers are woken before it (`C87_newcomers_partial`, all interleavings). No bound
  holds: `cycle_run` is a schedule, for symbolic states, that hands the lock from one client to another past a third one; induction repeats it
  (`C87_starved`, finding 55).
* **C88** `Exec/Chan*`: the executor of C65 and the channel of C19–C23 in one state; the events of C65 are replaced by oneshot channels
  whose two ends make their accesses one by one, also inside a poll. Channels stay reachable states of `Verif.Oneshot` (`Fit.reach`), so its
  invariants are used as they are; a pending receiver sleeps (`Sleep`: waker stored, sender not gone or about to wake), and every started task
  sleeps, is queued or its thread is due. `C88_no_task_stuck_partial` and `C88_all_complete_partial` need that no thread is woken at the level
  of a running or preempted one, `C88_no_fault_partial` that no channel is released too early; `C88_answered` has no condition.
  Both conditions are needed (`C88_false`, `C88_false_release`, finding 56).
  `C88_rests` (no condition): from every reachable state the threads come to rest after finitely many rounds; the potential (`Exec/ChanPot.lean`) counts the
  accesses that the receivers have left, the fibers still to be resumed and what the calls on the stack have left. `C88_live_partial` joins it with
  the others: once the senders have left, all tasks do complete.
* **C89** `Exec/Str*`, `Pulse/Read.lean`, `Ring/Read.lean`: as C88 with channels of all three kinds; a task reads a stream to its end. For each
  kind there are `Fit` (reachable, only the waker of the thread of the task, `closed` only after the drop has begun, everything arrived once the
  drop has begun) and `Sleep` (pending: waker stored, data present only if the sender is about to wake); the laws `call_fit`, `send_fit`, `recv_fit`,
  `over_delivered`, `sleep_waits` are all that the invariant of the executor (`Str.Inv`) uses. The parameter `N` of `Fit` is
  "no clash so far"; it is instantiated with `False`, `True`, or the hypothesis itself. `C89_read_to_end` has no condition;
  `C89_no_task_stuck_partial`, `C89_all_complete_partial` need that no thread is woken at the level of a running or preempted one;
  the values of rings (`C89_delivered_partial`, `C89_no_fault_partial`) need that the two ends never work on the same slot (`C89_false`,
  `C89_false_clash`, finding 57).
  `C89_rests` (no condition), `C89_live_partial`: as in C88 (`Exec/StrPot.lean`, `Pulse/ReadPot.lean`, `Ring/FeedPot.lean`); while the senders rest, no
  two ends can disturb each other, so the rounds need no condition on slots and releases.
* **C90** `Exec/Lock*`, `Exec/Level.lean`: executor, software threads and the mutex in one state; tasks take the lock a number of times and sleep with
  the guard; other clients use `try_lock`. The waker of a task is named after the task, so that the invariants of C36–C38 apply unchanged. `Lock.Inv` says
  that every started task sleeps with the guard, or sleeps in the list of the mutex and was not woken since its poll, or is in the queue of a running
  `drain`, or its thread is due. `Level.enter_once`: a thread that is entered has no body on the stack already, so a `drain` never restarts under a
  task that is in the middle of a call. `C90_mutual_exclusion`, `C90_done_rounds` have no condition. `C90_no_task_stuck_partial`,
  `C90_all_complete_partial` need that no thread is woken at the level of a running or preempted one (`C90_false_same`) and that no second
  `try_lock` of a poll falls into an `unlock` (`C90_false_missed`); `C90_no_fault_partial` needs that no node is released while a
  future refers to it (`C90_false_free`). Findings 58–60.
  `C90_rests` (no condition): from every reachable state the threads come to rest after finitely many rounds; the potential (`Exec/LockPot.lean`) counts critical
  sections left, the position within one, the traversals of the list that an `unlock` has left (bounded because the list can only grow by the potential), the
  fibers still to be resumed and what the calls on the stack have left. `C90_live_partial` joins it with the others: all tasks do complete.
* **C91** `Exec/Pipe*`, `Ring/Feed.lean`, `Ring/FeedLog.lean`: the executor and any number of rings whose two ends both belong to tasks; the sending task uses
  `Sink` (`poll_ready`, `start_send`, `poll_flush`) with the waker of its thread. `Ring.Read.Fit`, `Sleep` (C89) describe the receiving end, `Ring.Feed.Fit`,
  `Sleep` the sending one; `Feed.not_both`: the two ends of a ring do not both sleep (a sender that waits for room or a flush was not woken since, so the
  ring is not empty, and then a receiver that sleeps is about to be woken). `Pipe.Mid`: a receiver is in the middle of a call only while its task is the
  head of a running `drain`; with `Level` the sender runs above it only with a strictly greater priority. `C91_sent` has no condition;
  `C91_downward_no_clash` turns the condition "the two ends never work on the same slot" into one on priorities: no sender has a greater priority than its
  receiver. `C91_no_deadlock_partial`, `C91_completed_partial` need that no thread is woken at the level of a running or preempted one (`C91_false_same`,
  `C91_false_late`), the values the priorities (`C91_false_clash`), `C91_no_fault_partial` that no end releases the ring under the other (`C91_false_release`).
  `C91_rests` (no condition): from every reachable state the threads come to rest after finitely many rounds of accesses, in any order within a round; by a
  potential (`Exec/Rest.lean`, `Exec/PipePot.lean`, `Ring/FeedPot.lean`): what the calls on the stack have left, the fibers still to be resumed, and what the two
  ends of each ring have left, weighted so that progress of a ring pays for the wake it causes. `C91_live_partial` joins both: the two tasks do complete.
  Findings 61–63.

## Disagreements between code and properties

Each entry is a theorem with a concrete witness.

Registers and stream:
1. A zero-width field at the end of the word meets the documented precondition but
   the shift overflows (`Bitfield`, beside C01).
2. `write_transaction` spins forever for a frame of at least the buffer size
   (C47); the documentation says lengths above 256 panic, 256 does too
   (`C48_doc_limit_wrong`).

Heap:
3. The allocator ignores the requested alignment (`C08_alignment_false`).
4. Lock-free `allocate_free` has an ABA problem: one block goes to two owners
   (`C11_lock_free_aba`).
5. Blocks shorter than a pointer: releasing one overwrites the next
   (`C13_small_blocks_corrupt`).
6. Zeroed requests are not traced, failing requests are (`C14_zeroed_not_traced`,
   `C14_failure_traced`).
   `GlobalAlloc` is not affected, it uses neither (`C66_trace`).
   `realloc` always needs a second block: shrinking can be refused
   (`C66_shrink_refused`; allowed by the contract, noted here).
32. `heap::init` copies a quarter of the section length in `usize` words: twice too
   much with 8-byte pointers, and the tail is lost when the length is not a
   multiple of four (`C67_false`, `C67_false_tail`).

Linked list:
7. Lock-free `pop` reads a node another `pop` has freed, and suffers from ABA
   (`C17_lock_free_use_after_free`, `C17_lock_free_aba`).

Channels:
8. Polling again with a different waker keeps the first waker, in the oneshot
   (`C21_false`), pulse (`C59_false`), ring (`C34_false_waker`) channels and in
   the mutex (`C37_false_waker`).
9. An end that is preempted between its last update of the state word and its
   access to a waker, datum or the release touches a freed object if the other
   end leaves in between (`C22_false…`, `C28_memory_false…`, `C32_false_leave`).
10. `send`/`saturating_send` of pulses on a closed channel returns `Canceled` but
    adds the pulses, which the receiver obtains, even after the end
    (`C24_false`, `C25_false`, `C28_false`).
11. A ring of capacity `MAX_CAPACITY` loses everything when full: the length field
    overflows (`C30_false`).
12. The ring receiver claims a slot before it reads it: a sender in between
    overwrites the value; the same for a preempted `Drop` (`C32_false…`).
13. `close()` consumes the sender's waker and leaves its flags set: a later receive
    uses it again (`C33_false`).
14. A receive inside `send_overwrite` after a pending `poll_ready` does not wake the
    sender (`C34_false`).
15. `try_send` on a closed full ring returns `Full` (`C35_false`).

Mutex:
16. `unlock` frees nodes of woken futures that were not polled yet; the next poll
    or drop reads the freed node, without any overlap of calls (`C38_false`,
    `C39_false`); also the waker read of a preempted drop (`C38_false_drop`).
17. A `poll` or drop whose `try_lock` falls between the search for a waiter and
    the release of the lock in another `unlock` is forgotten (`C37_false`,
    `C37_false_drop`).

Software threads:
18. A thread requested at a level that is running or preempted stays pending, and
    every later request does nothing (`C41_false`, `C41_false_starved`,
    `C43_false`, `C40_false`). For futures: an event between the poll of a future
    and the return of its thread leaves the future stuck although the event has
    occurred (`C65_false`); in a pool of one thread nothing ever runs again
    (`C65_false_dead`). The cause is `*priority - 1` in line 273 of `row_next`: the
    comparison with `*priority` in line 280 can never be equal. With the search
    started at `*priority`, nothing is forgotten in any history of at most 32 threads
    (`C41_repaired`, `C40_repaired`, `C43_repaired`), and where the code is right
    nothing changes (`C41_repair_conservative`).
19. More than 32 threads: `row_next` (line 281) moves the pointer by whole rows from
    where `row_run` has left it. A wrong thread is resumed (`C42_false`), and in the
    last row the search reads behind the end of the static array of pending threads
    (`C42_false_bounds`: 40 threads, two of them requested at the levels 1 and 0), which
    is undefined behaviour in the safe function `preempt`; a bit set there would be cleared
    and taken for a request. More than 65504 threads: `thr_idx` overflows
    (`C42_false_overflow`). With any number of threads only threads of the pool are
    resumed, and no access other than this read is the first to fault (`C42_in_pool`,
    `C42_only_reads`); it lies less than 26 times (the cells of a row minus one) behind
    the end (`C42_reach`). The code is right if no scheduler loop goes on to another
    level, in particular if all threads have one level (`C42_quiet_*`,
    `C42_one_level_partial`, `C41_calm_partial`). With the pointer computed anew from
    the start of the array, and finding 18 repaired, everything holds up to 65504
    threads (`C40_wide`, `C41_wide`, `C42_wide_*`).
20. `clear_pending` of a thread in the row being served does nothing
    (`C42_false_clear`).
21. `set_priority` of a pending thread: no longer pending, may run twice
    (`C44_false`).
22. An interrupt between the cell update and the header update of a request sees
    the level without its bit (`C40_false_interrupt`).

Fibers and others:
23. Polling a `FiberFuture` after `close` or after completion is undefined
    behaviour (`C50_false`, `C50_false_repoll`).
24. The saturating pulse stream uses `send`: pulses that do not fit are dropped
    altogether (`C51_false`, `C51_false_single`).
25. `Sess::cmd` after a failed request or a dropped `cmd` future passes a command
    where the loop reads a request result, through an untagged union (`C52_false`,
    `C52_false_drop`).
26. `inventory_token` is available for an inactive item; tokens of two
    inventories of one type are interchangeable; items can be exchanged through
    `DerefMut` (`C53_false_inactive`, `C53_false_two`, `C53_false_swap`).
27. Critical-section handles dropped out of order enable interrupts inside a live
    section and leave them disabled at the end (`C54_false`).
28. `CfgCond::transpose`: conjunctions are emitted as `any(..)`; overlapping
    conditions; repeated literals; three clauses panic (`C56_false…`).

Macros and tokens:
29. `unkeywordize` lacks `async`, `await`, `dyn`, `try` (`C62_false`): a register or
    field of that name does not compile.
30. Register tokens whose joined names coincide (`a` + `b_c`, `a_b` + `c`): one is
    dropped silently (`C63_false`). A `cfg` on a single register is evaluated in
    the application crate (`C63_false_register_cfg`).
31. A register without fields has a public `_marker`, so its token can be written
    out in safe code with any tag: two unsynchronized tokens, a lost update
    (`C64_false`). The same if the index lists two variants of one address
    (`C64_false_variants`).

33. `periph::map!` panics (unwrap of an absent path) if a register has only some of its
    optional variants, although the check before it allows this
    (`C69_false_variant`).
34. Overlapping or nested conditions in a peripheral give two macros of one name
    (`C69_false_overlap`, `C69_false_nested`; from 28).
35. A generic register whose fields are all optional, mapped to a register with none of
    them: the generated `from_fields`/`into_fields` name a field `_marker` that the
    struct does not have (`C70_false_marker`).
36. `into_{variant}` of a mapped register calls `into_{block}_{register}` with keyword
    names changed, `reg!` defines it with the raw names (`C70_false_keyword`).
37. With a single argument the print macros write the format string as it is:
    `println!("{{}}")` prints `{{}}` and `println!("{x}")` prints `{x}`, although the
    documentation promises the syntax of `alloc::format!` (`C71_false`, exactly if the string
    has a brace: `C71_text_exact`). `println!("{x}{}", y)` does not compile (`C71_compiles`).
38. `add_fib_factory` calls the factory at once, in the context of the caller. The returned
    fiber need not be `Send`, so it may keep `&` of the caller's local storage and is run
    by another thread (`C72_false`).
39. `local()` gives the storage of the innermost active thread of the pool to any code that
    preempts this thread: threads of other pools, interrupt handlers that are no
    threads (`C72_false_pools`, `C72_false_irq`). The documentation promises a panic "if
    called outside of this thread pool".
40. The token of a static is `Send` even if the type of the static is not, so safe code uses such a
    static from two contexts (`C73_false_send`). The token is also `Sync`, which the contract of
    `StaticToken` forbids.
41. `derive(Bitfield)` does not check offset and width: `foo(rw, 30, 4)` of a `u32` loses bits
    silently, `bar(rw, 32)` panics, in safe methods (`C74_false`, `C74_false_panic`; exactly:
    `C74_range_exact`). A readable field named like a method of another field (`set_a` beside `a`)
    does not compile (`C74_compiles_iff`).
42. A `cfg` attribute on a thread or on a field of `thr::pool!` is accepted, but the declaration does
    not compile where it is false (`C75_false`, `C75_compiles_iff`). Thread tokens are `Copy`, as
    `ThrToken` demands, while the contract of its supertrait `Token` forbids `Clone`.
43. `reg!`: a field called `REG`, `HOLD` or `BITFIELD` gives two types of one name, only `VAL` is taken
    care of (`C76_false_name`); a `cfg` on a field, or on one of several variants, does not compile
    where it is false (`C76_false_disabled`, `C76_false_variant`); offset and width are not checked
    against the size (`C76_false_range`).
44. The ends of a oneshot channel are dropped with `Acquire` (`sender.rs` 147, `receiver.rs` 130): the
    release of the shared object by one end is not ordered after the accesses of the other, a data
    race in the memory model (`C77_oneshot_false`, `C77_oneshot_false_waker`). `AcqRel` there orders
    everything up to the other end's last update of the state word (`C77_oneshot_acqrel`), but an end
    takes the waker of the other one out of the object after that (`C77_oneshot_late`). The pulse
    channel has the same defect (`C77_pulse_false`, `C77_pulse_false_waker`, `C77_pulse_late`), and so has
    the ring channel (`C77_ring_false`, `C77_ring_late`).
45. `send` of the pulse channel has no release semantics (`Acquire`, `sender.rs` 59, 88): receiving a
    pulse does not order what the sender did before it (`C77_pulse_unordered`), so a pulse cannot
    announce data in memory that the two contexts share otherwise. The documentation does not say so.
46. The receiver of a ring channel claims a slot (`receiver.rs` 66, 136, 151) before it reads it
    (106), and does nothing afterwards that the sender could see. The sender may write to the slot
    before it is read (`C77_ring_overlap`). But even when all calls are made one after the other,
    nothing orders the sender's next use of the slot after the reading (`C77_ring_reuse`), whatever the
    orderings of the updates are: it needs a releasing update after the reading. All other accesses to
    slots are ordered (`C77_ring_partial`).
47. `cut_out` of the linked list loads the head with `Relaxed` (`linked_list.rs` 451) and then reads and
    writes the nodes that it finds there (455, 459). If a node was pushed since the drain started, this
    is a data race with the pushing context's write of the link (`C78_list_false`), although `push`
    releases. It happens whenever a drain selects the first element it visits while others push: fiber
    chains and the mutex do this. `Acquire` in line 451 is enough (`C78_list_exact`).
48. The node of a lock future that is dropped while it waits is released by the next `unlock`, as soon as
    its flag is set. The future sets the flag (`mutex.rs` 221, only `Acquire`) and reads the waker after
    that; the flag is tested with `Relaxed` (229). Nothing orders the read before the release of the
    memory (`C79_mutex_false`), with any orderings: the read must move before the swap, which must release.
49. With feature `atomics` a read-write register of 64 or 128 bits has no copyable marker trait, and its
    writable fields have no synchronized one, because `AtomicBits` stops at 32 bits (`C80_false`); a
    `periph!` with such a register cannot be mapped.
50. `SRwReg` does not include `RwRegAtomic<Srt>` as `CRwReg` does for `Crt`: with feature `atomics` generic
    code cannot `modify` a synchronized register (`C80_generic_false`).
51. With feature `atomics` and two allocating contexts `allocate_free` reads the link of a block that another
    context may have allocated meanwhile and is writing to: a data race (`C81_pool_false`), with any
    orderings, besides the ABA problem of C11.
52. `row_next` updates the header with `Release` only. If it takes a level whose bit another context has just
    set, the `Relaxed` load of the cell may return the old value: the thread is skipped, its level is gone
    from the header, and later requests see its bit set and do nothing (`C82_lost`). `AcqRel` repairs it
    (`C82_served_exact`).
53. `#[cfg(any())]`, which is never compiled, is read by `CfgCond::parse` as no condition at all: the register
    or field is always there (`C84_false`).
54. `allocate` looks at the free list, then at the new blocks, and then at the next pool. If blocks come back behind it
    it returns `AllocError` although at every moment a block that fits was there: with one pool and three nested contexts
    (`C86_three_contexts_false`), or with two pools and two contexts (`C86_two_pools_false`), in both builds — the critical
    sections of the build without `atomics` cover one access each.
55. `Mutex::unlock` wakes the waiter that came last. Two clients that lock in turns, each asking while the other has the lock, starve a
    third one for ever, even if calls do not overlap and each woken future is polled at once (`C87_starved`).
56. Finding 9 (released too early) and the lost wakeup of C65 are reachable with the library's own executor: a task of a thread of higher
    priority, woken for another reason while a thread of lower priority is in `send` between the update of the state word and the
    taking of the waker, receives the value, drops the receiver and releases the channel; `send` then reads the waker from released memory
    (`C88_false_release`).
57. Finding 12 (slots claimed before they are read) with the library's own executor: a task is between the update of the state word and the read of the slot
    in `poll_next` when an interrupt handler sends to the (formerly full) ring. The task reads the newest value instead of the oldest, the oldest
    is lost without being dropped, and the task later reads an empty slot (`C89_false_clash`). A value sent between the poll and the return of
    the thread stays unread for ever (`C89_false`).
58. Two tasks of one software thread cannot share a mutex: the `unlock` of one wakes the thread that is running, the request is lost (as in C65), and
    the other waits for ever for a free lock (`C90_false_same`). This needs no interrupt.
59. A task of higher priority that preempts the `unlock` of one of lower priority after its search for a waiter waits for ever for a free lock
    (`C90_false_missed`; C37 with the library's own executor).
60. A task of higher priority that unlocks, takes the lock again at once and unlocks it releases the node of a woken waiter of lower priority; the poll
    of the waiter uses it after the release (`C90_false_free`; C38 with the library's own executor). No calls overlap, so this needs only
    two tasks and two priorities.
61. `take_value` of the ring receiver (`ring/receiver.rs` 99–107) frees the slot and wakes the sender before it reads the slot. If the sender is a task of
    greater priority that waits for room, it preempts the receiver at the wake and writes this very slot: the receiver gets the newest value instead of the
    oldest, one value is lost, and later an uninitialised slot is read (`C91_false_clash`). This is deterministic: a ring that is full, a sender of
    greater priority that waits in `poll_ready`, no interrupt. Reading the slot before the wake does not suffice (the slot is free after the update of the
    state word, finding 57); the slot has to be read before the update.
62. The two ends of a ring in tasks of the same thread (or priority) wait for each other for ever when the ring was filled once
    (`C91_false_same`): the wakes of a running thread by itself are lost.
63. With a receiver of greater priority: it may be started while the sender has returned `Pending` but its thread has not returned; the wake of the sender is
    lost and both wait for ever (`C91_false_late`). And if its thread is resumed for another task while the sender is in its `drop`, the ring is
    released under the sender (`C91_false_release`).

## Not modelled

Token plumbing of the derive and procedural macros other than the ones listed;
`lang_items`; `host` build stubs; memory orderings outside of C77–C79, C81 and C82; panics inside
user closures and unwinding; performance; `Debug`/`Display` formatting.

## Axioms

Output of `#print axioms` for the theorems in `MANIFEST.json`, names without `Verif.`:

* no axioms (4): `LinkedList.Conc.C17_lock_free_use_after_free`, `Platform.Irq.C54_false`, `Heap.C67_false_tail`, `Print.C71_false`
* `propext` (32): `Heap.C14_format`, `LinkedList.C15_drain_order`, `LinkedList.C15_lifo`, `LinkedList.Conc.C17_lock_free_aba`, `LinkedList.Conc.C17_false`, `Stream.C48_doc_limit_wrong`, `Stream.C49_once`, `Stream.C49_default`, `ProcLoop.C52_false`, `ProcLoop.C52_false_drop`, `Inventory.C53_false_two`, `Inventory.C53_false_inactive`, `Inventory.C53_false_swap`, `Atomic.C55_cas_loop_is_soft_try_modify`, `Atomic.C55_modify_swap`, `CfgCond.C56_false`, `CfgCond.C56_false_exclusive`, `CfgCond.C56_false_overlap`, `CfgCond.C56_false_repeated`, `CfgCond.C56_false_three`, `Macros.C62_kept`, `Macros.C63_one_macro`, `Macros.C63_false`, `Macros.C63_false_register_cfg`, `Periph.C69_false_variant`, `Periph.C69_false_overlap`, `Periph.C69_false_nested`, `Periph.C70_false_marker`, `Periph.C70_false_keyword`, `Local.C72_local`, `Regs.Marker.C80_alias`, `Heap.Multi.C86_empty`
* `Quot.sound`, `propext` (168): `Atomic.C04_no_lost_update`, `Heap.C09_fails_iff`, `Heap.Conc.C11_lock_free_aba`, `Heap.C13_small_blocks_corrupt`, `Heap.C14_decodes`, `Heap.C14_zeroed_not_traced`, `Heap.C14_live_bytes_partial`, `LinkedList.Conc.C16_drain`, `LinkedList.Conc.C18_resume`, `LinkedList.Conc.C18_completed`, `LinkedList.Conc.C16_drain`, `Oneshot.C21_false`, `Oneshot.C21_false_cancel`, `Oneshot.C22_false`, `Oneshot.C22_false_send`, `Oneshot.C22_false_drop`, `Oneshot.C22_sequential_partial`, `Pulse.C24_false`, `Pulse.C25_false`, `Pulse.C25_false_saturating`, `Pulse.C28_false`, `Pulse.C28_memory_false`, `Pulse.C28_memory_false_receiver`, `Pulse.C28_sequential_partial`, `Ring.C32_false`, `Ring.C32_false_order`, `Ring.C32_false_slots`, `Ring.C32_false_drop`, `Ring.C32_false_leave`, `Ring.C32_sequential_partial`, `Ring.C33_false`, `Ring.C33_false_state`, `Ring.C34_false_waker`, `Ring.C34_false`, `Ring.C35_false`, `Mutex.C37_false`, `Mutex.C38_false`, `Mutex.C38_false_drop`, `Mutex.C39_false`, `Soft.C40_false`, `Soft.C40_false_interrupt`, `Soft.C41_false`, `Soft.C41_false_starved`, `Soft.C42_false`, `Soft.C42_false_bounds`, `Soft.C42_false_overflow`, `Soft.C42_false_clear`, `Soft.C43_false`, `Soft.C44_false`, `Soft.C45_in_body`, `Soft.C45_outside`, `Soft.C45_restored`, `Stream.C48_empty`, `Stream.C48_transaction`, `Stream.C49_bootstrap`, `Stream.C49_enabled`, `Fib.Future.C50_false`, `Fib.Future.C50_false_repoll`, `Fib.Future.C50_false_race`, `Fib.PulseStream.C51_false`, `Fib.PulseStream.C51_false_single`, `ProcLoop.C52_partial`, `ProcLoop.C52_wrong_input_iff`, `ProcLoop.C52_results`, `ProcLoop.C52_completes`, `Inventory.C53_borrowed`, `Inventory.C53_active_partial`, `Inventory.C53_guard`, `Platform.Irq.C54_partial`, `Platform.Irq.C54_lifo`, `Platform.Irq.C54_nested_off`, `Platform.Irq.C54_paused`, `Atomic.C55_solo_progress`, `Atomic.C04_no_lost_update`, `CfgCond.C56_defined`, `CfgCond.C56_attrs`, `CfgCond.C56_add_clause`, `CfgCond.C56_dnf`, `Fib.C57_each_resume_calls`, `Fib.C57_completes_once`, `Fib.C57_advance`, `Fib.C57_once`, `Fib.C57_generator`, `Fib.C58_polls_each_resume`, `Fib.C58_ready`, `Fib.C58_error_panics`, `Pulse.C59_false`, `Pulse.C59_false_single`, `Macros.C62_distinct`, `Regs.C64_false`, `Regs.C64_false_variants`, `Exec.C65_false`, `Exec.C65_false_dead`, `Heap.C66_shrink_refused`, `Atomic.Refine.C68_oneshot`, `Atomic.Refine.C68_pulse`, `Atomic.Refine.C68_ring`, `Atomic.Refine.C68_soft`, `Periph.C69_expand_periph`, `Periph.C70_fields_partial`, `Print.C71_text_partial`, `Print.C71_text_exact`, `Print.C71_compiles`, `Print.C71_dbg`, `Local.C72_partial`, `Local.C72_one_pool_partial`, `Local.C72_factory`, `Local.C72_false`, `Local.C72_false_pools`, `Local.C72_false_irq`, `Token.C73_no_alias`, `Token.C73_send_partial`, `Token.C73_false_send`, `Bitfield.Derive.C74_false`, `Bitfield.Derive.C74_false_panic`, `Pool.C75_tokens`, `Pool.C75_tokens_distinct`, `Oneshot.C77_oneshot_false`, `Oneshot.C77_oneshot_false_waker`, `Oneshot.C77_oneshot_late`, `Oneshot.C77_oneshot_covers`, `Pulse.C77_pulse_false`, `Pulse.C77_pulse_ordered`, `Pulse.C77_pulse_covers`, `Ring.C77_ring_false`, `Ring.C77_ring_ordered`, `Ring.C77_ring_covers`, `LinkedList.Conc.Order.C78_list_false`, `LinkedList.Conc.Order.C78_list_covers`, `Mutex.Order.C79_mutex_false`, `Regs.Marker.C80_reg_partial`, `Regs.Marker.C80_reg_exact`, `Regs.Marker.C80_field_partial`, `Regs.Marker.C80_field_exact`, `Regs.Marker.C80_generic_partial`, `Regs.Marker.C80_generic_field`, `Regs.Marker.C80_false`, `Regs.Marker.C80_generic_false`, `Soft.Order.C82_lost`, `Soft.Order.C82_covers`, `Decl.C83_forward`, `Gram.C84_tokens`, `Gram.C84_reg`, `Gram.C84_simple_token`, `Gram.C84_static_tokens`, `Gram.C84_cfg_partial`, `Gram.C84_cfg_only`, `Gram.C84_false`, `Bound.C85_oneshot_exact`, `Bound.C85_pulse_exact`, `Bound.C85_ring_exact`, `Bound.C85_heap_mutex_exact`, `Bound.C85_scheduler_exact`, `Bound.C85_drain_exact`, `Heap.Multi.C86_three_contexts_false`, `Heap.Multi.C86_two_pools_false`, `Heap.Multi.C86_false`, `Exec.Chan.C88_false`, `Exec.Chan.C88_false_release`, `Exec.Str.C89_false`, `Exec.Str.C89_false_clash`, `Exec.Lock.C90_false_same`, `Exec.Lock.C90_false_missed`, `Exec.Lock.C90_false_free`, `Exec.Pipe.C91_false_same`, `Exec.Pipe.C91_false_late`, `Exec.Pipe.C91_false_clash`, `Exec.Pipe.C91_false_release`
* `Classical.choice`, `Quot.sound`, `propext` (320): `Bitfield.C01_field_roundtrip`, `Bitfield.C01_empty_field_at_end_panics`, `Bitfield.C02_bit_ops`, `Bitfield.C03_last_write_wins`, `Bitfield.C03_store_from_reset`, `Atomic.C04_register_fields`, `Atomic.C04_soft_register`, `Heap.C05_no_ub`, `Heap.C05_disjoint`, `Heap.C06_exhaustion`, `Heap.C06_no_effect`, `Heap.C07_best_fit`, `Heap.C08_alignment_false`, `Heap.C08_alignment_partial`, `Heap.C08_exact`, `Heap.C09_grow`, `Heap.C09_grow_zeroed`, `Heap.C09_shrink`, `Heap.C10_allocate_zeroed`, `Heap.C10_grow_zeroed`, `Heap.Conc.C11_soft`, `Heap.Conc.C11_lock_free_partial`, `Heap.Conc.C11_single_allocator_partial`, `Heap.Conc.C11_no_return_partial`, `Heap.C12_lookup`, `Heap.C12_outside`, `Heap.C12_lookup_reachable`, `Heap.C13_release_partial`, `Heap.C13_step_partial`, `Heap.C14_failure_traced`, `LinkedList.C15_stack`, `LinkedList.C15_drop_releases`, `LinkedList.Conc.C16_conservation`, `LinkedList.Conc.C17_soft`, `LinkedList.Conc.C17_lock_free_partial`, `LinkedList.Conc.C17_safe_partial`, `LinkedList.Conc.C16_conservation`, `Oneshot.C19_delivery`, `Oneshot.C20_history`, `Oneshot.C20_send_after_close`, `Oneshot.C20_receive`, `Oneshot.C20_is_terminated`, `Oneshot.C21_partial`, `Oneshot.C21_same_waker_partial`, `Oneshot.C21_cancel_partial`, `Oneshot.C22_partial`, `Oneshot.C22_exact`, `Oneshot.C23_cancellation`, `Oneshot.C23_answers`, `Oneshot.C23_wake`, `Pulse.C24_partial`, `Pulse.C24_open_partial`, `Pulse.C24_receive`, `Pulse.C25_partial`, `Pulse.C25_open_partial`, `Pulse.C26_send`, `Pulse.C26_history`, `Pulse.C26_no_spill`, `Pulse.C27_saturating`, `Pulse.C27_history`, `Pulse.C28_partial`, `Pulse.C28_end_no_error`, `Pulse.C28_error`, `Pulse.C28_end`, `Pulse.C28_is_terminated`, `Pulse.C28_memory_partial`, `Ring.C29_removals`, `Ring.C29_fifo`, `Ring.C29_try_send`, `Ring.C29_history`, `Ring.C30_false`, `Ring.C30_partial`, `Ring.C31_overwrite`, `Ring.C31_history`, `Ring.C32_partial`, `Ring.C32_priority_partial`, `Ring.C33_partial`, `Ring.C33_noclose_partial`, `Ring.C34_receiver`, `Ring.C34_partial`, `Ring.C34_sequential`, `Ring.C34_polls`, `Ring.C35_partial`, `Mutex.C36_mutual_exclusion`, `Mutex.C36_locked_while_held`, `Mutex.C36_free_when_unheld`, `Mutex.C37_no_forgotten_waiter_partial`, `Mutex.C37_sequential_partial`, `Mutex.C37_false_drop`, `Mutex.C37_false_waker`, `Mutex.C38_no_use_after_free_partial`, `Mutex.C38_freed_once`, `Mutex.C38_waker_once`, `Mutex.C38_drop_releases_all`, `Mutex.C39_drop_passes_wake_partial`, `Soft.C40_priority_order_partial`, `Soft.C40_interrupted_partial`, `Soft.C40_calm_partial`, `Soft.C40_strictly_above`, `Soft.C40_repaired`, `Soft.C40_wide`, `Soft.C41_none_forgotten_partial`, `Soft.C41_interrupted_partial`, `Soft.C41_calm_partial`, `Soft.C41_repaired`, `Soft.C41_repaired_no_fault`, `Soft.C41_repair_conservative`, `Soft.C41_wide`, `Soft.C42_addressing`, `Soft.C42_resumed_is_pending_partial`, `Soft.C42_no_fault_partial`, `Soft.C42_in_pool`, `Soft.C42_only_reads`, `Soft.C42_reach`, `Soft.C42_quiet_no_fault_partial`, `Soft.C42_quiet_resumed_partial`, `Soft.C42_one_level_partial`, `Soft.C42_wide_no_fault`, `Soft.C42_wide_resumed`, `Soft.C42_wide_account`, `Soft.C43_below_waits`, `Soft.C43_above_runs_partial`, `Soft.C43_interrupted_partial`, `Soft.C43_calm_partial`, `Soft.C43_restored`, `Soft.C43_repaired`, `Soft.C43_wide`, `Soft.C44_one_run_per_request_partial`, `Soft.C44_settled_partial`, `Soft.C44_idle_partial`, `Stream.C46_lossless`, `Stream.C46_received_prefix`, `Stream.C46_unread_untouched`, `Stream.C46_in_bounds`, `Stream.C46_no_panic`, `Stream.C47_progress`, `Stream.C47_too_large_never_accepted`, `Stream.C47_accept_iff`, `Stream.C48_split`, `Stream.C48_end_to_end`, `Fib.Future.C50_value`, `Fib.Future.C50_resolves`, `Fib.Future.C50_finishes`, `Fib.Future.C50_wakes`, `Fib.Future.C50_close`, `Fib.Future.C50_defined_partial`, `Fib.RingStream.C51_ring_calls`, `Fib.RingStream.C51_ring_fits`, `Fib.RingStream.C51_ring_end`, `Fib.RingStream.C51_ring_last`, `Fib.RingStream.C51_ring_saturating`, `Fib.RingStream.C51_ring_overwriting`, `Fib.RingStream.C51_ring_close`, `Fib.RingStream.C51_ring_delivered_partial`, `Fib.RingStream.C51_ring_removed_partial`, `Fib.RingStream.C51_ring_defined_partial`, `Fib.PulseStream.C51_pulse_calls`, `Fib.PulseStream.C51_pulse_fits`, `Fib.PulseStream.C51_pulse_accepted`, `Fib.PulseStream.C51_pulse_saturating_partial`, `Fib.PulseStream.C51_pulse_end`, `Fib.PulseStream.C51_pulse_last`, `Fib.PulseStream.C51_pulse_saturating_end`, `Fib.PulseStream.C51_pulse_close`, `Fib.PulseStream.C51_pulse_defined_partial`, `Inventory.C53_accounted`, `Inventory.C53_counter`, `Inventory.C53_closing`, `Platform.Irq.C54_protected_iff`, `CfgCond.C56_partial`, `CfgCond.C56_exclusive`, `CfgCond.C56_exclusive_only`, `Pulse.C59_partial`, `Pulse.C59_same_waker_partial`, `Ring.C60_partial`, `Ring.C61_final`, `Ring.C61_end`, `Ring.C61_empty`, `Ring.C61_error`, `Ring.C61_is_terminated`, `Macros.C62_false`, `Macros.C62_reserved_iff`, `Macros.C62_partial`, `Macros.C63_partial`, `Macros.C63_names`, `Regs.C64_partial`, `Regs.C64_exclusive`, `Regs.C64_store_exclusive`, `Regs.C64_one_unsync`, `Exec.C65_no_task_stuck_partial`, `Exec.C65_all_complete_partial`, `Exec.C65_done_means_fired`, `Exec.C65_no_fault`, `Heap.C66_contents`, `Heap.C66_disjoint`, `Heap.C66_null_iff`, `Heap.C66_trace`, `Heap.C67_exact_iff`, `Heap.C67_partial`, `Heap.C67_false`, `Periph.C69_expand_partial`, `Periph.C69_struct_partial`, `Periph.C69_traits_partial`, `Periph.C69_singular_partial`, `Periph.C70_conv_partial`, `Print.C71_delivered`, `Print.C71_prefix`, `Print.C71_single_writer`, `Print.C71_no_panic`, `Token.C73_exclusive`, `Token.C73_exact`, `Token.C73_borrow`, `Bitfield.Derive.C74_partial`, `Bitfield.Derive.C74_compiles_iff`, `Bitfield.Derive.C74_range_exact`, `Pool.C75_compiles_iff`, `Pool.C75_soft_iff`, `Pool.C75_false`, `Regs.Def.C76_partial`, `Regs.Def.C76_compiles_iff`, `Regs.Def.C76_documented_compiles`, `Regs.Def.C76_untouched`, `Regs.Def.C76_false_name`, `Regs.Def.C76_false_disabled`, `Regs.Def.C76_false_variant`, `Regs.Def.C76_false_range`, `Oneshot.C77_oneshot_partial`, `Oneshot.C77_oneshot_exact`, `Oneshot.C77_oneshot_acqrel`, `Pulse.C77_pulse_partial`, `Pulse.C77_pulse_exact`, `Pulse.C77_pulse_false_waker`, `Pulse.C77_pulse_acqrel`, `Pulse.C77_pulse_late`, `Pulse.C77_pulse_unordered`, `Ring.C77_ring_wakers`, `Ring.C77_ring_partial`, `Ring.C77_ring_exact`, `Ring.C77_ring_acqrel`, `Ring.C77_ring_late`, `Ring.C77_ring_reuse`, `Ring.C77_ring_overlap`, `LinkedList.Conc.Order.C78_list_partial`, `LinkedList.Conc.Order.C78_list_exact`, `Mutex.Order.C79_mutex_partial`, `Mutex.Order.C79_mutex_data`, `Mutex.Order.C79_mutex_data_exact`, `Mutex.Order.C79_mutex_exact`, `Mutex.Order.C79_mutex_covers`, `Heap.Conc.Order.C81_pool_partial`, `Heap.Conc.Order.C81_exclusive_partial`, `Heap.Conc.Order.C81_pool_exact`, `Heap.Conc.Order.C81_pool_false`, `Heap.Conc.Order.C81_pool_covers`, `Soft.Order.C82_data`, `Soft.Order.C82_data_exact`, `Soft.Order.C82_found_partial`, `Soft.Order.C82_found_exact`, `Soft.Order.C82_served_partial`, `Soft.Order.C82_served_exact`, `Decl.C83_heap`, `Decl.C83_stream`, `Decl.C83_pool`, `Decl.C83_soft`, `Decl.C83_unambiguous`, `Gram.C84_singular`, `Gram.C84_periph`, `Gram.C84_map`, `Gram.C84_simple_tokens`, `Bound.C85_oneshot_sender`, `Bound.C85_oneshot_receiver`, `Bound.C85_pulse_sender`, `Bound.C85_pulse_receiver`, `Bound.C85_ring_sender`, `Bound.C85_ring_receiver`, `Bound.C85_oneshot_sections`, `Bound.C85_pulse_sections`, `Bound.C85_ring_sections`, `Bound.C85_heap`, `Bound.C85_list`, `Bound.C85_drain`, `Bound.C85_mutex`, `Bound.C85_scheduler`, `Heap.Multi.C86_failed`, `Heap.Multi.C86_no_release_partial`, `Heap.Multi.C86_two_contexts_partial`, `Heap.Multi.C86_shared_soft`, `Heap.Multi.C86_shared_partial`, `Heap.Multi.C86_got`, `Mutex.C87_newcomers_partial`, `Mutex.C87_starved`, `Mutex.C87_false`, `Exec.Chan.C88_no_task_stuck_partial`, `Exec.Chan.C88_all_complete_partial`, `Exec.Chan.C88_answered`, `Exec.Chan.C88_no_fault_partial`, `Exec.Chan.C88_rests`, `Exec.Chan.C88_live_partial`, `Exec.Str.C89_no_task_stuck_partial`, `Exec.Str.C89_all_complete_partial`, `Exec.Str.C89_read_to_end`, `Exec.Str.C89_delivered_partial`, `Exec.Str.C89_no_fault_partial`, `Exec.Str.C89_rests`, `Exec.Str.C89_live_partial`, `Exec.Lock.C90_no_task_stuck_partial`, `Exec.Lock.C90_all_complete_partial`, `Exec.Lock.C90_mutual_exclusion`, `Exec.Lock.C90_done_rounds`, `Exec.Lock.C90_rests`, `Exec.Lock.C90_live_partial`, `Exec.Lock.C90_no_fault_partial`, `Exec.Pipe.C91_no_deadlock_partial`, `Exec.Pipe.C91_downward_no_clash`, `Exec.Pipe.C91_completed_partial`, `Exec.Pipe.C91_in_order_partial`, `Exec.Pipe.C91_sent`, `Exec.Pipe.C91_rests`, `Exec.Pipe.C91_live_partial`, `Exec.Pipe.C91_no_fault_partial`
