import Verif.Exec.Model
import Verif.Mutex.Model
/-! # Model of futures that share a mutex, run by software threads

The executor of `Verif.Exec` (`src/thr/exec.rs` on top of `src/thr/soft/`) and the asynchronous
mutex of `Verif.Mutex` (`src/sync/mutex.rs`) in one state. A task takes the lock a number of
times: it awaits `Mutex::lock` (`mutex.rs` 134–136), with the guard awaits a signal, drops the
guard (298–299), and begins again. So a task may be suspended with the guard and without it.
The accesses of the tasks are made one by one, with anything in between that can preempt them.
Other clients use the mutex too, by `try_lock` and the drop of the guard: they stand for
interrupt handlers and threads that are not modelled, and make their accesses at any time.

The waker of a poll is that of the thread of the task (`exec.rs` 64, 65). It is named after
the client here, and to wake it is a call of `set_pending` of the thread of this task
(`thr/soft/wake.rs` 35–37), which makes its accesses one by one too.

Simplifications. Priorities do not change and no thread is cleared or called directly. There is
one mutex. A task awaits one future at a time and drops no future before it is ready. Signals
are as in `Verif.Exec`. -/
namespace Verif.Exec.Lock
open Verif.Soft (upd Frame)
open Verif.Exec (Task upd2 entering inside)

/-- The client of the mutex that a task is. -/
def me (k : Nat) : Nat := 2 * k

/-- The other clients. -/
def ext (p : Nat) : Nat := 2 * p + 1

/-- `fired k i`: the signal that task `k` awaits in its `i`-th critical section has occurred.
`waker k i`: the thread whose waker is left with this signal. `queue t`: the fibers the running
`drain` of thread `t` has still to resume. `pos` of a task is the number of critical sections
it has left, `len` the number of those it is going to enter. -/
structure State where
  soft : Soft.State
  made : Nat
  task : Nat → Task
  mutex : Mutex.State
  fired : Nat → Nat → Bool
  waker : Nat → Nat → Option Nat
  queue : Nat → List Nat

/-- Before anything is executed. -/
def init (prio : Nat → Nat) (fired : Nat → Nat → Bool) : State :=
  { soft := Soft.init prio, made := 0, task := fun _ => ⟨0, 0, 0, false, false⟩, mutex := Mutex.init, fired := fired, waker := fun _ _ => none,
    queue := fun _ => [] }

/-- What may happen. -/
inductive Act where
  /-- the call of the software threads on top of the stack makes its next access -/
  | step
  /-- the running thread goes on with the next fiber of its `drain`, by one access -/
  | poll
  /-- the running thread is at the end of its `drain` and returns -/
  | ret
  /-- a signal occurs, in a thread or in an interrupt handler -/
  | signal (k i : Nat)
  /-- another client calls `try_lock` -/
  | grab (p : Nat)
  /-- another client drops its guard -/
  | drop (p : Nat)
  /-- another client makes its next access -/
  | work (p : Nat)
  /-- `add_exec`, `exec.rs` 44–50 -/
  | add (thr len : Nat)
  /-- `exec`, `exec.rs` 19–25, 36–37 -/
  | exec (thr len : Nat)
deriving DecidableEq

/-- The fiber chain of a thread: newest first (`Chain::add`, `fib/chain.rs`), without the
completed fibers, which `drain` removes. -/
def chain (s : State) (thr : Nat) : List Nat :=
  (List.range s.made).reverse.filter fun k => (s.task k).thr = thr && !(s.task k).done

/-- A new task. -/
def State.push (s : State) (thr len : Nat) (live : Bool) : State :=
  { s with made := s.made + 1, task := upd s.task s.made ⟨thr, len, 0, live, false⟩ }

/-- The waker that an access of a client wakes, `mutex.rs` 173. -/
def waking : Mutex.Pc → Option Mutex.Waker
  | .ulWake _ w => some w
  | _ => none

/-- The thread that an access of client `p` wakes. -/
def wokenBy (s : State) (p : Nat) : Option Nat := (waking (s.mutex.client p).pc).map fun w => (s.task (w / 2)).thr

/-- Task `k` on top of the queue `k :: ks` of thread `t` goes on. `none`: undefined behaviour in
the mutex. -/
def taskStep (s : State) (t k : Nat) (ks : List Nat) : Option (State × Option Nat) :=
  let a := { s.task k with live := true }
  let c := s.mutex.client (me k)
  if c.pc ≠ .idle then
    -- in `MutexLockFuture::poll` (181–203) or `MutexGuard::drop`
    match Mutex.pstep s.mutex (me k) with
    | none => none
    | some m =>
      let c' := m.client (me k)
      if c'.pc ≠ .idle then some ({ s with task := upd s.task k a, mutex := m }, wokenBy s (me k))
      else if c'.fut = false then
        -- the guard is dropped
        some ({ s with task := upd s.task k { a with pos := a.pos + 1 }, mutex := m }, wokenBy s (me k))
      else if c'.guards = 0 then
        -- `Poll::Pending`, `exec.rs` 71
        some ({ s with task := upd s.task k a, mutex := m, queue := upd s.queue t ks }, wokenBy s (me k))
      else
        -- `Poll::Ready` of the lock
        some ({ s with task := upd s.task k a, mutex := m }, wokenBy s (me k))
  else if c.fut then
    if c.guards = 0 then some ({ s with task := upd s.task k a, mutex := Mutex.call s.mutex (me k) (.poll (me k)) }, none)
    -- a future that was awaited is dropped when it is ready
    else some ({ s with task := upd s.task k a, mutex := Mutex.call s.mutex (me k) .dropFut }, none)
  else if c.guards ≠ 0 then
    if s.fired k a.pos then some ({ s with task := upd s.task k a, mutex := Mutex.call s.mutex (me k) .unlock }, none)
    else
      -- `Poll::Pending` of the signal, with the guard
      some ({ s with task := upd s.task k a, waker := upd2 s.waker k a.pos (some a.thr), queue := upd s.queue t ks }, none)
  else if a.pos = a.len then some ({ s with task := upd s.task k { a with done := true }, queue := upd s.queue t ks }, none)
  else some ({ s with task := upd s.task k a, mutex := Mutex.call s.mutex (me k) .lock }, none)

/-- One element of a history, and the thread whose waker it wakes. `none`: undefined behaviour
in the mutex, a completed future is polled, or a fault of the software threads. -/
def act (count : Nat) (s : State) : Act → Option (State × Option Nat)
  | .step =>
    match Soft.step count s.soft .step with
    | none => none
    | some soft =>
      match entering s.soft.stack with
      | some t => some ({ s with soft := soft, queue := upd s.queue t (chain s t) }, none)
      | none => some ({ s with soft := soft }, none)
  | .poll =>
    match inside s.soft.stack with
    | none => some (s, none)
    | some t =>
      match s.queue t with
      | [] => some (s, none)
      | k :: ks => if (s.task k).done then none else taskStep s t k ks
  | .ret =>
    match inside s.soft.stack with
    | none => some (s, none)
    | some t =>
      if s.queue t = [] then
        match Soft.step count s.soft .ret with
        | none => none
        | some soft => some ({ s with soft := soft }, none)
      else some (s, none)
  | .signal k i => some ({ s with fired := upd2 s.fired k i true, waker := upd2 s.waker k i none }, s.waker k i)
  | .grab p => some ({ s with mutex := Mutex.call s.mutex (ext p) .tryLock }, none)
  | .drop p => some ({ s with mutex := Mutex.call s.mutex (ext p) .unlock }, none)
  | .work p =>
    match Mutex.pstep s.mutex (ext p) with
    | none => none
    | some m => some ({ s with mutex := m }, wokenBy s (ext p))
  | .add thr len => some (if thr < count then s.push thr len false else s, none)
  | .exec thr len => some (if thr < count then (s.push thr len true, some thr) else (s, none))

/-- `SoftWaker::wakeup`, `wake.rs` 16–18, for the waker that was woken. -/
def wake (count : Nat) (s : State) : Option Nat → Option State
  | none => some s
  | some t =>
    match Soft.step count s.soft (.pend t) with
    | none => none
    | some soft => some { s with soft := soft }

/-- One element of a history. -/
def step (count : Nat) (s : State) (a : Act) : Option State :=
  match act count s a with
  | none => none
  | some (s', w) => wake count s' w

/-- Perform a history. -/
def run (count : Nat) (s : State) : List Act → Option State
  | [] => some s
  | a :: as =>
    match step count s a with
    | none => none
    | some s => run count s as

end Verif.Exec.Lock
