import Verif.Exec.StrModel
/-! # Model of tasks that send to each other through rings, run by software threads

The executor of `Verif.Exec` (`src/thr/exec.rs` on top of `src/thr/soft/`) and any number of ring
channels (`src/sync/spsc/ring/`). Both ends of channel `j` belong to tasks: task `2 j` reads the
channel to its end, as in `Verif.Exec.Str`; task `2 j + 1` sends to it through the `Sink`
(`ring/sender.rs` 187–279): for every value of its list `sink.feed(v).await` or, with the flag,
`sink.send(v).await`; then it drops the sender. When an operation fails it drops the sender at
once. `feed` of the futures crate is `poll_ready`, when it is ready `start_send`, which is
`try_send` (220–223); `send` is the same followed by `poll_flush`.

The tasks and the scheduler of the software threads make their accesses one by one, with anything in
between that can preempt them. The waker of a poll is that of the thread of the task
(`src/thr/exec.rs` 64, 65); waking it is a call of `set_pending` (`src/thr/soft/wake.rs` 35–37),
which makes its accesses one by one too.

Simplifications. As in `Verif.Exec.Str`. A task has one channel. -/
namespace Verif.Exec.Pipe
open Verif.Soft (upd Frame)
open Verif.Exec (entering inside)
open Verif.Exec.Chan (Res)
open Verif.Exec.Str (fresh ringWake ringRecv)

/-- `thr q`: the thread of task `q`. `cap j`, `vals j`: the capacity of channel `j` and what is sent to it:
the values and, for each, whether its sender flushes. -/
structure Cfg where
  count : Nat
  prio : Nat → Nat
  thr : Nat → Nat
  cap : Nat → Nat
  vals : Nat → List (Nat × Bool)

/-- Where a sending task is: what it has still to send, and whether the value it sent last is to be
flushed. -/
structure Prog where
  todo : List (Nat × Bool)
  flush : Bool
deriving DecidableEq

variable {k : Nat}

/-- The sending task of a channel, on thread `thr`, goes on by one access; the waker this wakes. -/
def feed (cap thr : Nat) (c : Ring.State k Nat Nat) (p : Prog) : Option (Ring.State k Nat Nat × Prog × Res × Option Nat) :=
  match c.spc with
  | .idle =>
    if p.flush then some (Ring.sCall c (.poll .flush thr), p, .more, none)
    else
      match p.todo with
      | [] => some (Ring.sCall c .drop, p, .more, none)
      | _ :: _ => some (Ring.sCall c (.poll .ready thr), p, .more, none)
  | _ =>
    match Ring.sStep cap c with
    | none => none
    | some c' =>
      let w := (fresh c.log c'.log).findSome? ringWake
      match c'.spc with
      | .idle =>
        match (fresh c.log c'.log).head? with
        | some (.pollPending _ _) => some (c', p, .pending, w)
        | some (.pollOk .ready) =>
          match p.todo with
          | [] => some (c', p, .more, w)
          | (v, f) :: vs => some (Ring.sCall c' (.trySend v), ⟨vs, f⟩, .more, w)
        | some (.pollOk _) => some (c', { p with flush := false }, .more, w)
        | some (.push _) => some (c', p, .more, w)
        | some (.wakeRefRx _) => some (c', p, .more, w)
        | _ => some (Ring.sCall c' .drop, ⟨[], false⟩, .more, w)
      | .gone => some (c', p, .ready, w)
      | _ => some (c', p, .more, w)

/-- `fibs`: the tasks that were given to the executor, newest first. `live q`: task `q` was started.
`queue t`: the fibers the running `drain` of thread `t` has still to resume. -/
structure State (k : Nat) where
  soft : Soft.State
  fibs : List Nat
  live : Nat → Bool
  done : Nat → Bool
  prog : Nat → Prog
  chan : Nat → Ring.State k Nat Nat
  queue : Nat → List Nat

/-- Before anything is executed; `channel` in `ring/mod.rs` for every channel. -/
def init (k : Nat) (g : Cfg) : State k :=
  { soft := Soft.init g.prio, fibs := [], live := fun _ => false, done := fun _ => false, prog := fun j => ⟨g.vals j, false⟩,
    chan := fun _ => Ring.init k Nat Nat, queue := fun _ => [] }

/-- What may happen. -/
inductive Act where
  /-- the call of the software threads on top of the stack makes its next access -/
  | step
  /-- the running thread goes on with the next fiber of its `drain`, by one access -/
  | poll
  /-- the running thread is at the end of its `drain` and returns -/
  | ret
  /-- `add_exec` of task `q`, `exec.rs` 44–50 -/
  | add (q : Nat)
  /-- `exec` of task `q`, `exec.rs` 19–25, 36–37 -/
  | exec (q : Nat)
deriving DecidableEq

/-- The fiber chain of a thread: newest first (`Chain::add`, `fib/chain.rs`), without the
completed fibers, which `drain` removes. -/
def chain (g : Cfg) (s : State k) (t : Nat) : List Nat := s.fibs.filter fun q => g.thr q = t && !s.done q

/-- Task `q` on top of the queue `q :: qs` of thread `t` goes on. -/
def taskStep (g : Cfg) (s : State k) (t q : Nat) (qs : List Nat) : Option (State k × Option Nat) :=
  let j := q / 2
  let s := { s with live := upd s.live q true }
  if q % 2 = 0 then
    match ringRecv (g.cap j) (g.thr q) (s.chan j) with
    | none => none
    | some (c, r) =>
      let w := (fresh (s.chan j).log c.log).findSome? ringWake
      let s := { s with chan := upd s.chan j c }
      match r with
      | .more => some (s, w)
      | .pending => some ({ s with queue := upd s.queue t qs }, w)
      | .ready => some ({ s with queue := upd s.queue t qs, done := upd s.done q true }, w)
  else
    match feed (g.cap j) (g.thr q) (s.chan j) (s.prog j) with
    | none => none
    | some (c, p, r, w) =>
      let s := { s with chan := upd s.chan j c, prog := upd s.prog j p }
      match r with
      | .more => some (s, w)
      | .pending => some ({ s with queue := upd s.queue t qs }, w)
      | .ready => some ({ s with queue := upd s.queue t qs, done := upd s.done q true }, w)

/-- One element of a history, and the thread whose waker it wakes. `none`: undefined behaviour
in a channel, a completed future is polled, or a fault of the software threads. -/
def act (g : Cfg) (s : State k) : Act → Option (State k × Option Nat)
  | .step =>
    match Soft.step g.count s.soft .step with
    | none => none
    | some soft =>
      match entering s.soft.stack with
      | some t => some ({ s with soft := soft, queue := upd s.queue t (chain g s t) }, none)
      | none => some ({ s with soft := soft }, none)
  | .poll =>
    match inside s.soft.stack with
    | none => some (s, none)
    | some t =>
      match s.queue t with
      | [] => some (s, none)
      | q :: qs => if s.done q then none else taskStep g s t q qs
  | .ret =>
    match inside s.soft.stack with
    | none => some (s, none)
    | some t =>
      if s.queue t = [] then
        match Soft.step g.count s.soft .ret with
        | none => none
        | some soft => some ({ s with soft := soft }, none)
      else some (s, none)
  | .add q => some (if g.thr q < g.count ∧ q ∉ s.fibs then { s with fibs := q :: s.fibs } else s, none)
  | .exec q =>
    some (if g.thr q < g.count ∧ q ∉ s.fibs then ({ s with fibs := q :: s.fibs, live := upd s.live q true }, some (g.thr q)) else (s, none))

/-- `SoftWaker::wakeup`, `wake.rs` 16–18, for the waker that was woken. -/
def wake (g : Cfg) (s : State k) : Option Nat → Option (State k)
  | none => some s
  | some t =>
    match Soft.step g.count s.soft (.pend t) with
    | none => none
    | some soft => some { s with soft := soft }

/-- One element of a history. -/
def step (g : Cfg) (s : State k) (a : Act) : Option (State k) :=
  match act g s a with
  | none => none
  | some (s', w) => wake g s' w

/-- Perform a history. -/
def run (g : Cfg) (s : State k) : List Act → Option (State k)
  | [] => some s
  | a :: as =>
    match step g s a with
    | none => none
    | some s => run g s as

end Verif.Exec.Pipe
