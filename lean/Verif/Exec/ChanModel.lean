import Verif.Exec.Model
import Verif.Oneshot.Spec
/-! # Model of futures that await oneshot channels, run by software threads

The executor of `Verif.Exec` (`src/thr/exec.rs` on top of `src/thr/soft/`) and the oneshot
channel of `Verif.Oneshot` (`src/sync/spsc/oneshot/`) in one state. Unlike in `Verif.Exec`,
where the source of events is abstract, here a task awaits the receivers of a number of
channels, one after the other, and both ends of a channel make their accesses one by one,
with anything in between. The waker that a poll leaves in the channel is that of the thread
of the task (`exec.rs` 64, 65), and `Waker::wake` of the other end is a call of `set_pending`
(`thr/soft/wake.rs` 35–37), which makes its accesses one by one too.

An awaited receiver is dropped when it is ready, before the task goes on.

Simplifications. Priorities do not change and no thread is cleared or called directly. A task
awaits one receiver at a time. Senders belong to threads and interrupt handlers that are not
modelled: their calls begin and go on at any time, and so do the accesses they make. -/
namespace Verif.Exec.Chan
open Verif.Soft (upd Frame)
open Verif.Exec (Task upd2 entering inside)

/-- A oneshot channel of numbers. -/
abbrev Ch := Oneshot.State Nat

/-- `chan k i`: the channel whose receiver task `k` awaits as its `i`-th one. `queue t`: the fibers
the running `drain` of thread `t` has still to resume. -/
structure State where
  soft : Soft.State
  made : Nat
  task : Nat → Task
  chan : Nat → Nat → Ch
  queue : Nat → List Nat

/-- Before anything is executed. -/
def init (prio : Nat → Nat) : State :=
  { soft := Soft.init prio, made := 0, task := fun _ => ⟨0, 0, 0, false, false⟩, chan := fun _ _ => Oneshot.init Nat, queue := fun _ => [] }

/-- What may happen. -/
inductive Act where
  /-- the call of the software threads on top of the stack makes its next access -/
  | step
  /-- the running thread goes on with the next fiber of its `drain`, by one access -/
  | poll
  /-- the running thread is at the end of its `drain` and returns -/
  | ret
  /-- the sender of a channel begins a call -/
  | call (k i : Nat) (op : Oneshot.SOp Nat)
  /-- the sender of a channel makes its next access -/
  | send (k i : Nat)
  /-- `add_exec`, `exec.rs` 44–50 -/
  | add (thr len : Nat)
  /-- `exec`, `exec.rs` 19–25, 36–37 -/
  | exec (thr len : Nat)
deriving DecidableEq

/-- The fiber chain of a thread: newest first (`Chain::add`, `fib/chain.rs`), without the
completed fibers, which `drain` removes. -/
def chain (s : State) (thr : Nat) : List Nat :=
  (List.range s.made).reverse.filter fun k => (s.task k).thr = thr && !(s.task k).done

/-- A new task. -/
def State.push (s : State) (thr len : Nat) (live : Bool) : State :=
  { s with made := s.made + 1, task := upd s.task s.made ⟨thr, len, 0, live, false⟩ }

/-- The waker that a step of a channel has woken. -/
def woken (c c' : Ch) : Option Nat :=
  (c'.log.take (c'.log.length - c.log.length)).findSome? fun
    | .wakeRx w => some w
    | .wakeTx w => some w
    | _ => none

/-- What an access of an awaited receiver leads to: there is more to do, the future is pending,
or it is ready and dropped. -/
inductive Res where
  | more | pending | ready
deriving DecidableEq

/-- The task of thread `thr` goes on with the receiver it awaits: `Receiver::poll` is called
with the waker of the thread (`receiver.rs` 90–114); when it is ready the receiver is dropped
(128–148). -/
def recvStep (thr : Nat) (c : Ch) : Option (Ch × Res) :=
  match c.rpc with
  | .idle => some (Oneshot.rCall c (.poll thr), .more)
  | _ =>
    match Oneshot.rStep c with
    | none => none
    | some c' =>
      match c'.rpc with
      | .idle =>
        match c'.log with
        | .pending _ :: _ => some (c', .pending)
        | _ => some (Oneshot.rCall c' .drop, .more)
      | .gone => some (c', .ready)
      | _ => some (c', .more)

/-- One element of a history, and the thread whose waker it wakes. `none`: undefined behaviour
in a channel, a completed future is polled, or a fault of the software threads. -/
def act (count : Nat) (s : State) : Act → Option (State × Option Nat)
  | .step =>
    match Soft.step count s.soft .step with
    | none => none
    | some soft =>
      match entering s.soft.stack with
      | some t => some ({ s with soft := soft, queue := upd s.queue t (chain s t) }, none)
      | none => some ({ s with soft := soft }, none)
  | .poll =>
    match inside s.soft.stack with
    | none => some (s, none)
    | some t =>
      match s.queue t with
      | [] => some (s, none)
      | k :: ks =>
        let a := s.task k
        if a.done then none
        else if a.pos = a.len then
          some ({ s with task := upd s.task k { a with live := true, done := true }, queue := upd s.queue t ks }, none)
        else
          let c := s.chan k a.pos
          match recvStep a.thr c with
          | none => none
          | some (c', .more) =>
            some ({ s with task := upd s.task k { a with live := true }, chan := upd2 s.chan k a.pos c' }, woken c c')
          | some (c', .pending) =>
            some ({ s with task := upd s.task k { a with live := true }, chan := upd2 s.chan k a.pos c', queue := upd s.queue t ks },
              woken c c')
          | some (c', .ready) =>
            some ({ s with task := upd s.task k { a with live := true, pos := a.pos + 1 }, chan := upd2 s.chan k a.pos c' }, woken c c')
  | .ret =>
    match inside s.soft.stack with
    | none => some (s, none)
    | some t =>
      if s.queue t = [] then
        match Soft.step count s.soft .ret with
        | none => none
        | some soft => some ({ s with soft := soft }, none)
      else some (s, none)
  | .call k i op =>
    let c := s.chan k i
    match Oneshot.step c (.sCall op) with
    | none => none
    | some c' => some ({ s with chan := upd2 s.chan k i c' }, none)
  | .send k i =>
    let c := s.chan k i
    match Oneshot.step c .sStep with
    | none => none
    | some c' => some ({ s with chan := upd2 s.chan k i c' }, woken c c')
  | .add thr len => some (if thr < count then s.push thr len false else s, none)
  | .exec thr len => some (if thr < count then (s.push thr len true, some thr) else (s, none))

/-- `SoftWaker::wakeup`, `wake.rs` 16–18, for the waker that was woken. -/
def wake (count : Nat) (s : State) : Option Nat → Option State
  | none => some s
  | some t =>
    match Soft.step count s.soft (.pend t) with
    | none => none
    | some soft => some { s with soft := soft }

/-- One element of a history. -/
def step (count : Nat) (s : State) (a : Act) : Option State :=
  match act count s a with
  | none => none
  | some (s', w) => wake count s' w

/-- Perform a history. -/
def run (count : Nat) (s : State) : List Act → Option State
  | [] => some s
  | a :: as =>
    match step count s a with
    | none => none
    | some s => run count s as

end Verif.Exec.Chan
