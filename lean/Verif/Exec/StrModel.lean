import Verif.Exec.ChanModel
import Verif.Pulse.Spec
import Verif.Ring.Spec
/-! # Model of tasks that read streams, run by software threads

As `Verif.Exec.Chan`, but the channels that a task awaits, one after the other, are of any of the
three kinds: oneshot (`src/sync/spsc/oneshot/`), pulse (`src/sync/spsc/pulse/`) and ring
(`src/sync/spsc/ring/`). A task reads a stream to its end:
`while let Some(_) = receiver.next().await {}`; then the receiver is dropped and the task goes on
with the next channel.

Both ends of a channel, the requests and the scheduler of the software threads make their accesses
one by one, with anything in between. The waker that a poll leaves in a channel is that of the
thread of the task (`src/thr/exec.rs` 64, 65); waking it, by value or by reference, is a call of
`set_pending` (`src/thr/soft/wake.rs` 16–18, 24–29, 35–37), which makes its accesses one by one too.

Simplifications. As in `Verif.Exec.Chan`. The wakers with which senders poll are those of software
threads too. -/
namespace Verif.Exec.Str
open Verif.Soft (upd Frame)
open Verif.Exec (Task upd2 entering inside)
open Verif.Exec.Chan (Res)

/-- The kinds of channels; `ring cap` has capacity `cap`. -/
inductive Kind where
  | oneshot | pulse | ring (cap : Nat)
deriving DecidableEq

/-- A channel: `n` is the width of the pulse counter less one, `k` that of the cursor of a ring. -/
inductive Ch (n k : Nat) where
  | oneshot (c : Oneshot.State Nat)
  | pulse (c : Pulse.State n Nat)
  | ring (cap : Nat) (c : Ring.State k Nat Nat)

/-- A new channel: `channel` in the three `mod.rs`. -/
def Ch.new (n k : Nat) : Kind → Ch n k
  | .oneshot => .oneshot (Oneshot.init Nat)
  | .pulse => .pulse (Pulse.init n Nat)
  | .ring cap => .ring cap (Ring.init k Nat Nat)

/-- Calls of a sender. -/
inductive Op (n : Nat) where
  | oneshot (op : Oneshot.SOp Nat)
  | pulse (op : Pulse.SOp n Nat)
  | ring (op : Ring.SOp Nat Nat)

/-- The events of `new` that are not in `old`. -/
def fresh {α : Type} (old new : List α) : List α := new.take (new.length - old.length)

/-- The waker that an event of a pulse channel wakes. -/
def pulseWake : Pulse.Event Nat → Option Nat
  | .wakeRefRx w | .wakeRx w | .wakeTx w => some w
  | _ => none

/-- The waker that an event of a ring channel wakes. -/
def ringWake : Ring.Event Nat Nat → Option Nat
  | .wakeRefRx w | .wakeRx w | .wakeRefTx w | .wakeTx w => some w
  | _ => none

variable {n k : Nat}

/-- The sender begins a call. -/
def Ch.call : Ch n k → Op n → Option (Ch n k)
  | .oneshot c, .oneshot op => (Oneshot.step c (.sCall op)).map .oneshot
  | .pulse c, .pulse op => (Pulse.step c (.sCall op)).map .pulse
  | .ring cap c, .ring op => (Ring.step cap c (.sCall op)).map (.ring cap)
  | c, _ => some c

/-- The sender makes its next access; the waker it wakes. -/
def Ch.send : Ch n k → Option (Ch n k × Option Nat)
  | .oneshot c => (Oneshot.step c .sStep).map fun c' => (.oneshot c', Chan.woken c c')
  | .pulse c => (Pulse.step c .sStep).map fun c' => (.pulse c', (fresh c.log c'.log).findSome? pulseWake)
  | .ring cap c => (Ring.step cap c .sStep).map fun c' => (.ring cap c', (fresh c.log c'.log).findSome? ringWake)

/-- The task of thread `thr` goes on with the pulse receiver it reads: `poll_next` is called with the
waker of the thread (`pulse/receiver.rs` 107–148), again after every item, until it returns `None`;
then the receiver is dropped (164–182). -/
def pulseRecv (thr : Nat) (c : Pulse.State n Nat) : Option (Pulse.State n Nat × Res) :=
  match c.rpc with
  | .idle => some (Pulse.rCall c (.pollNext thr), .more)
  | _ =>
    match Pulse.rStep c with
    | none => none
    | some c' =>
      match c'.rpc with
      | .idle =>
        match (fresh c.log c'.log).head? with
        | some (.pending _) => some (c', .pending)
        | some .ended => some (Pulse.rCall c' .drop, .more)
        | _ => some (c', .more)
      | .gone => some (c', .ready)
      | _ => some (c', .more)

/-- The same with a ring receiver (`ring/receiver.rs` 134–170, 186–210). -/
def ringRecv (cap thr : Nat) (c : Ring.State k Nat Nat) : Option (Ring.State k Nat Nat × Res) :=
  match c.rpc with
  | .idle => some (Ring.rCall c (.pollNext thr), .more)
  | _ =>
    match Ring.rStep cap c with
    | none => none
    | some c' =>
      match c'.rpc with
      | .idle =>
        match (fresh c.log c'.log).head? with
        | some (.pending _) => some (c', .pending)
        | some .ended => some (Ring.rCall c' .drop, .more)
        | _ => some (c', .more)
      | .gone => some (c', .ready)
      | _ => some (c', .more)

/-- The task goes on with the receiver it awaits; the waker this wakes. -/
def Ch.recv (thr : Nat) : Ch n k → Option (Ch n k × Res × Option Nat)
  | .oneshot c => (Chan.recvStep thr c).map fun p => (.oneshot p.1, p.2, Chan.woken c p.1)
  | .pulse c => (pulseRecv thr c).map fun p => (.pulse p.1, p.2, (fresh c.log p.1.log).findSome? pulseWake)
  | .ring cap c => (ringRecv cap thr c).map fun p => (.ring cap p.1, p.2, (fresh c.log p.1.log).findSome? ringWake)

/-- `chan q i`: the channel whose receiver task `q` awaits as its `i`-th one. `queue t`: the fibers
the running `drain` of thread `t` has still to resume. -/
structure State (n k : Nat) where
  soft : Soft.State
  made : Nat
  task : Nat → Task
  chan : Nat → Nat → Ch n k
  queue : Nat → List Nat

/-- Before anything is executed. -/
def init (n k : Nat) (prio : Nat → Nat) (kind : Nat → Nat → Kind) : State n k :=
  { soft := Soft.init prio, made := 0, task := fun _ => ⟨0, 0, 0, false, false⟩, chan := fun q i => .new n k (kind q i), queue := fun _ => [] }

/-- What may happen. -/
inductive Act (n : Nat) where
  /-- the call of the software threads on top of the stack makes its next access -/
  | step
  /-- the running thread goes on with the next fiber of its `drain`, by one access -/
  | poll
  /-- the running thread is at the end of its `drain` and returns -/
  | ret
  /-- the sender of a channel begins a call -/
  | call (q i : Nat) (op : Op n)
  /-- the sender of a channel makes its next access -/
  | send (q i : Nat)
  /-- `add_exec`, `exec.rs` 44–50 -/
  | add (thr len : Nat)
  /-- `exec`, `exec.rs` 19–25, 36–37 -/
  | exec (thr len : Nat)

/-- The fiber chain of a thread: newest first (`Chain::add`, `fib/chain.rs`), without the
completed fibers, which `drain` removes. -/
def chain (s : State n k) (thr : Nat) : List Nat :=
  (List.range s.made).reverse.filter fun q => (s.task q).thr = thr && !(s.task q).done

/-- A new task. -/
def State.push (s : State n k) (thr len : Nat) (live : Bool) : State n k :=
  { s with made := s.made + 1, task := upd s.task s.made ⟨thr, len, 0, live, false⟩ }

/-- One element of a history, and the thread whose waker it wakes. `none`: undefined behaviour
in a channel, a completed future is polled, or a fault of the software threads. -/
def act (count : Nat) (s : State n k) : Act n → Option (State n k × Option Nat)
  | .step =>
    match Soft.step count s.soft .step with
    | none => none
    | some soft =>
      match entering s.soft.stack with
      | some t => some ({ s with soft := soft, queue := upd s.queue t (chain s t) }, none)
      | none => some ({ s with soft := soft }, none)
  | .poll =>
    match inside s.soft.stack with
    | none => some (s, none)
    | some t =>
      match s.queue t with
      | [] => some (s, none)
      | q :: qs =>
        let a := s.task q
        if a.done then none
        else if a.pos = a.len then
          some ({ s with task := upd s.task q { a with live := true, done := true }, queue := upd s.queue t qs }, none)
        else
          match (s.chan q a.pos).recv a.thr with
          | none => none
          | some (c', .more, w) =>
            some ({ s with task := upd s.task q { a with live := true }, chan := upd2 s.chan q a.pos c' }, w)
          | some (c', .pending, w) =>
            some ({ s with task := upd s.task q { a with live := true }, chan := upd2 s.chan q a.pos c', queue := upd s.queue t qs }, w)
          | some (c', .ready, w) =>
            some ({ s with task := upd s.task q { a with live := true, pos := a.pos + 1 }, chan := upd2 s.chan q a.pos c' }, w)
  | .ret =>
    match inside s.soft.stack with
    | none => some (s, none)
    | some t =>
      if s.queue t = [] then
        match Soft.step count s.soft .ret with
        | none => none
        | some soft => some ({ s with soft := soft }, none)
      else some (s, none)
  | .call q i op =>
    match (s.chan q i).call op with
    | none => none
    | some c' => some ({ s with chan := upd2 s.chan q i c' }, none)
  | .send q i =>
    match (s.chan q i).send with
    | none => none
    | some (c', w) => some ({ s with chan := upd2 s.chan q i c' }, w)
  | .add thr len => some (if thr < count then s.push thr len false else s, none)
  | .exec thr len => some (if thr < count then (s.push thr len true, some thr) else (s, none))

/-- `SoftWaker::wakeup`, `wake.rs` 16–18, for the waker that was woken. -/
def wake (count : Nat) (s : State n k) : Option Nat → Option (State n k)
  | none => some s
  | some t =>
    match Soft.step count s.soft (.pend t) with
    | none => none
    | some soft => some { s with soft := soft }

/-- One element of a history. -/
def step (count : Nat) (s : State n k) (a : Act n) : Option (State n k) :=
  match act count s a with
  | none => none
  | some (s', w) => wake count s' w

/-- Perform a history. -/
def run (count : Nat) (s : State n k) : List (Act n) → Option (State n k)
  | [] => some s
  | a :: as =>
    match step count s a with
    | none => none
    | some s => run count s as

end Verif.Exec.Str
