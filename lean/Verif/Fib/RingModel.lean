import Verif.Ring.Model
/-! # Model of fiber streams over the ring channel: `src/fib/stream_ring.rs`

The generator built by `add_rx` (257–301) or `add_rx_overwrite` (318–345) and the stream on
the other side run in two contexts and meet in a ring channel, which is the model of
`Verif.Ring`: a step is one access to the shared object of the channel, or a local step of
the generator between two calls. The fiber is arbitrary: what its `resume` returns is chosen
by the schedule. The stream passes `close`, `poll_next` and drop on to its receiver
(32–34, 42–44, 51–58, 65–68), so its calls are those of the receiver.

`map` (`Ok` for `FiberStreamRing`, the identity for `TryFiberStreamRing`) is part of the
fiber's result. `overflow` may depend on everything the fiber has returned so far. -/
namespace Verif.Fib.RingStream

open Verif.Ring (Waker ROp)

variable {k : Nat} {τ ε : Type}

/-- What `resume` of the fiber returns; for `Complete`, after `map` (279, 331). -/
inductive Out (τ ε : Type) where
  | yielded (v : Option τ)
  | complete (r : Except ε (Option τ))

/-- `add_rx` with its `overflow` (`none` is `Ok(())`), or `add_rx_overwrite`. -/
inductive Policy (τ ε : Type) where
  | bounded (overflow : List (Out τ ε) → τ → Option ε)
  | overwrite

/-- `add_saturating_stream`, `add_saturating_stream_factory`, 84, 105: `|_| Ok(())`. -/
def Policy.saturating : Policy τ ε := .bounded fun _ _ => none

/-- Where the generator is. -/
inductive Pc where
  /-- suspended, at the start or at `yield` (299, 343) -/
  | yielded
  /-- in `tx.is_canceled()` (260, 321) -/
  | check
  /-- in `resume` of the fiber (263, 324) -/
  | resume
  /-- in `try_send` or `send_overwrite` of a value yielded (265, 326) -/
  | send
  /-- in `try_send` or `send_overwrite` of the value of the completion (281, 334) -/
  | sendLast
  /-- in `send_err` (273, 287, 293, 337) -/
  | err
  /-- after `break` (261, 268, 296, 322, 328, 340): dropping `tx` -/
  | leave
  /-- completed -/
  | done
deriving DecidableEq

/-- The channel, the generator, and what the fiber returned, last one first. -/
structure State (k : Nat) (τ ε : Type) where
  ch : Ring.State k τ ε
  pc : Pc
  outs : List (Out τ ε)

/-- `add_rx`, 256–258, `add_rx_overwrite`, 317–319: the generator has not run. -/
def init (k : Nat) (τ ε : Type) : State k τ ε := ⟨Ring.init k τ ε, .yielded, []⟩

/-- Scheduler choices. -/
inductive Act (τ ε : Type) where
  /-- the thread resumes the generator -/
  | wake
  /-- the fiber's `resume` returns -/
  | fib (out : Out τ ε)
  /-- the generator's next step -/
  | step
  /-- a call of the stream, if none is running -/
  | call (op : ROp)
  /-- the stream's next access to the channel -/
  | rstep

/-- The result of the last call of `is_canceled`. -/
def lastCanceled : List (Ring.Event τ ε) → Bool
  | .isCanceled b :: _ => b
  | _ :: es => lastCanceled es
  | [] => false

/-- The result of `try_send` and `send_overwrite`. -/
inductive Res (τ : Type) where
  | ok
  | full (v : τ)
  | canceled

/-- The result of the last call of `try_send` or `send_overwrite`. -/
def lastSend : List (Ring.Event τ ε) → Res τ
  | .push _ :: _ => .ok
  | .full v :: _ => .full v
  | .canceled _ :: _ => .canceled
  | _ :: es => lastSend es
  | [] => .canceled

/-- `try_send(value)` (265, 281) or `send_overwrite(value)` (326, 334). -/
def sendOp : Policy τ ε → τ → Ring.SOp τ ε
  | .bounded _, v => .trySend v
  | .overwrite, v => .sendOverwrite v

/-- `break`: drop `tx`. -/
def State.quit (s : State k τ ε) : State k τ ε := { s with ch := Ring.sCall s.ch .drop, pc := .leave }

/-- Call `send_err`. -/
def State.fail (s : State k τ ε) (e : ε) : State k τ ε := { s with ch := Ring.sCall s.ch (.sendErr e), pc := .err }

/-- What the generator does when a call on the channel has returned. -/
def proceed (pol : Policy τ ε) (s : State k τ ε) : State k τ ε :=
  match s.pc with
  | .check => if lastCanceled s.ch.log then s.quit else { s with pc := .resume }
  | .send =>
    match lastSend s.ch.log with
    | .ok => { s with pc := .yielded }
    | .canceled => s.quit
    | .full v =>
      match pol with
      | .overwrite => s.quit
      | .bounded overflow =>
        match overflow s.outs v with
        | none => { s with pc := .yielded }
        | some e => s.fail e
  | .sendLast =>
    match lastSend s.ch.log with
    | .ok | .canceled => s.quit
    | .full v =>
      match pol with
      | .overwrite => s.quit
      | .bounded overflow =>
        match overflow s.outs v with
        | none => s.quit
        | some e => s.fail e
  | .err | .leave => { s with pc := .done }
  | .yielded | .resume | .done => s

/-- What the generator does with the result of the fiber. -/
def receive (pol : Policy τ ε) (s : State k τ ε) (out : Out τ ε) : State k τ ε :=
  let s := { s with outs := out :: s.outs }
  match out with
  | .yielded none => { s with pc := .yielded }
  | .yielded (some v) => { s with ch := Ring.sCall s.ch (sendOp pol v), pc := .send }
  | .complete (.ok none) => s.quit
  | .complete (.ok (some v)) => { s with ch := Ring.sCall s.ch (sendOp pol v), pc := .sendLast }
  | .complete (.error e) => s.fail e

/-- One step. -/
def step (cap : Nat) (pol : Policy τ ε) (s : State k τ ε) : Act τ ε → Option (State k τ ε)
  | .wake =>
    match s.pc with
    | .yielded => some { s with ch := Ring.sCall s.ch .isCanceled, pc := .check }
    | _ => some s
  | .fib out =>
    match s.pc with
    | .resume => some (receive pol s out)
    | _ => some s
  | .step =>
    match s.pc with
    | .check | .send | .sendLast | .err | .leave =>
      if s.ch.spc.resting then some (proceed pol s)
      else
        match Ring.sStep cap s.ch with
        | none => none
        | some ch => some { s with ch := ch }
    | .yielded | .resume | .done => some s
  | .call op => if s.ch.rpc.isIdle then some { s with ch := Ring.rCall s.ch op } else some s
  | .rstep =>
    match Ring.rStep cap s.ch with
    | none => none
    | some ch => some { s with ch := ch }

/-- A schedule. -/
def run (cap : Nat) (pol : Policy τ ε) (s : State k τ ε) : List (Act τ ε) → Option (State k τ ε)
  | [] => some s
  | a :: as =>
    match step cap pol s a with
    | none => none
    | some s' => run cap pol s' as

end Verif.Fib.RingStream
