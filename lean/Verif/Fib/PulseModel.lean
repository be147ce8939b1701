import Verif.Pulse.Model
/-! # Model of fiber streams over the pulse channel: `src/fib/stream_pulse.rs`

The generator built by `add_rx` (131–192) and the stream on the other side run in two
contexts and meet in a pulse channel, which is the model of `Verif.Pulse`: a step is one
access to the shared object of the channel, or a local step of the generator between two
calls. The fiber is arbitrary: what its `resume` returns is chosen by the schedule. The
stream passes `close`, `poll_next` and drop on to its receiver (28–30, 43–45, 51–66), so
its calls are those of the receiver.

`map` (`Ok` for `FiberStreamPulse`, the identity for `TryFiberStreamPulse`) is part of the
fiber's result. `overflow` may depend on everything the fiber has returned so far. -/
namespace Verif.Fib.PulseStream

open Verif.Pulse (Word ROp Res)

variable {n : Nat} {ε : Type}

/-- What `resume` of the fiber returns; for `Complete`, after `map` (166). -/
inductive Out (n : Nat) (ε : Type) where
  | yielded (p : Option (Word n))
  | complete (r : Except ε (Option (Word n)))

/-- The `overflow` of `add_rx`; `none` is `Ok(())`. -/
abbrev Policy (n : Nat) (ε : Type) := List (Out n ε) → Option ε

/-- `add_saturating_pulse_stream`, `add_saturating_pulse_stream_factory`, 73–93: `|| Ok(())`. -/
def saturating : Policy n ε := fun _ => none

/-- Where the generator is. -/
inductive Pc where
  /-- suspended, at the start or at `yield` (186) -/
  | yielded
  /-- in `tx.is_canceled()` (147) -/
  | check
  /-- in `resume` of the fiber (150) -/
  | resume
  /-- in `send` of pulses yielded (152) -/
  | send
  /-- in `send` of the pulses of the completion (168) -/
  | sendLast
  /-- in `send_err` (160, 173, 178) -/
  | err
  /-- after `break` (148, 155, 182): dropping `tx` -/
  | leave
  /-- completed -/
  | done
deriving DecidableEq

/-- The channel, the generator, and what the fiber returned, last one first. -/
structure State (n : Nat) (ε : Type) where
  ch : Pulse.State n ε
  pc : Pc
  outs : List (Out n ε)

/-- `add_rx`, 143–145: the generator has not run. -/
def init (n : Nat) (ε : Type) : State n ε := ⟨Pulse.init n ε, .yielded, []⟩

/-- Scheduler choices. -/
inductive Act (n : Nat) (ε : Type) where
  /-- the thread resumes the generator -/
  | wake
  /-- the fiber's `resume` returns -/
  | fib (out : Out n ε)
  /-- the generator's next step -/
  | step
  /-- a call of the stream, if none is running -/
  | call (op : ROp)
  /-- the stream's next access to the channel -/
  | rstep

/-- The result of the last call of `is_canceled`. -/
def lastCanceled : List (Pulse.Event ε) → Bool
  | .isCanceled b :: _ => b
  | _ :: es => lastCanceled es
  | [] => false

/-- The result of the last call of `send`. -/
def lastSend : List (Pulse.Event ε) → Res
  | .send _ r :: _ => r
  | _ :: es => lastSend es
  | [] => .canceled

/-- `break`: drop `tx`. -/
def State.quit (s : State n ε) : State n ε := { s with ch := Pulse.sCall s.ch .drop, pc := .leave }

/-- Call `send_err`. -/
def State.fail (s : State n ε) (e : ε) : State n ε := { s with ch := Pulse.sCall s.ch (.sendErr e), pc := .err }

/-- What the generator does when a call on the channel has returned. -/
def proceed (overflow : Policy n ε) (s : State n ε) : State n ε :=
  match s.pc with
  | .check => if lastCanceled s.ch.log then s.quit else { s with pc := .resume }
  | .send =>
    match lastSend s.ch.log with
    | .ok => { s with pc := .yielded }
    | .canceled => s.quit
    | .full =>
      match overflow s.outs with
      | none => { s with pc := .yielded }
      | some e => s.fail e
  | .sendLast =>
    match lastSend s.ch.log with
    | .ok | .canceled => s.quit
    | .full =>
      match overflow s.outs with
      | none => s.quit
      | some e => s.fail e
  | .err | .leave => { s with pc := .done }
  | .yielded | .resume | .done => s

/-- What the generator does with the result of the fiber. -/
def receive (s : State n ε) (out : Out n ε) : State n ε :=
  let s := { s with outs := out :: s.outs }
  match out with
  | .yielded none => { s with pc := .yielded }
  | .yielded (some p) => { s with ch := Pulse.sCall s.ch (.send p), pc := .send }
  | .complete (.ok none) => s.quit
  | .complete (.ok (some p)) => { s with ch := Pulse.sCall s.ch (.send p), pc := .sendLast }
  | .complete (.error e) => s.fail e

/-- One step. -/
def step (overflow : Policy n ε) (s : State n ε) : Act n ε → Option (State n ε)
  | .wake =>
    match s.pc with
    | .yielded => some { s with ch := Pulse.sCall s.ch .isCanceled, pc := .check }
    | _ => some s
  | .fib out =>
    match s.pc with
    | .resume => some (receive s out)
    | _ => some s
  | .step =>
    match s.pc with
    | .check | .send | .sendLast | .err | .leave =>
      if s.ch.spc.resting then some (proceed overflow s)
      else
        match Pulse.sStep s.ch with
        | none => none
        | some ch => some { s with ch := ch }
    | .yielded | .resume | .done => some s
  | .call op => if s.ch.rpc.isIdle then some { s with ch := Pulse.rCall s.ch op } else some s
  | .rstep =>
    match Pulse.rStep s.ch with
    | none => none
    | some ch => some { s with ch := ch }

/-- A schedule. -/
def run (overflow : Policy n ε) (s : State n ε) : List (Act n ε) → Option (State n ε)
  | [] => some s
  | a :: as =>
    match step overflow s a with
    | none => none
    | some s' => run overflow s' as

end Verif.Fib.PulseStream
