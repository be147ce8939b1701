import Verif.Oneshot.Model
/-! # Model of fiber futures: `src/fib/future.rs`

The generator built by `add_rx` (92–107) and the `FiberFuture` on the other side run in two
contexts. They meet in a oneshot channel, which is the model of `Verif.Oneshot`, so a step
of either side is one access to the shared object of the channel. The fiber is arbitrary:
what its `resume` returns is chosen by the schedule.

Undefined behaviour is `none`: that of the channel, and `unreachable` in `poll` (42). -/
namespace Verif.Fib.Future

open Verif.Oneshot (Waker)

/-- Where the generator is. -/
inductive Pc where
  /-- suspended, at the start or at `yield` (103) -/
  | yielded
  /-- in `tx.is_canceled()` (94) -/
  | check
  /-- in `resume` of the fiber (97) -/
  | resume
  /-- in `tx.send(complete)` (100) -/
  | send
  /-- after `break` (95): dropping `tx` -/
  | leave
  /-- completed -/
  | done
deriving DecidableEq

/-- The channel, the generator, and what the fiber's `resume` returned, last one first:
`none` for `Yielded`, `some v` for `Complete(v)`. -/
structure State (α : Type) where
  ch : Oneshot.State α
  pc : Pc
  outs : List (Option α)

/-- `add_rx`, 81–108: the channel is made, the generator is added but has not run. -/
def init (α : Type) : State α := ⟨Oneshot.init α, .yielded, []⟩

/-- Calls of `FiberFuture`: `close` (30–32), `poll` (38–44), drop (of the field `rx`, 15). -/
inductive Op where
  | close
  | poll (w : Waker)
  | drop
deriving DecidableEq

/-- The call of the receiver behind it (31, 40). -/
def Op.toROp : Op → Oneshot.ROp
  | .close => .close
  | .poll w => .poll w
  | .drop => .drop

/-- Scheduler choices. -/
inductive Act (α : Type) where
  /-- the thread resumes the generator -/
  | wake
  /-- the fiber's `resume` returns -/
  | fib (out : Option α)
  /-- the generator's next access to the channel -/
  | step
  /-- a call of the future, if none is running -/
  | call (op : Op)
  /-- the future's next access to the channel -/
  | rstep
deriving DecidableEq

/-- The result of the last call of `is_canceled`. -/
def lastCanceled {α : Type} : List (Oneshot.Event α) → Bool
  | .isCanceled b :: _ => b
  | _ :: es => lastCanceled es
  | [] => false

/-- Some `poll` returned `Err(Canceled)`. -/
def pollCanceled {α : Type} : List (Oneshot.Event α) → Bool
  | .recvCanceled :: _ => true
  | _ :: es => pollCanceled es
  | [] => false

/-- The generator, after an access to the channel: go on when the call has returned. -/
def proceed {α : Type} (s : State α) : State α :=
  match s.pc with
  | .check =>
    if s.ch.spc.isIdle then
      if lastCanceled s.ch.log then { s with ch := Oneshot.sCall s.ch .drop, pc := .leave }
      else { s with pc := .resume }
    else s
  | .send | .leave => if s.ch.spc.resting then { s with pc := .done } else s
  | .yielded | .resume | .done => s

/-- One step. -/
def step {α : Type} (s : State α) : Act α → Option (State α)
  | .wake =>
    match s.pc with
    | .yielded => some { s with ch := Oneshot.sCall s.ch .isCanceled, pc := .check }
    | _ => some s
  | .fib out =>
    match s.pc with
    | .resume =>
      match out with
      | none => some { s with pc := .yielded, outs := none :: s.outs }
      | some v => some { ch := Oneshot.sCall s.ch (.send v), pc := .send, outs := some v :: s.outs }
    | _ => some s
  | .step =>
    match s.pc with
    | .check | .send | .leave =>
      match Oneshot.sStep s.ch with
      | none => none
      | some ch => some (proceed { s with ch := ch })
    | .yielded | .resume | .done => some s
  | .call op =>
    if s.ch.rpc.isIdle then some { s with ch := Oneshot.rCall s.ch op.toROp } else some s
  | .rstep =>
    match Oneshot.rStep s.ch with
    | none => none
    | some ch => if pollCanceled ch.log then none else some { s with ch := ch }

/-- A schedule. -/
def run {α : Type} (s : State α) : List (Act α) → Option (State α)
  | [] => some s
  | a :: as =>
    match step s a with
    | none => none
    | some s' => run s' as

end Verif.Fib.Future
