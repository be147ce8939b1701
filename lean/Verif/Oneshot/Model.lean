import Verif.Spsc.Bits
/-!
# Model of the oneshot channel: `src/sync/spsc/oneshot/`

The two ends are two contexts; every step is one access to the shared object
(`mod.rs` 78–83). A read-modify-write macro is one step: with critical sections
it is one by construction, with `atomics` its only effect is the successful
compare-exchange (`Verif.Atomic`). Line numbers are those of `sender.rs` and
`receiver.rs`. Sequential consistency.

Undefined behaviour is explicit, as `none`: an access after the shared object was
released, releasing it twice, reading a cell (`MaybeUninit`) that holds no value;
overwriting a cell that holds one (a leak) is `none` too. `assume_init_read` moves
the value out. A waker is a number; cloning is copying it.

Calls can be made in any order; after `send` or drop the sender is `gone`, after
drop the receiver is `gone`.
-/
namespace Verif.Oneshot

open Verif.Spsc

/-- `TX_WAKER_STORED`, `mod.rs` 52, 58. -/
def TX : BitVec 8 := flag 8 0
/-- `RX_WAKER_STORED`, `mod.rs` 53, 59. -/
def RX : BitVec 8 := flag 8 1
/-- `DATA_STORED`, `mod.rs` 54, 60. -/
def DATA : BitVec 8 := flag 8 2
/-- `CLOSED`, `mod.rs` 55, 61. -/
def CLOSED : BitVec 8 := flag 8 3
/-- `HALF_DROPPED`, `mod.rs` 56, 62. -/
def HALF : BitVec 8 := flag 8 4

/-- A waker. -/
abbrev Waker := Nat

/-- Where the sender is: `idle` between calls, otherwise the next access. `st` is
the state word returned by the read-modify-write. -/
inductive SPc (α : Type) where
  | idle
  /-- `send`: write the data cell (47) -/
  | sendWrite (v : α)
  /-- `send`: update the state (48) -/
  | sendRmw
  /-- `send`: take the receiver's waker (52) -/
  | sendWaker (st : BitVec 8)
  /-- `send`: take the value back (58) -/
  | sendBack (st : BitVec 8)
  /-- `send`: release the object (60) -/
  | sendFree (v : α)
  /-- `poll_canceled`: load the state (82) -/
  | pcLoad (w : Waker)
  /-- `poll_canceled`: store the waker (87) -/
  | pcWrite (w : Waker)
  /-- `poll_canceled`: update the state (88) -/
  | pcRmw (w : Waker)
  /-- `poll_canceled`: take the waker back (91) -/
  | pcUndo
  /-- `is_canceled`: load the state (118) -/
  | icLoad
  /-- drop: update the state (147) -/
  | drRmw
  /-- drop: take the receiver's waker (149) -/
  | drWaker (st : BitVec 8)
  /-- drop: release the object (156) -/
  | drFree
  | gone
deriving DecidableEq

/-- Between calls. -/
def SPc.isIdle {α : Type} : SPc α → Bool
  | .idle => true
  | _ => false

/-- No access is due. -/
def SPc.resting {α : Type} : SPc α → Bool
  | .idle | .gone => true
  | _ => false

/-- Where the receiver is. -/
inductive RPc where
  | idle
  /-- `close`: update the state (38) -/
  | clRmw
  /-- `close`: take the sender's waker (40) -/
  | clWaker (st : BitVec 8)
  /-- `try_recv`: update the state (58) -/
  | trRmw
  /-- `try_recv`, `poll`: take the data (61, 95, 107) -/
  | read
  /-- `poll`: update the state (92) -/
  | poRmw (w : Waker)
  /-- `poll`: store the waker (101) -/
  | poWrite (w : Waker)
  /-- `poll`: update the state (102) -/
  | poRmw2 (w : Waker)
  /-- `poll`: take the waker back (105) -/
  | poUndo (st : BitVec 8)
  /-- `is_terminated`: load the state (121) -/
  | itLoad
  /-- drop: update the state (130) -/
  | drRmw
  /-- drop: drop the data (134) -/
  | drData (st : BitVec 8)
  /-- drop: take the sender's waker (137) -/
  | drWaker (st : BitVec 8)
  /-- drop: release the object (144) -/
  | drFree
  | gone
deriving DecidableEq

/-- Between calls. -/
def RPc.isIdle : RPc → Bool
  | .idle => true
  | _ => false

/-- No access is due. -/
def RPc.resting : RPc → Bool
  | .idle | .gone => true
  | _ => false

/-- Observable events. -/
inductive Event (α : Type) where
  /-- `send(v)` was called / returned `Ok` / returned `Err(v)` -/
  | sendCall (v : α) | sendOk | sendErr (v : α)
  /-- `poll_canceled` returned ready / pending with waker `w` -/
  | cancelReady | cancelPending (w : Waker)
  /-- `is_canceled` returned `b` -/
  | isCanceled (b : Bool)
  /-- the state update of `Sender::drop` -/
  | sDropped
  /-- the state update of `close` or `Receiver::drop` -/
  | closed
  /-- `try_recv` or `poll` returned the value / `Err(Canceled)` -/
  | recv (v : α) | recvCanceled
  /-- `try_recv` returned `Ok(None)` -/
  | recvNone
  /-- `poll` returned pending with waker `w` -/
  | pending (w : Waker)
  /-- `is_terminated` returned `b` -/
  | terminated (b : Bool)
  /-- `Receiver::drop` dropped the value -/
  | dropData (v : α)
  /-- the receiver's waker was stored / woken / dropped -/
  | storeRx (w : Waker) | wakeRx (w : Waker) | dropRx (w : Waker)
  /-- the sender's waker was stored / woken / dropped -/
  | storeTx (w : Waker) | wakeTx (w : Waker) | dropTx (w : Waker)
  /-- the shared object was released -/
  | freed
deriving DecidableEq

/-- The shared object, the two ends, and the log, newest event first. -/
structure State (α : Type) where
  st : BitVec 8
  data : Option α
  rxw : Option Waker
  txw : Option Waker
  freed : Bool
  spc : SPc α
  rpc : RPc
  log : List (Event α)
deriving DecidableEq

/-- `channel`, `mod.rs` 45–50 and 86–93. -/
def init (α : Type) : State α :=
  { st := 0#8, data := none, rxw := none, txw := none, freed := false, spc := .idle, rpc := .idle, log := [] }

/-- Append to the log. -/
def State.emit {α : Type} (s : State α) (e : Event α) : State α := { s with log := e :: s.log }

/-- Release the object (`Box::from_raw` dropped). The cells are `MaybeUninit`:
what they hold is not dropped. -/
def State.release {α : Type} (s : State α) : State α := { s with freed := true }.emit .freed

/-- Calls of the sender. -/
inductive SOp (α : Type) where
  | send (v : α) | pollCanceled (w : Waker) | isCanceled | drop
deriving DecidableEq

/-- Calls of the receiver. -/
inductive ROp where
  | close | tryRecv | poll (w : Waker) | isTerminated | drop
deriving DecidableEq

/-- Start a call of the sender. -/
def sCall {α : Type} (s : State α) : SOp α → State α
  | .send v => { s with spc := .sendWrite v }.emit (.sendCall v)
  | .pollCanceled w => { s with spc := .pcLoad w }
  | .isCanceled => { s with spc := .icLoad }
  | .drop => { s with spc := .drRmw }

/-- Start a call of the receiver. -/
def rCall {α : Type} (s : State α) : ROp → State α
  | .close => { s with rpc := .clRmw }
  | .tryRecv => { s with rpc := .trRmw }
  | .poll w => { s with rpc := .poRmw w }
  | .isTerminated => { s with rpc := .itLoad }
  | .drop => { s with rpc := .drRmw }

/-- `send` after the receiver's waker was handled (57–64). -/
def sendTail {α : Type} (s : State α) (st : BitVec 8) : State α :=
  if has st CLOSED then { s with spc := .sendBack st } else { s with spc := .gone }.emit .sendOk

/-- Next access of the sender. -/
def sStep {α : Type} (s : State α) : Option (State α) :=
  if s.spc.resting then some s
  else if s.freed then none
  else
    match s.spc with
    | .sendWrite v =>
      if s.data.isSome then none else some { s with data := some v, spc := .sendRmw }
    | .sendRmw =>
      let st := s.st
      let s := { s with st := st ||| (if has st CLOSED then 0#8 else DATA) ||| HALF }
      if has st RX then some { s with spc := .sendWaker st } else some (sendTail s st)
    | .sendWaker st =>
      match s.rxw with
      | none => none
      | some w =>
        let s := { s with rxw := none }
        if has st CLOSED then some (sendTail (s.emit (.dropRx w)) st)
        else some (sendTail (s.emit (.wakeRx w)) st)
    | .sendBack st =>
      match s.data with
      | none => none
      | some v =>
        let s := { s with data := none }
        if has st HALF then some { s with spc := .sendFree v }
        else some ({ s with spc := .gone }.emit (.sendErr v))
    | .sendFree v => some ({ s.release with spc := .gone }.emit (.sendErr v))
    | .pcLoad w =>
      if has s.st CLOSED then some ({ s with spc := .idle }.emit .cancelReady)
      else if has s.st TX then some ({ s with spc := .idle }.emit (.cancelPending w))
      else some { s with spc := .pcWrite w }
    | .pcWrite w =>
      if s.txw.isSome then none else some ({ s with txw := some w, spc := .pcRmw w }.emit (.storeTx w))
    | .pcRmw w =>
      let st := s.st
      let s := { s with st := st ||| TX }
      if has st CLOSED then some { s with spc := .pcUndo }
      else some ({ s with spc := .idle }.emit (.cancelPending w))
    | .pcUndo =>
      match s.txw with
      | none => none
      | some w => some (({ s with txw := none, spc := .idle }.emit (.dropTx w)).emit .cancelReady)
    | .icLoad => some ({ s with spc := .idle }.emit (.isCanceled (has s.st CLOSED)))
    | .drRmw =>
      let st := s.st
      let s := { s with st := st ||| HALF }.emit .sDropped
      if has st RX then some { s with spc := .drWaker st }
      else if has st HALF then some { s with spc := .drFree }
      else some { s with spc := .gone }
    | .drWaker st =>
      match s.rxw with
      | none => none
      | some w =>
        let s := { s with rxw := none }
        if has st HALF then some ({ s with spc := .drFree }.emit (.dropRx w))
        else some ({ s with spc := .gone }.emit (.wakeRx w))
    | .drFree => some { s.release with spc := .gone }
    | .idle | .gone => some s

/-- `Receiver::drop` after the data was handled (136–145). -/
def dropTail {α : Type} (s : State α) (st : BitVec 8) : State α :=
  if !has st CLOSED && has st TX then { s with rpc := .drWaker st }
  else if has st HALF then { s with rpc := .drFree }
  else { s with rpc := .gone }

/-- Next access of the receiver. -/
def rStep {α : Type} (s : State α) : Option (State α) :=
  if s.rpc.resting then some s
  else if s.freed then none
  else
    match s.rpc with
    | .clRmw =>
      let st := s.st
      let s := { s with st := st ||| CLOSED }.emit .closed
      if !has st CLOSED && has st TX then some { s with rpc := .clWaker st } else some { s with rpc := .idle }
    | .clWaker st =>
      match s.txw with
      | none => none
      | some w =>
        let s := { s with txw := none, rpc := .idle }
        if has st HALF then some (s.emit (.dropTx w)) else some (s.emit (.wakeTx w))
    | .trRmw =>
      let st := s.st
      let s := { s with st := st &&& ~~~DATA }
      if has st DATA then some { s with rpc := .read }
      else if has st HALF || has st CLOSED then some ({ s with rpc := .idle }.emit .recvCanceled)
      else some ({ s with rpc := .idle }.emit .recvNone)
    | .read =>
      match s.data with
      | none => none
      | some v => some ({ s with data := none, rpc := .idle }.emit (.recv v))
    | .poRmw w =>
      let st := s.st
      let s := { s with st := st &&& ~~~DATA }
      if has st DATA then some { s with rpc := .read }
      else if has st HALF || has st CLOSED then some ({ s with rpc := .idle }.emit .recvCanceled)
      else if has st RX then some ({ s with rpc := .idle }.emit (.pending w))
      else some { s with rpc := .poWrite w }
    | .poWrite w =>
      if s.rxw.isSome then none else some ({ s with rxw := some w, rpc := .poRmw2 w }.emit (.storeRx w))
    | .poRmw2 w =>
      let st := s.st
      let s := { s with st := st &&& ~~~DATA ||| RX }
      if has st HALF then some { s with rpc := .poUndo st }
      else some ({ s with rpc := .idle }.emit (.pending w))
    | .poUndo st =>
      match s.rxw with
      | none => none
      | some w =>
        let s := { s with rxw := none }.emit (.dropRx w)
        if has st DATA then some { s with rpc := .read }
        else some ({ s with rpc := .idle }.emit .recvCanceled)
    | .itLoad =>
      some ({ s with rpc := .idle }.emit
        (.terminated ((has s.st HALF || has s.st CLOSED) && !has s.st DATA)))
    | .drRmw =>
      let st := s.st
      let s := { s with st := st ||| CLOSED ||| HALF }.emit .closed
      if has st DATA then some { s with rpc := .drData st } else some (dropTail s st)
    | .drData st =>
      match s.data with
      | none => none
      | some v => some (dropTail ({ s with data := none }.emit (.dropData v)) st)
    | .drWaker st =>
      match s.txw with
      | none => none
      | some w =>
        let s := { s with txw := none }
        if has st HALF then some ({ s with rpc := .drFree }.emit (.dropTx w))
        else some ({ s with rpc := .gone }.emit (.wakeTx w))
    | .drFree => some { s.release with rpc := .gone }
    | .idle | .gone => some s

/-- Scheduler choices. -/
inductive Act (α : Type) where
  | sCall (op : SOp α) | sStep | rCall (op : ROp) | rStep
deriving DecidableEq

/-- One step. A call is possible only between calls. -/
def step {α : Type} (s : State α) : Act α → Option (State α)
  | .sCall op => if s.spc.isIdle then some (sCall s op) else some s
  | .sStep => sStep s
  | .rCall op => if s.rpc.isIdle then some (rCall s op) else some s
  | .rStep => rStep s

/-- A schedule. -/
def run {α : Type} (s : State α) : List (Act α) → Option (State α)
  | [] => some s
  | a :: as =>
    match step s a with
    | none => none
    | some s' => run s' as

end Verif.Oneshot
