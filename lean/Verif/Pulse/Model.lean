import Verif.Spsc.Bits
/-!
# Model of the pulse channel: `src/sync/spsc/pulse/`

As in `Verif.Oneshot`: two contexts, one access to the shared object (`mod.rs`
92–97) per step, a read-modify-write macro is one step, sequential consistency.
The state word has `n + 6` bits for an arbitrary `n` (`usize::BITS`; with five
bits or fewer there is no counter). Line numbers are those of `sender.rs` and
`receiver.rs`.

`none` is undefined behaviour (access after release, double release, reading an
empty `MaybeUninit` cell) or overwriting a full cell.

The result of a call is logged at the step that fixes it: for `send`,
`saturating_send` and the count of `try_next`/`poll_next` this is the
read-modify-write.
-/
namespace Verif.Pulse

open Verif.Spsc

/-! ### The state word -/

/-- The state word. -/
abbrev Word (n : Nat) := BitVec (n + 6)

/-- `TX_WAKER_STORED`, `mod.rs` 65, 72. -/
def TX (n : Nat) : Word n := flag (n + 6) 0
/-- `RX_WAKER_STORED`, `mod.rs` 66, 73. -/
def RX (n : Nat) : Word n := flag (n + 6) 1
/-- `ERR_STORED`, `mod.rs` 67, 74. -/
def ERR (n : Nat) : Word n := flag (n + 6) 2
/-- `CLOSED`, `mod.rs` 68, 75. -/
def CLOSED (n : Nat) : Word n := flag (n + 6) 3
/-- `HALF_DROPPED`, `mod.rs` 69, 76. -/
def HALF (n : Nat) : Word n := flag (n + 6) 4

/-- `CAPACITY = 1 << usize::BITS - PARAM_BITS`, `mod.rs` 63. -/
def capacity (n : Nat) : Word n := 1#(n + 6) <<< (n + 6 - 5)

/-- `checked_add`. -/
def checkedAdd {n : Nat} (a b : Word n) : Option (Word n) :=
  if a.toNat + b.toNat < 2 ^ (n + 6) then some (a + b) else none

/-- The state update of `send` (`sender.rs` 59–61); `p` is already shifted. -/
def addWord {n : Nat} (st p : Word n) : Word n := (checkedAdd st p).getD st

/-- The state update of `saturating_send` (88–90). -/
def satWord {n : Nat} (st p : Word n) : Word n :=
  (checkedAdd st p).getD (st ||| (capacity n - 1) <<< 5)

/-- The state update of `try_next` and `poll_next` (`receiver.rs` 68–70, 109–111). -/
def takeWord {n : Nat} (st : Word n) : Word n := st &&& (1#(n + 6) <<< 5 - 1) &&& ~~~ERR n

/-- `state >> PARAM_BITS`. -/
def cnt {n : Nat} (st : Word n) : Nat := (st >>> 5).toNat

/-! ### The two ends -/

/-- A waker. -/
abbrev Waker := Nat

/-- Where the sender is. -/
inductive SPc (n : Nat) (ε : Type) where
  | idle
  /-- `send`: update the state (59); `p` unshifted -/
  | sendRmw (p : Word n)
  /-- `saturating_send`: update the state (88) -/
  | satRmw (p : Word n)
  /-- `send`, `saturating_send`: wake the receiver by reference (69, 95) -/
  | wakeRef
  /-- `send_err`: write the error (114) -/
  | errWrite (e : ε)
  /-- `send_err`: update the state (115) -/
  | errRmw
  /-- `send_err`: take the receiver's waker (119) -/
  | errWaker (st : Word n)
  /-- `send_err`: take the error back (125) -/
  | errBack (st : Word n)
  /-- `send_err`: release the object (127) -/
  | errFree (e : ε)
  /-- `poll_canceled`: load the state (149) -/
  | pcLoad (w : Waker)
  /-- `poll_canceled`: store the waker (154) -/
  | pcWrite (w : Waker)
  /-- `poll_canceled`: update the state (156) -/
  | pcRmw (w : Waker)
  /-- `poll_canceled`: take the waker back (158) -/
  | pcUndo
  /-- `is_canceled`: load the state (185) -/
  | icLoad
  /-- drop: update the state (214) -/
  | drRmw
  /-- drop: take the receiver's waker (216) -/
  | drWaker (st : Word n)
  /-- drop: release the object (223) -/
  | drFree
  | gone
deriving DecidableEq

/-- Between calls. -/
def SPc.isIdle {n : Nat} {ε : Type} : SPc n ε → Bool
  | .idle => true
  | _ => false

/-- No access is due. -/
def SPc.resting {n : Nat} {ε : Type} : SPc n ε → Bool
  | .idle | .gone => true
  | _ => false

/-- Where the receiver is. -/
inductive RPc (n : Nat) where
  | idle
  /-- `close`: update the state (45) -/
  | clRmw
  /-- `close`: take the sender's waker (47) -/
  | clWaker (st : Word n)
  /-- `try_next`: update the state (68) -/
  | tnRmw
  /-- `try_next`, `poll_next`: set the error flag again (73, 114, 135) -/
  | reErr
  /-- `try_next`, `poll_next`: take the error (78, 119, 141) -/
  | rdErr
  /-- `poll_next`: update the state (109) -/
  | pnRmw (w : Waker)
  /-- `poll_next`: store the waker (125) -/
  | pnWrite (w : Waker)
  /-- `poll_next`: update the state (126) -/
  | pnRmw2 (w : Waker)
  /-- `poll_next`: take the waker back (131) -/
  | pnUndo (st : Word n)
  /-- `is_terminated`: load the state (155) -/
  | itLoad
  /-- drop: update the state (166) -/
  | drRmw
  /-- drop: drop the error (170) -/
  | drErr (st : Word n)
  /-- drop: take the sender's waker (173) -/
  | drWaker (st : Word n)
  /-- drop: release the object (180) -/
  | drFree
  | gone
deriving DecidableEq

/-- Between calls. -/
def RPc.isIdle {n : Nat} : RPc n → Bool
  | .idle => true
  | _ => false

/-- No access is due. -/
def RPc.resting {n : Nat} : RPc n → Bool
  | .idle | .gone => true
  | _ => false

/-- Results of the two kinds of `send`. -/
inductive Res where
  | ok | full | canceled
deriving DecidableEq

/-- Observable events. -/
inductive Event (ε : Type) where
  /-- `send(p)` / `saturating_send(p)` with its result -/
  | send (p : Nat) (r : Res) | sat (p : Nat) (r : Res)
  /-- `send_err(e)` was called / returned `Ok` / returned `Err(e)` -/
  | errCall (e : ε) | errOk | errReturned (e : ε)
  /-- `poll_canceled` returned ready / pending with waker `w` -/
  | cancelReady | cancelPending (w : Waker)
  /-- `is_canceled` returned `b` -/
  | isCanceled (b : Bool)
  /-- the state update of `Sender::drop` -/
  | sDropped
  /-- the state update of `close` or `Receiver::drop` -/
  | closed
  /-- `k` pulses were received -/
  | recv (k : Nat)
  /-- an error was received -/
  | recvErr (e : ε)
  /-- `try_next` returned `Canceled` or `poll_next` returned `None` -/
  | ended
  /-- `try_next` returned `Empty` -/
  | empty
  /-- `poll_next` returned pending with waker `w` -/
  | pending (w : Waker)
  /-- `is_terminated` returned `b` -/
  | terminated (b : Bool)
  /-- `Receiver::drop` dropped the error -/
  | dropErr (e : ε)
  /-- the receiver's waker was stored / woken by reference / woken / dropped -/
  | storeRx (w : Waker) | wakeRefRx (w : Waker) | wakeRx (w : Waker) | dropRx (w : Waker)
  /-- the sender's waker was stored / woken / dropped -/
  | storeTx (w : Waker) | wakeTx (w : Waker) | dropTx (w : Waker)
  /-- the shared object was released -/
  | freed
deriving DecidableEq

/-- The shared object, the two ends, and the log, newest event first. -/
structure State (n : Nat) (ε : Type) where
  st : Word n
  err : Option ε
  rxw : Option Waker
  txw : Option Waker
  freed : Bool
  spc : SPc n ε
  rpc : RPc n
  log : List (Event ε)
deriving DecidableEq

/-- `channel`, `mod.rs` 55–60 and 100–107. -/
def init (n : Nat) (ε : Type) : State n ε :=
  { st := 0#(n + 6), err := none, rxw := none, txw := none, freed := false, spc := .idle, rpc := .idle, log := [] }

variable {n : Nat} {ε : Type}

/-- Append to the log. -/
def State.emit (s : State n ε) (e : Event ε) : State n ε := { s with log := e :: s.log }

/-- Release the object. -/
def State.release (s : State n ε) : State n ε := { s with freed := true }.emit .freed

/-- Calls of the sender. -/
inductive SOp (n : Nat) (ε : Type) where
  | send (p : Word n) | sat (p : Word n) | sendErr (e : ε) | pollCanceled (w : Waker) | isCanceled | drop
deriving DecidableEq

/-- Calls of the receiver. -/
inductive ROp where
  | close | tryNext | pollNext (w : Waker) | isTerminated | drop
deriving DecidableEq

/-- Start a call of the sender. `send` returns at once if the number of pulses
exceeds `CAPACITY - 1` (55–57). -/
def sCall (s : State n ε) : SOp n ε → State n ε
  | .send p => if capacity n - 1 < p then s.emit (.send p.toNat .full) else { s with spc := .sendRmw p }
  | .sat p => { s with spc := .satRmw p }
  | .sendErr e => { s with spc := .errWrite e }.emit (.errCall e)
  | .pollCanceled w => { s with spc := .pcLoad w }
  | .isCanceled => { s with spc := .icLoad }
  | .drop => { s with spc := .drRmw }

/-- Start a call of the receiver. -/
def rCall (s : State n ε) : ROp → State n ε
  | .close => { s with rpc := .clRmw }
  | .tryNext => { s with rpc := .tnRmw }
  | .pollNext w => { s with rpc := .pnRmw w }
  | .isTerminated => { s with rpc := .itLoad }
  | .drop => { s with rpc := .drRmw }

/-- `send_err` after the receiver's waker was handled (124–131). -/
def errTail (s : State n ε) (st : Word n) : State n ε :=
  if has st (CLOSED n) then { s with spc := .errBack st } else { s with spc := .gone }.emit .errOk

/-- Result of `send` after the state update, which saw `st` (62–71). -/
def sendTail (s : State n ε) (st p : Word n) : State n ε :=
  if (checkedAdd st (p <<< 5)).isNone then { s with spc := .idle }.emit (.send p.toNat .full)
  else if has st (CLOSED n) then { s with spc := .idle }.emit (.send p.toNat .canceled)
  else if has st (RX n) then { s with spc := .wakeRef }.emit (.send p.toNat .ok)
  else { s with spc := .idle }.emit (.send p.toNat .ok)

/-- The addend of `saturating_send` (83–87). -/
def satArg (p : Word n) : Word n := if capacity n - 1 < p then (capacity n - 1) <<< 5 else p <<< 5

/-- Result of `saturating_send` after the state update (91–97). -/
def satTail (s : State n ε) (st p : Word n) : State n ε :=
  if has st (CLOSED n) then { s with spc := .idle }.emit (.sat p.toNat .canceled)
  else if has st (RX n) then { s with spc := .wakeRef }.emit (.sat p.toNat .ok)
  else { s with spc := .idle }.emit (.sat p.toNat .ok)

/-- Next access of the sender. -/
def sStep (s : State n ε) : Option (State n ε) :=
  if s.spc.resting then some s
  else if s.freed then none
  else
    match s.spc with
    | .sendRmw p => some (sendTail { s with st := addWord s.st (p <<< 5) } s.st p)
    | .satRmw p => some (satTail { s with st := satWord s.st (satArg p) } s.st p)
    | .wakeRef =>
      match s.rxw with
      | none => none
      | some w => some ({ s with spc := .idle }.emit (.wakeRefRx w))
    | .errWrite e =>
      if s.err.isSome then none else some { s with err := some e, spc := .errRmw }
    | .errRmw =>
      let st := s.st
      let s := { s with st := st ||| (if has st (CLOSED n) then 0#(n + 6) else ERR n) ||| HALF n }
      if has st (RX n) then some { s with spc := .errWaker st } else some (errTail s st)
    | .errWaker st =>
      match s.rxw with
      | none => none
      | some w =>
        let s := { s with rxw := none }
        if has st (CLOSED n) then some (errTail (s.emit (.dropRx w)) st)
        else some (errTail (s.emit (.wakeRx w)) st)
    | .errBack st =>
      match s.err with
      | none => none
      | some e =>
        let s := { s with err := none }
        if has st (HALF n) then some { s with spc := .errFree e }
        else some ({ s with spc := .gone }.emit (.errReturned e))
    | .errFree e => some ({ s.release with spc := .gone }.emit (.errReturned e))
    | .pcLoad w =>
      if has s.st (CLOSED n) then some ({ s with spc := .idle }.emit .cancelReady)
      else if has s.st (TX n) then some ({ s with spc := .idle }.emit (.cancelPending w))
      else some { s with spc := .pcWrite w }
    | .pcWrite w =>
      if s.txw.isSome then none else some ({ s with txw := some w, spc := .pcRmw w }.emit (.storeTx w))
    | .pcRmw w =>
      let st := s.st
      let s := { s with st := st ||| TX n }
      if has st (CLOSED n) then some { s with spc := .pcUndo }
      else some ({ s with spc := .idle }.emit (.cancelPending w))
    | .pcUndo =>
      match s.txw with
      | none => none
      | some w => some (({ s with txw := none, spc := .idle }.emit (.dropTx w)).emit .cancelReady)
    | .icLoad => some ({ s with spc := .idle }.emit (.isCanceled (has s.st (CLOSED n))))
    | .drRmw =>
      let st := s.st
      let s := { s with st := st ||| HALF n }.emit .sDropped
      if has st (RX n) then some { s with spc := .drWaker st }
      else if has st (HALF n) then some { s with spc := .drFree }
      else some { s with spc := .gone }
    | .drWaker st =>
      match s.rxw with
      | none => none
      | some w =>
        let s := { s with rxw := none }
        if has st (HALF n) then some ({ s with spc := .drFree }.emit (.dropRx w))
        else some ({ s with spc := .gone }.emit (.wakeRx w))
    | .drFree => some { s.release with spc := .gone }
    | .idle | .gone => some s

/-- `Receiver::drop` after the error was handled (172–181). -/
def dropTail (s : State n ε) (st : Word n) : State n ε :=
  if !has st (CLOSED n) && has st (TX n) then { s with rpc := .drWaker st }
  else if has st (HALF n) then { s with rpc := .drFree }
  else { s with rpc := .gone }

/-- After a read-modify-write took a non-zero count (71–76, 112–117, 133–138). -/
def gotCount (s : State n ε) (st : Word n) : State n ε :=
  if has st (ERR n) then { s with rpc := .reErr }.emit (.recv (cnt st))
  else { s with rpc := .idle }.emit (.recv (cnt st))

/-- Next access of the receiver. -/
def rStep (s : State n ε) : Option (State n ε) :=
  if s.rpc.resting then some s
  else if s.freed then none
  else
    match s.rpc with
    | .clRmw =>
      let st := s.st
      let s := { s with st := st ||| CLOSED n }.emit .closed
      if !has st (CLOSED n) && has st (TX n) then some { s with rpc := .clWaker st }
      else some { s with rpc := .idle }
    | .clWaker st =>
      match s.txw with
      | none => none
      | some w =>
        let s := { s with txw := none, rpc := .idle }
        if has st (HALF n) then some (s.emit (.dropTx w)) else some (s.emit (.wakeTx w))
    | .tnRmw =>
      let st := s.st
      let s := { s with st := takeWord st }
      if cnt st ≠ 0 then some (gotCount s st)
      else if has st (ERR n) then some { s with rpc := .rdErr }
      else if has st (HALF n) || has st (CLOSED n) then some ({ s with rpc := .idle }.emit .ended)
      else some ({ s with rpc := .idle }.emit .empty)
    | .reErr => some { s with st := s.st ||| ERR n, rpc := .idle }
    | .rdErr =>
      match s.err with
      | none => none
      | some e => some ({ s with err := none, rpc := .idle }.emit (.recvErr e))
    | .pnRmw w =>
      let st := s.st
      let s := { s with st := takeWord st }
      if cnt st ≠ 0 then some (gotCount s st)
      else if has st (ERR n) then some { s with rpc := .rdErr }
      else if has st (HALF n) || has st (CLOSED n) then some ({ s with rpc := .idle }.emit .ended)
      else if has st (RX n) then some ({ s with rpc := .idle }.emit (.pending w))
      else some { s with rpc := .pnWrite w }
    | .pnWrite w =>
      if s.rxw.isSome then none else some ({ s with rxw := some w, rpc := .pnRmw2 w }.emit (.storeRx w))
    | .pnRmw2 w =>
      let st := s.st
      let s := { s with st := takeWord st ||| RX n }
      if has st (HALF n) then
        if cnt st ≠ 0 then some ({ s with rpc := .pnUndo st }.emit (.recv (cnt st)))
        else some { s with rpc := .pnUndo st }
      else if cnt st ≠ 0 then some (gotCount s st)
      else some ({ s with rpc := .idle }.emit (.pending w))
    | .pnUndo st =>
      match s.rxw with
      | none => none
      | some w =>
        let s := { s with rxw := none }.emit (.dropRx w)
        if cnt st ≠ 0 then
          if has st (ERR n) then some { s with rpc := .reErr } else some { s with rpc := .idle }
        else if has st (ERR n) then some { s with rpc := .rdErr }
        else some ({ s with rpc := .idle }.emit .ended)
    | .itLoad =>
      some ({ s with rpc := .idle }.emit (.terminated
        ((has s.st (HALF n) || has s.st (CLOSED n)) && !has s.st (ERR n) && cnt s.st == 0)))
    | .drRmw =>
      let st := s.st
      let s := { s with st := st ||| CLOSED n ||| HALF n }.emit .closed
      if has st (ERR n) then some { s with rpc := .drErr st } else some (dropTail s st)
    | .drErr st =>
      match s.err with
      | none => none
      | some e => some (dropTail ({ s with err := none }.emit (.dropErr e)) st)
    | .drWaker st =>
      match s.txw with
      | none => none
      | some w =>
        let s := { s with txw := none }
        if has st (HALF n) then some ({ s with rpc := .drFree }.emit (.dropTx w))
        else some ({ s with rpc := .gone }.emit (.wakeTx w))
    | .drFree => some { s.release with rpc := .gone }
    | .idle | .gone => some s

/-- Scheduler choices. -/
inductive Act (n : Nat) (ε : Type) where
  | sCall (op : SOp n ε) | sStep | rCall (op : ROp) | rStep
deriving DecidableEq

/-- One step. A call is possible only between calls. -/
def step (s : State n ε) : Act n ε → Option (State n ε)
  | .sCall op => if s.spc.isIdle then some (sCall s op) else some s
  | .sStep => sStep s
  | .rCall op => if s.rpc.isIdle then some (rCall s op) else some s
  | .rStep => rStep s

/-- A schedule. -/
def run (s : State n ε) : List (Act n ε) → Option (State n ε)
  | [] => some s
  | a :: as =>
    match step s a with
    | none => none
    | some s' => run s' as

end Verif.Pulse
