import Verif.Spsc.Bits
/-!
# Model of the ring channel: `src/sync/spsc/ring/`

As in `Verif.Oneshot` and `Verif.Pulse`: two contexts, one access to the shared
object (`mod.rs` 103–114) per step, a read-modify-write macro is one step,
sequential consistency. The state word has `2 * k + 6` bits for an arbitrary `k`
(`COUNT_BITS`: 13 for 32-bit, 29 for 64-bit words). Line numbers are those of
`sender.rs` and `receiver.rs`.

`none` is undefined behaviour: access after release, double release, reading an
empty `MaybeUninit` cell, an index out of bounds; or overwriting a full error or
waker cell. Writing to a full slot of the buffer is silent, as in the code (the old
value is lost).

The addition of `add_length` wraps around, as it does without overflow checks.

The result of a call is logged at the step that fixes it. `Sink::start_send` is
`try_send` (220–223) and not modelled separately.
-/
namespace Verif.Ring

open Verif.Spsc

/-! ### The state word -/

/-- The state word. -/
abbrev Word (k : Nat) := BitVec (2 * k + 6)

/-- `TX_READY_WAKER_STORED`, `mod.rs` 72, 81. -/
def READY (k : Nat) : Word k := flag (2 * k + 6) 0
/-- `TX_FLUSH_WAKER_STORED`, `mod.rs` 73, 82. -/
def FLUSH (k : Nat) : Word k := flag (2 * k + 6) 1
/-- `RX_WAKER_STORED`, `mod.rs` 74, 83. -/
def RX (k : Nat) : Word k := flag (2 * k + 6) 2
/-- `ERR_STORED`, `mod.rs` 75, 84. -/
def ERR (k : Nat) : Word k := flag (2 * k + 6) 3
/-- `CLOSED`, `mod.rs` 76, 85. -/
def CLOSED (k : Nat) : Word k := flag (2 * k + 6) 4
/-- `HALF_DROPPED`, `mod.rs` 77, 86. -/
def HALF (k : Nat) : Word k := flag (2 * k + 6) 5

/-- `MAX_CAPACITY`, `mod.rs` 70. -/
def maxCapacity (k : Nat) : Nat := 2 ^ k

variable {k : Nat} {τ ε : Type}

/-- `has_waker`, `mod.rs` 130–132. -/
def hasWaker (st : Word k) : Bool := has st (READY k) || has st (FLUSH k)

/-- The three things a sender can wait for. -/
inductive Kind where
  | ready | flush | close
deriving DecidableEq

/-- `has_ready_waker`, `has_flush_waker`, `has_close_waker`, `mod.rs` 134–144. -/
def hasKind : Kind → Word k → Bool
  | .ready, st => has st (READY k) && !has st (FLUSH k)
  | .flush, st => !has st (READY k) && has st (FLUSH k)
  | .close, st => has st (READY k) && has st (FLUSH k)

/-- `set_ready_waker`, `set_flush_waker`, `set_close_waker`, `mod.rs` 146–156. -/
def setKind : Kind → Word k → Word k
  | .ready, st => st &&& ~~~FLUSH k ||| READY k
  | .flush, st => st &&& ~~~READY k ||| FLUSH k
  | .close, st => st ||| READY k ||| FLUSH k

/-- `get_length`, `mod.rs` 158–160. -/
def len (st : Word k) : Nat := (st >>> (6 + k)).toNat

/-- `get_cursor`, `mod.rs` 162–164. -/
def cur (st : Word k) : Nat := (st >>> 6 &&& (1#(2 * k + 6) <<< k - 1#(2 * k + 6))).toNat

/-- `add_cursor`, `mod.rs` 166–169. (Arguments are below `2 ^ k + 1`, so that the sum
fits in a word.) -/
def addCursor (cursor addition cap : Nat) : Nat :=
  if cap ≤ cursor + addition then cursor + addition - cap else cursor + addition

/-- `claim_next`, `mod.rs` 185–189. -/
def claimNext (cap : Nat) (st : Word k) (length : Nat) : Word k :=
  st &&& (1#(2 * k + 6) <<< 6 - 1#(2 * k + 6))
    ||| BitVec.ofNat (2 * k + 6) (addCursor (cur st) 1 cap) <<< 6
    ||| BitVec.ofNat (2 * k + 6) (length - 1) <<< (6 + k)

/-- `claim_next_unless_empty`, `mod.rs` 171–174. -/
def claimUnlessEmpty (cap : Nat) (st : Word k) : Word k :=
  if 0 < len st then claimNext cap st (len st) else st

/-- `claim_next_if_full`, `mod.rs` 176–183. -/
def claimIfFull (cap : Nat) (st : Word k) : Word k :=
  if !has st (CLOSED k) && len st == cap then claimNext cap st (len st) else st

/-- `add_length` with addition 1, `mod.rs` 191–193. -/
def addLength (st : Word k) : Word k :=
  if !has st (CLOSED k) then st + 1#(2 * k + 6) <<< (6 + k) else st

/-- The state update of `try_next` and `poll_next` (`receiver.rs` 67, 137). -/
def take (cap : Nat) (st : Word k) : Word k := claimUnlessEmpty cap st &&& ~~~ERR k

/-- The state update of `Receiver::drop` (`receiver.rs` 189), without the flags. -/
def clearLen (st : Word k) : Word k := st <<< k >>> k

/-! ### The two ends -/

/-- A waker. -/
abbrev Waker := Nat

/-- Where the sender is. The values in `wrRmw` and `wrBack` are in the buffer; the
program points carry them for the log only. -/
inductive SPc (k : Nat) (τ ε : Type) where
  | idle
  /-- `try_send`: load the state (50) -/
  | tsLoad (v : τ)
  /-- `send_overwrite`: load the state (88) -/
  | owLoad (v : τ)
  /-- `send_overwrite`: claim the oldest value if full (91) -/
  | owClaim (v : τ)
  /-- `send_overwrite`: read the oldest value (102) -/
  | owRead (v : τ) (i : Nat)
  /-- `try_send`, `send_overwrite`: write the value (56, 106) -/
  | wrWrite (v : τ) (i : Nat)
  /-- `try_send`, `send_overwrite`: update the state (57, 107) -/
  | wrRmw (v : τ) (i : Nat)
  /-- `try_send`, `send_overwrite`: take the value back (59, 109) -/
  | wrBack (v : τ) (i : Nat)
  /-- `try_send`, `send_overwrite`: wake the receiver by reference (63, 113) -/
  | wakeRef
  /-- `send_err`: write the error (132) -/
  | errWrite (e : ε)
  /-- `send_err`: update the state (133) -/
  | errRmw
  /-- `send_err`: take the receiver's waker (137) -/
  | errWaker (st : Word k)
  /-- `send_err`: take the error back (143) -/
  | errBack (st : Word k)
  /-- `send_err`: release the object (145) -/
  | errFree (e : ε)
  /-- `is_canceled`: load the state (158) -/
  | icLoad
  /-- `poll_ready`, `poll_flush`, `poll_close`: load the state (192, 227, 257) -/
  | pLoad (κ : Kind) (w : Waker)
  /-- …: store the waker (202, 237, 264) -/
  | pWrite (κ : Kind) (w : Waker)
  /-- …: update the state (205, 240, 267); `wr` is `write_waker` -/
  | pRmw (κ : Kind) (w : Waker) (wr : Bool)
  /-- …: take the waker back (208, 243, 270) -/
  | pUndo (κ : Kind)
  /-- drop: update the state (284) -/
  | drRmw
  /-- drop: take the receiver's waker (286) -/
  | drWaker (st : Word k)
  /-- drop: release the object (293) -/
  | drFree
  | gone

/-- Between calls. -/
def SPc.isIdle : SPc k τ ε → Bool
  | .idle => true
  | _ => false

/-- No access is due. -/
def SPc.resting : SPc k τ ε → Bool
  | .idle | .gone => true
  | _ => false

/-- Where the receiver is. -/
inductive RPc (k : Nat) where
  | idle
  /-- `close`: update the state (45) -/
  | clRmw
  /-- `close`: take the sender's waker (47) -/
  | clWaker (st : Word k)
  /-- `try_next`: update the state (66) -/
  | tnRmw
  /-- `take_value`: update the state (101) -/
  | tvRmw (i : Nat) (wake err : Bool)
  /-- `take_value`: wake the sender by reference (104) -/
  | tvWake (i : Nat)
  /-- `take_value`: read the value (106) -/
  | tvRead (i : Nat)
  /-- `try_next`, `poll_next`: take the error (74, 144, 163) -/
  | rdErr
  /-- `poll_next`: update the state (136) -/
  | pnRmw (w : Waker)
  /-- `poll_next`: store the waker (150) -/
  | pnWrite (w : Waker)
  /-- `poll_next`: update the state (151) -/
  | pnRmw2 (w : Waker)
  /-- `poll_next`: take the waker back (155) -/
  | pnUndo (st : Word k)
  /-- `is_terminated`: load the state (177) -/
  | itLoad
  /-- drop: update the state (188) -/
  | drRmw
  /-- drop: drop the pending value number `j` (195) -/
  | drSlot (st : Word k) (j : Nat)
  /-- drop: drop the error (198) -/
  | drErr (st : Word k)
  /-- drop: take the sender's waker (201) -/
  | drWaker (st : Word k)
  /-- drop: release the object (208) -/
  | drFree
  | gone

/-- Between calls. -/
def RPc.isIdle : RPc k → Bool
  | .idle => true
  | _ => false

/-- No access is due. -/
def RPc.resting : RPc k → Bool
  | .idle | .gone => true
  | _ => false

/-- Observable events. -/
inductive Event (τ ε : Type) where
  /-- `try_send(v)` / `send_overwrite(v)` was called -/
  | callSend (v : τ) | callOver (v : τ)
  /-- `try_send` returned `Full` with `v` / `v` was put in the queue / `try_send` or
  `send_overwrite` returned `Canceled` with `v` -/
  | full (v : τ) | push (v : τ) | canceled (v : τ)
  /-- `send_overwrite` removed the oldest value from the queue / read it -/
  | claimTx | overwrote (v : τ)
  /-- `send_err(e)` was called / returned `Ok` / returned `Err(e)` -/
  | errCall (e : ε) | errOk | errReturned (e : ε)
  /-- `poll_ready`, `poll_flush`, `poll_close` returned ready / `Canceled` / pending
  with waker `w` -/
  | pollOk (κ : Kind) | pollCanceled (κ : Kind) | pollPending (κ : Kind) (w : Waker)
  /-- `is_canceled` returned `b` -/
  | isCanceled (b : Bool)
  /-- the state update of `Sender::drop` -/
  | sDropped
  /-- the state update of `close` or `Receiver::drop` -/
  | closed
  /-- the receiver removed the oldest value from the queue / read it -/
  | claimRx | recv (v : τ)
  /-- `Receiver::drop` removed all values from the queue / dropped one -/
  | claimAll | dropped (v : τ)
  /-- an error was received -/
  | recvErr (e : ε)
  /-- `try_next` returned `Canceled` or `poll_next` returned `None` -/
  | ended
  /-- `try_next` returned `Empty` -/
  | empty
  /-- `poll_next` returned pending with waker `w` -/
  | pending (w : Waker)
  /-- `is_terminated` returned `b` -/
  | terminated (b : Bool)
  /-- `Receiver::drop` dropped the error -/
  | dropErr (e : ε)
  /-- the receiver's waker was stored / woken by reference / woken / dropped -/
  | storeRx (w : Waker) | wakeRefRx (w : Waker) | wakeRx (w : Waker) | dropRx (w : Waker)
  /-- the sender's waker was stored / woken by reference / woken / dropped -/
  | storeTx (w : Waker) | wakeRefTx (w : Waker) | wakeTx (w : Waker) | dropTx (w : Waker)
  /-- the shared object was released -/
  | freed
deriving DecidableEq

/-- The shared object, the two ends, and the log, newest event first. -/
structure State (k : Nat) (τ ε : Type) where
  st : Word k
  buf : Nat → Option τ
  err : Option ε
  rxw : Option Waker
  txw : Option Waker
  freed : Bool
  spc : SPc k τ ε
  rpc : RPc k
  log : List (Event τ ε)

/-- `Shared::new`, `mod.rs` 117–127. -/
def init (k : Nat) (τ ε : Type) : State k τ ε :=
  { st := 0#(2 * k + 6), buf := fun _ => none, err := none, rxw := none, txw := none, freed := false,
    spc := .idle, rpc := .idle, log := [] }

/-- `channel`, `mod.rs` 61–67. `none` is the failed assertion. -/
def channel (k : Nat) (τ ε : Type) (cap : Nat) : Option (State k τ ε) :=
  if 1 < cap ∧ cap ≤ maxCapacity k then some (init k τ ε) else none

/-- Append to the log. -/
def State.emit (s : State k τ ε) (e : Event τ ε) : State k τ ε := { s with log := e :: s.log }

/-- Release the object. -/
def State.release (s : State k τ ε) : State k τ ε := { s with freed := true }.emit .freed

/-- Write to a slot. -/
def upd (buf : Nat → Option τ) (i : Nat) (v : Option τ) : Nat → Option τ := fun j => if j = i then v else buf j

/-- Calls of the sender. -/
inductive SOp (τ ε : Type) where
  | trySend (v : τ) | sendOverwrite (v : τ) | sendErr (e : ε) | poll (κ : Kind) (w : Waker) | isCanceled | drop

/-- Calls of the receiver. -/
inductive ROp where
  | close | tryNext | pollNext (w : Waker) | isTerminated | drop
deriving DecidableEq

/-- Start a call of the sender. -/
def sCall (s : State k τ ε) : SOp τ ε → State k τ ε
  | .trySend v => { s with spc := .tsLoad v }.emit (.callSend v)
  | .sendOverwrite v => { s with spc := .owLoad v }.emit (.callOver v)
  | .sendErr e => { s with spc := .errWrite e }.emit (.errCall e)
  | .poll κ w => { s with spc := .pLoad κ w }
  | .isCanceled => { s with spc := .icLoad }
  | .drop => { s with spc := .drRmw }

/-- Start a call of the receiver. -/
def rCall (s : State k τ ε) : ROp → State k τ ε
  | .close => { s with rpc := .clRmw }
  | .tryNext => { s with rpc := .tnRmw }
  | .pollNext w => { s with rpc := .pnRmw w }
  | .isTerminated => { s with rpc := .itLoad }
  | .drop => { s with rpc := .drRmw }

/-- `send_overwrite` after the state was determined (96–105). -/
def owMid (cap : Nat) (s : State k τ ε) (st : Word k) (v : τ) : State k τ ε :=
  if has st (CLOSED k) then { s with spc := .idle }.emit (.canceled v)
  else if len st = cap then { s with spc := .owRead v (cur st) }
  else { s with spc := .wrWrite v (addCursor (cur st) (len st) cap) }

/-- `send_err` after the receiver's waker was handled (142–149). -/
def errTail (s : State k τ ε) (st : Word k) : State k τ ε :=
  if has st (CLOSED k) then { s with spc := .errBack st } else { s with spc := .gone }.emit .errOk

/-- Is the poll ready? `poll_ready` 196, 212; `poll_flush` 231, 247; `poll_close` waits
for the close only. -/
def pollReady (cap : Nat) (κ : Kind) (st : Word k) : Bool :=
  match κ with
  | .ready => decide (len st < cap)
  | .flush => len st == 0
  | .close => false

/-- The result of a poll on a closed channel: 194, 229, 259. -/
def closedResult : Kind → Event τ ε
  | .close => .pollOk .close
  | κ => .pollCanceled κ

/-- Next access of the sender. -/
def sStep (cap : Nat) (s : State k τ ε) : Option (State k τ ε) :=
  if s.spc.resting then some s
  else if s.freed then none
  else
    match s.spc with
    | .tsLoad v =>
      if len s.st = cap then some ({ s with spc := .idle }.emit (.full v))
      else some { s with spc := .wrWrite v (addCursor (cur s.st) (len s.st) cap) }
    | .owLoad v =>
      if len s.st = cap then some { s with spc := .owClaim v } else some (owMid cap s s.st v)
    | .owClaim v =>
      let st := s.st
      let s := { s with st := claimIfFull cap st }
      if !has st (CLOSED k) && len st == cap then some (owMid cap (s.emit .claimTx) st v)
      else some (owMid cap s st v)
    | .owRead v i =>
      if cap ≤ i then none
      else
        match s.buf i with
        | none => none
        | some x => some ({ s with buf := upd s.buf i none, spc := .wrWrite v i }.emit (.overwrote x))
    | .wrWrite v i =>
      if cap ≤ i then none else some { s with buf := upd s.buf i (some v), spc := .wrRmw v i }
    | .wrRmw v i =>
      let st := s.st
      let s := { s with st := addLength st }
      if has st (CLOSED k) then some { s with spc := .wrBack v i }
      else if has st (RX k) then some ({ s with spc := .wakeRef }.emit (.push v))
      else some ({ s with spc := .idle }.emit (.push v))
    | .wrBack _ i =>
      if cap ≤ i then none
      else
        match s.buf i with
        | none => none
        | some x => some ({ s with buf := upd s.buf i none, spc := .idle }.emit (.canceled x))
    | .wakeRef =>
      match s.rxw with
      | none => none
      | some w => some ({ s with spc := .idle }.emit (.wakeRefRx w))
    | .errWrite e =>
      if s.err.isSome then none else some { s with err := some e, spc := .errRmw }
    | .errRmw =>
      let st := s.st
      let s := { s with st := st ||| (if has st (CLOSED k) then 0#(2 * k + 6) else ERR k) ||| HALF k }
      if has st (RX k) then some { s with spc := .errWaker st } else some (errTail s st)
    | .errWaker st =>
      match s.rxw with
      | none => none
      | some w =>
        let s := { s with rxw := none }
        if has st (CLOSED k) then some (errTail (s.emit (.dropRx w)) st)
        else some (errTail (s.emit (.wakeRx w)) st)
    | .errBack st =>
      match s.err with
      | none => none
      | some e =>
        let s := { s with err := none }
        if has st (HALF k) then some { s with spc := .errFree e }
        else some ({ s with spc := .gone }.emit (.errReturned e))
    | .errFree e => some ({ s.release with spc := .gone }.emit (.errReturned e))
    | .icLoad => some ({ s with spc := .idle }.emit (.isCanceled (has s.st (CLOSED k))))
    | .pLoad κ w =>
      if has s.st (CLOSED k) then some ({ s with spc := .idle }.emit (closedResult κ))
      else if pollReady cap κ s.st then some ({ s with spc := .idle }.emit (.pollOk κ))
      else if hasKind κ s.st then some ({ s with spc := .idle }.emit (.pollPending κ w))
      else if hasWaker s.st then some { s with spc := .pRmw κ w false }
      else some { s with spc := .pWrite κ w }
    | .pWrite κ w =>
      if s.txw.isSome then none else some ({ s with txw := some w, spc := .pRmw κ w true }.emit (.storeTx w))
    | .pRmw κ w wr =>
      let st := s.st
      let s := { s with st := setKind κ st }
      if has st (CLOSED k) then
        if wr then some { s with spc := .pUndo κ } else some ({ s with spc := .idle }.emit (closedResult κ))
      else if pollReady cap κ st then some ({ s with spc := .idle }.emit (.pollOk κ))
      else some ({ s with spc := .idle }.emit (.pollPending κ w))
    | .pUndo κ =>
      match s.txw with
      | none => none
      | some w => some (({ s with txw := none, spc := .idle }.emit (.dropTx w)).emit (closedResult κ))
    | .drRmw =>
      let st := s.st
      let s := { s with st := st ||| HALF k }.emit .sDropped
      if has st (RX k) then some { s with spc := .drWaker st }
      else if has st (HALF k) then some { s with spc := .drFree }
      else some { s with spc := .gone }
    | .drWaker st =>
      match s.rxw with
      | none => none
      | some w =>
        let s := { s with rxw := none }
        if has st (HALF k) then some ({ s with spc := .drFree }.emit (.dropRx w))
        else some ({ s with spc := .gone }.emit (.wakeRx w))
    | .drFree => some { s.release with spc := .gone }
    | .idle | .gone => some s

/-- Does `take_value` wake the sender? (86–92) -/
def shouldWake (cap : Nat) (st : Word k) : Bool :=
  if hasKind .ready st then len st == cap else if hasKind .flush st then len st == 1 else false

/-- `take_value` up to its first access (85–100). -/
def takeValue (cap : Nat) (s : State k τ ε) (st : Word k) : State k τ ε :=
  if shouldWake cap st || has st (ERR k) then { s with rpc := .tvRmw (cur st) (shouldWake cap st) (has st (ERR k)) }
  else { s with rpc := .tvRead (cur st) }

/-- `Receiver::drop` after the error was handled (200–209). -/
def dropTail (s : State k τ ε) (st : Word k) : State k τ ε :=
  if !has st (CLOSED k) && hasWaker st then { s with rpc := .drWaker st }
  else if has st (HALF k) then { s with rpc := .drFree }
  else { s with rpc := .gone }

/-- `Receiver::drop` at the head of the loop (193–199). -/
def dropLoop (s : State k τ ε) (st : Word k) (j : Nat) : State k τ ε :=
  if j < len st then { s with rpc := .drSlot st j }
  else if has st (ERR k) then { s with rpc := .drErr st }
  else dropTail s st

/-- Next access of the receiver. -/
def rStep (cap : Nat) (s : State k τ ε) : Option (State k τ ε) :=
  if s.rpc.resting then some s
  else if s.freed then none
  else
    match s.rpc with
    | .clRmw =>
      let st := s.st
      let s := { s with st := st ||| CLOSED k }.emit .closed
      if !has st (CLOSED k) && hasWaker st then some { s with rpc := .clWaker st }
      else some { s with rpc := .idle }
    | .clWaker st =>
      match s.txw with
      | none => none
      | some w =>
        let s := { s with txw := none, rpc := .idle }
        if has st (HALF k) then some (s.emit (.dropTx w)) else some (s.emit (.wakeTx w))
    | .tnRmw =>
      let st := s.st
      let s := { s with st := take cap st }
      if 0 < len st then some (takeValue cap (s.emit .claimRx) st)
      else if has st (ERR k) then some { s with rpc := .rdErr }
      else if has st (HALF k) || has st (CLOSED k) then some ({ s with rpc := .idle }.emit .ended)
      else some ({ s with rpc := .idle }.emit .empty)
    | .tvRmw i wake err =>
      let st := s.st
      let s := { s with st := st ||| (if wake then READY k ||| FLUSH k else 0#(2 * k + 6))
        ||| (if err then ERR k else 0#(2 * k + 6)) }
      if wake && !has st (HALF k) then some { s with rpc := .tvWake i } else some { s with rpc := .tvRead i }
    | .tvWake i =>
      match s.txw with
      | none => none
      | some w => some ({ s with rpc := .tvRead i }.emit (.wakeRefTx w))
    | .tvRead i =>
      if cap ≤ i then none
      else
        match s.buf i with
        | none => none
        | some x => some ({ s with buf := upd s.buf i none, rpc := .idle }.emit (.recv x))
    | .rdErr =>
      match s.err with
      | none => none
      | some e => some ({ s with err := none, rpc := .idle }.emit (.recvErr e))
    | .pnRmw w =>
      let st := s.st
      let s := { s with st := take cap st }
      if 0 < len st then some (takeValue cap (s.emit .claimRx) st)
      else if has st (ERR k) then some { s with rpc := .rdErr }
      else if has st (HALF k) || has st (CLOSED k) then some ({ s with rpc := .idle }.emit .ended)
      else if has st (RX k) then some ({ s with rpc := .idle }.emit (.pending w))
      else some { s with rpc := .pnWrite w }
    | .pnWrite w =>
      if s.rxw.isSome then none else some ({ s with rxw := some w, rpc := .pnRmw2 w }.emit (.storeRx w))
    | .pnRmw2 w =>
      let st := s.st
      let s := { s with st := take cap st ||| RX k }
      if has st (HALF k) then
        if 0 < len st then some ({ s with rpc := .pnUndo st }.emit .claimRx)
        else some { s with rpc := .pnUndo st }
      else if 0 < len st then some (takeValue cap (s.emit .claimRx) st)
      else some ({ s with rpc := .idle }.emit (.pending w))
    | .pnUndo st =>
      match s.rxw with
      | none => none
      | some w =>
        let s := { s with rxw := none }.emit (.dropRx w)
        if 0 < len st then some (takeValue cap s st)
        else if has st (ERR k) then some { s with rpc := .rdErr }
        else some ({ s with rpc := .idle }.emit .ended)
    | .itLoad =>
      some ({ s with rpc := .idle }.emit (.terminated
        ((has s.st (HALF k) || has s.st (CLOSED k)) && !has s.st (ERR k) && len s.st == 0)))
    | .drRmw =>
      let st := s.st
      let s := ({ s with st := clearLen st ||| CLOSED k ||| HALF k }.emit .closed).emit .claimAll
      some (dropLoop s st 0)
    | .drSlot st j =>
      if cap ≤ addCursor (cur st) j cap then none
      else
        match s.buf (addCursor (cur st) j cap) with
        | none => none
        | some x =>
          some (dropLoop ({ s with buf := upd s.buf (addCursor (cur st) j cap) none }.emit (.dropped x)) st (j + 1))
    | .drErr st =>
      match s.err with
      | none => none
      | some e => some (dropTail ({ s with err := none }.emit (.dropErr e)) st)
    | .drWaker st =>
      match s.txw with
      | none => none
      | some w =>
        let s := { s with txw := none }
        if has st (HALF k) then some ({ s with rpc := .drFree }.emit (.dropTx w))
        else some ({ s with rpc := .gone }.emit (.wakeTx w))
    | .drFree => some { s.release with rpc := .gone }
    | .idle | .gone => some s

/-- Scheduler choices. -/
inductive Act (τ ε : Type) where
  | sCall (op : SOp τ ε) | sStep | rCall (op : ROp) | rStep

/-- One step. A call is possible only between calls. -/
def step (cap : Nat) (s : State k τ ε) : Act τ ε → Option (State k τ ε)
  | .sCall op => if s.spc.isIdle then some (sCall s op) else some s
  | .sStep => sStep cap s
  | .rCall op => if s.rpc.isIdle then some (rCall s op) else some s
  | .rStep => rStep cap s

/-- A schedule. -/
def run (cap : Nat) (s : State k τ ε) : List (Act τ ε) → Option (State k τ ε)
  | [] => some s
  | a :: as =>
    match step cap s a with
    | none => none
    | some s' => run cap s' as

end Verif.Ring
