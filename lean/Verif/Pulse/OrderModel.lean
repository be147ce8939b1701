import Verif.Pulse.Model
import Verif.Order.Machine
/-!
# The pulse channel with the memory orderings of the source

`Model.lean` as a machine with memory orderings (`Verif.Order.Machine`): every step is one access with the ordering that
`sender.rs` and `receiver.rs` ask for. The sender is thread 0, the receiver thread 1.

A read-modify-write macro (`src/atomic_macros.rs` 28–101) is one access with the ordering of the successful
compare-exchange. The loads before it and failed attempts are left out: they could only order more.
-/
namespace Verif.Pulse

open Verif.Spsc
open Verif.Order (Ord Acc Machine)

variable {n : Nat} {ε : Type}

/-- The orderings of the updates of the state word. -/
structure Ords where
  send : Ord
  sat : Ord
  err : Ord
  pollCanceled : Ord
  sDrop : Ord
  close : Ord
  tryNext : Ord
  reErr : Ord
  poll : Ord
  poll2 : Ord
  rDrop : Ord
deriving DecidableEq, Repr

/-- `sender.rs` 59, 88 (`Acquire`), 115 (`AcqRel`), 156 (`Release`), 214 (`Acquire`); `receiver.rs` 45, 68 (`Acquire`), 73,
114, 135 (`Relaxed`), 109 (`Acquire`), 126 (`AcqRel`), 166 (`Acquire`). -/
def ords : Ords :=
  { send := ⟨true, false⟩, sat := ⟨true, false⟩, err := ⟨true, true⟩, pollCanceled := ⟨false, true⟩, sDrop := ⟨true, false⟩,
    close := ⟨true, false⟩, tryNext := ⟨true, false⟩, reErr := ⟨false, false⟩, poll := ⟨true, false⟩, poll2 := ⟨true, true⟩,
    rDrop := ⟨true, false⟩ }

/-- `Shared::state`, `mod.rs` 93. -/
abbrev lState : Nat := 0
/-- `Shared::err`, 94. -/
abbrev lErr : Nat := 1
/-- `Shared::rx_waker`, 95. -/
abbrev lRxw : Nat := 2
/-- `Shared::tx_waker`, 96. -/
abbrev lTxw : Nat := 3

/-- The next access of the sender (`SPc`); the loads are relaxed (149, 185). -/
def sAcc (o : Ords) : SPc n ε → Option Acc
  | .sendRmw _ => some (.rmw lState o.send)
  | .satRmw _ => some (.rmw lState o.sat)
  | .wakeRef => some (.other lRxw .read)
  | .errWrite _ => some (.other lErr .write)
  | .errRmw => some (.rmw lState o.err)
  | .errWaker _ => some (.other lRxw .read)
  | .errBack _ => some (.other lErr .read)
  | .errFree _ => some (.other lState .free)
  | .pcLoad _ => some (.load lState false)
  | .pcWrite _ => some (.other lTxw .write)
  | .pcRmw _ => some (.rmw lState o.pollCanceled)
  | .pcUndo => some (.other lTxw .read)
  | .icLoad => some (.load lState false)
  | .drRmw => some (.rmw lState o.sDrop)
  | .drWaker _ => some (.other lRxw .read)
  | .drFree => some (.other lState .free)
  | .idle | .gone => none

/-- The next access of the receiver (`RPc`); the load is relaxed (155). -/
def rAcc (o : Ords) : RPc n → Option Acc
  | .clRmw => some (.rmw lState o.close)
  | .clWaker _ => some (.other lTxw .read)
  | .tnRmw => some (.rmw lState o.tryNext)
  | .reErr => some (.rmw lState o.reErr)
  | .rdErr => some (.other lErr .read)
  | .pnRmw _ => some (.rmw lState o.poll)
  | .pnWrite _ => some (.other lRxw .write)
  | .pnRmw2 _ => some (.rmw lState o.poll2)
  | .pnUndo _ => some (.other lRxw .read)
  | .itLoad => some (.load lState false)
  | .drRmw => some (.rmw lState o.rDrop)
  | .drErr _ => some (.other lErr .read)
  | .drWaker _ => some (.other lTxw .read)
  | .drFree => some (.other lState .free)
  | .idle | .gone => none

/-- The channel; a call is possible only between calls. -/
def machine (n : Nat) (ε : Type) (o : Ords) : Machine (State n ε) (Word n) (SOp n ε ⊕ ROp) where
  init := init n ε
  word s l := if l = 0 then s.st else 0#(n + 6)
  setWord s l v := if l = 0 then { s with st := v } else s
  call s
    | .inl op => if s.spc.isIdle then sCall s op else s
    | .inr op => if s.rpc.isIdle then rCall s op else s
  acc
    | 0, s => sAcc o s.spc
    | 1, s => rAcc o s.rpc
    | _, _ => none
  step
    | 0, s => sStep s
    | 1, s => rStep s
    | _, s => some s

end Verif.Pulse
