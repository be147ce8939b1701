import Verif.Ring.Model
import Verif.Order.Machine
/-!
# The ring channel with the memory orderings of the source

`Model.lean` as a machine with memory orderings (`Verif.Order.Machine`): every step is one access with the ordering that
`sender.rs` and `receiver.rs` ask for. The sender is thread 0, the receiver thread 1.

A read-modify-write macro (`src/atomic_macros.rs` 28–101) is one access with the ordering of the successful
compare-exchange. The loads before it and failed attempts are left out: they could only order more.
-/
namespace Verif.Ring

open Verif.Spsc
open Verif.Order (Ord Acc Machine)

variable {k : Nat} {τ ε : Type}

/-- The orderings of the updates of the state word. -/
structure Ords where
  claim : Ord
  push : Ord
  err : Ord
  wait : Kind → Ord
  sDrop : Ord
  close : Ord
  tryNext : Ord
  take : Ord
  poll : Ord
  poll2 : Ord
  rDrop : Ord

/-- `sender.rs` 91 (`Relaxed`), 57, 107 (`AcqRel`), 133 (`AcqRel`), 205, 240, 267 (`Release`), 284 (`Acquire`);
`receiver.rs` 45, 66, 101, 136 (`Acquire`), 151 (`AcqRel`), 188 (`Acquire`). -/
def ords : Ords :=
  { claim := ⟨false, false⟩, push := ⟨true, true⟩, err := ⟨true, true⟩, wait := fun _ => ⟨false, true⟩, sDrop := ⟨true, false⟩,
    close := ⟨true, false⟩, tryNext := ⟨true, false⟩, take := ⟨true, false⟩, poll := ⟨true, false⟩, poll2 := ⟨true, true⟩,
    rDrop := ⟨true, false⟩ }

/-- `SharedHdr::state`, `mod.rs` 109. -/
abbrev lState : Nat := 0
/-- `SharedHdr::err`, 110. -/
abbrev lErr : Nat := 1
/-- `SharedHdr::rx_waker`, 111. -/
abbrev lRxw : Nat := 2
/-- `SharedHdr::tx_waker`, 112. -/
abbrev lTxw : Nat := 3
/-- Slot `i` of `Shared::buf`, 105. -/
abbrev lSlot (i : Nat) : Nat := 4 + i

/-- The next access of the sender (`SPc`); the loads are relaxed (50, 88, 158, 192, 227, 257). -/
def sAcc (o : Ords) : SPc k τ ε → Option Acc
  | .tsLoad _ | .owLoad _ | .icLoad | .pLoad _ _ => some (.load lState false)
  | .owClaim _ => some (.rmw lState o.claim)
  | .owRead _ i => some (.other (lSlot i) .read)
  | .wrWrite _ i => some (.other (lSlot i) .write)
  | .wrRmw _ _ => some (.rmw lState o.push)
  | .wrBack _ i => some (.other (lSlot i) .read)
  | .wakeRef => some (.other lRxw .read)
  | .errWrite _ => some (.other lErr .write)
  | .errRmw => some (.rmw lState o.err)
  | .errWaker _ => some (.other lRxw .read)
  | .errBack _ => some (.other lErr .read)
  | .errFree _ => some (.other lState .free)
  | .pWrite _ _ => some (.other lTxw .write)
  | .pRmw κ _ _ => some (.rmw lState (o.wait κ))
  | .pUndo _ => some (.other lTxw .read)
  | .drRmw => some (.rmw lState o.sDrop)
  | .drWaker _ => some (.other lRxw .read)
  | .drFree => some (.other lState .free)
  | .idle | .gone => none

/-- The next access of the receiver (`RPc`); the load is relaxed (177). -/
def rAcc (o : Ords) (cap : Nat) : RPc k → Option Acc
  | .clRmw => some (.rmw lState o.close)
  | .clWaker _ => some (.other lTxw .read)
  | .tnRmw => some (.rmw lState o.tryNext)
  | .tvRmw _ _ _ => some (.rmw lState o.take)
  | .tvWake _ => some (.other lTxw .read)
  | .tvRead i => some (.other (lSlot i) .read)
  | .rdErr => some (.other lErr .read)
  | .pnRmw _ => some (.rmw lState o.poll)
  | .pnWrite _ => some (.other lRxw .write)
  | .pnRmw2 _ => some (.rmw lState o.poll2)
  | .pnUndo _ => some (.other lRxw .read)
  | .itLoad => some (.load lState false)
  | .drRmw => some (.rmw lState o.rDrop)
  | .drSlot st j => some (.other (lSlot (addCursor (cur st) j cap)) .read)
  | .drErr _ => some (.other lErr .read)
  | .drWaker _ => some (.other lTxw .read)
  | .drFree => some (.other lState .free)
  | .idle | .gone => none

/-- The channel; a call is possible only between calls. The sender does its accesses only in states with `ok`. -/
def guarded (k : Nat) (τ ε : Type) (cap : Nat) (o : Ords) (ok : State k τ ε → Bool) :
    Machine (State k τ ε) (Word k) (SOp τ ε ⊕ ROp) where
  init := init k τ ε
  word s l := if l = 0 then s.st else 0#(2 * k + 6)
  setWord s l v := if l = 0 then { s with st := v } else s
  call s
    | .inl op => if s.spc.isIdle then sCall s op else s
    | .inr op => if s.rpc.isIdle then rCall s op else s
  acc
    | 0, s => sAcc o s.spc
    | 1, s => rAcc o cap s.rpc
    | _, _ => none
  step
    | 0, s => if ok s then sStep cap s else none
    | 1, s => rStep cap s
    | _, s => some s

/-- The channel of the source. -/
def machine (k : Nat) (τ ε : Type) (cap : Nat) (o : Ords) : Machine (State k τ ε) (Word k) (SOp τ ε ⊕ ROp) :=
  guarded k τ ε cap o fun _ => true

end Verif.Ring
