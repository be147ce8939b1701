import Verif.Oneshot.Model
import Verif.Order.Model
/-!
# The oneshot channel with the memory orderings of the source

`Model.lean` with the trace of the accesses: every step is one access, here with the ordering that `sender.rs` and
`receiver.rs` ask for, so that *happens before* (`Verif.Order`) is defined on the trace. Relaxed loads may read old
values: the scheduler chooses which, among those that coherence allows (not older than what this end has read or
written).

A read-modify-write macro (`src/atomic_macros.rs` 28–101) is one access with the ordering of the successful
compare-exchange. The loads before it and failed attempts are left out: they could only order more.

The sender is thread 0, the receiver thread 1. Only these two ends: how they were created, and who runs the wakers, is
not in the trace.
-/
namespace Verif.Oneshot

open Verif.Spsc Verif.Order

variable {α : Type}

/-- Acquire, release. -/
structure Ord where
  acq : Bool
  rel : Bool
deriving DecidableEq, Repr

/-- The orderings of the updates of the state word. -/
structure Ords where
  send : Ord
  pollCanceled : Ord
  sDrop : Ord
  close : Ord
  tryRecv : Ord
  poll : Ord
  poll2 : Ord
  rDrop : Ord
deriving DecidableEq, Repr

/-- `sender.rs` 48 (`AcqRel`), 89 (`Release`), 147 (`Acquire`); `receiver.rs` 38, 59, 92 (`Acquire`), 102 (`AcqRel`),
130 (`Acquire`). -/
def ords : Ords :=
  { send := ⟨true, true⟩, pollCanceled := ⟨false, true⟩, sDrop := ⟨true, false⟩, close := ⟨true, false⟩,
    tryRecv := ⟨true, false⟩, poll := ⟨true, false⟩, poll2 := ⟨true, true⟩, rDrop := ⟨true, false⟩ }

/-- `Shared::state`, `mod.rs` 79. -/
abbrev lState : Nat := 0
/-- `Shared::data`, 80. -/
abbrev lData : Nat := 1
/-- `Shared::rx_waker`, 81. -/
abbrev lRxw : Nat := 2
/-- `Shared::tx_waker`, 82. -/
abbrev lTxw : Nat := 3

/-- Sort of access: of the state word, or another one. -/
inductive Acc where
  | rmw (o : Ord)
  /-- relaxed -/
  | load
  | other (loc : Nat) (k : Kind)
deriving DecidableEq

/-- The next access of the sender (`SPc`). -/
def sAcc (o : Ords) : SPc α → Option Acc
  | .sendWrite _ => some (.other lData .write)
  | .sendRmw => some (.rmw o.send)
  | .sendWaker _ => some (.other lRxw .read)
  | .sendBack _ => some (.other lData .read)
  | .sendFree _ => some (.other lState .free)
  | .pcLoad _ => some .load
  | .pcWrite _ => some (.other lTxw .write)
  | .pcRmw _ => some (.rmw o.pollCanceled)
  | .pcUndo => some (.other lTxw .read)
  | .icLoad => some .load
  | .drRmw => some (.rmw o.sDrop)
  | .drWaker _ => some (.other lRxw .read)
  | .drFree => some (.other lState .free)
  | .idle | .gone => none

/-- The next access of the receiver (`RPc`). -/
def rAcc (o : Ords) : RPc → Option Acc
  | .clRmw => some (.rmw o.close)
  | .clWaker _ => some (.other lTxw .read)
  | .trRmw => some (.rmw o.tryRecv)
  | .read => some (.other lData .read)
  | .poRmw _ => some (.rmw o.poll)
  | .poWrite _ => some (.other lRxw .write)
  | .poRmw2 _ => some (.rmw o.poll2)
  | .poUndo _ => some (.other lRxw .read)
  | .itLoad => some .load
  | .drRmw => some (.rmw o.rDrop)
  | .drData _ => some (.other lData .read)
  | .drWaker _ => some (.other lTxw .read)
  | .drFree => some (.other lState .free)
  | .idle | .gone => none

/-- The channel, the values of the state word in modification order (`hist`), how much of it the ends have seen, and the
trace. -/
structure PState (α : Type) where
  s : State α
  hist : List (BitVec 8)
  seenS : Nat
  seenR : Nat
  tr : List Ev

/-- A new channel. -/
def pinit (α : Type) : PState α := { s := init α, hist := [0#8], seenS := 0, seenR := 0, tr := [] }

/-- Do the access with `f`; a load sees the old value `v` of the state word. -/
def PState.go (p : PState α) (tid seen : Nat) (f : State α → Option (State α)) (k : Nat) :
    Option Acc → Option (PState α × Nat)
  | none => some (p, seen)
  | some .load =>
    if seen ≤ k then
      match p.hist[k]? with
      | none => some (p, seen)
      | some v =>
        match f { p.s with st := v } with
        | none => none
        | some s' => some ({ p with s := { s' with st := p.s.st }, tr := p.tr ++ [⟨tid, lState, .load false k⟩] }, k)
    else some (p, seen)
  | some (.rmw o) =>
    match f p.s with
    | none => none
    | some s' =>
      some ({ p with s := s', hist := p.hist ++ [s'.st], tr := p.tr ++ [⟨tid, lState, .rmw o.acq o.rel⟩] }, p.hist.length)
  | some (.other l kd) =>
    match f p.s with
    | none => none
    | some s' => some ({ p with s := s', tr := p.tr ++ [⟨tid, l, kd⟩] }, seen)

/-- Scheduler choices; a load reads value `k`. -/
inductive PAct (α : Type) where
  | sCall (op : SOp α) | sStep (k : Nat) | rCall (op : ROp) | rStep (k : Nat)
deriving DecidableEq

def pstep (o : Ords) (p : PState α) : PAct α → Option (PState α)
  | .sCall op => if p.s.spc.isIdle then some { p with s := sCall p.s op } else some p
  | .sStep k => (p.go 0 p.seenS sStep k (sAcc o p.s.spc)).map fun (q, n) => { q with seenS := n }
  | .rCall op => if p.s.rpc.isIdle then some { p with s := rCall p.s op } else some p
  | .rStep k => (p.go 1 p.seenR rStep k (rAcc o p.s.rpc)).map fun (q, n) => { q with seenR := n }

/-- A schedule. -/
def prun (o : Ords) (p : PState α) : List (PAct α) → Option (PState α)
  | [] => some p
  | a :: as =>
    match pstep o p a with
    | none => none
    | some p' => prun o p' as

end Verif.Oneshot
