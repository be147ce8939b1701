import Verif.Ring.Spec
import Verif.Ring.Word
/-! # Invariant of the ring channel: flags, cells, release -/
namespace Verif.Ring

open Verif.Spsc

variable {k : Nat} {τ ε : Type}

/-- The sender has updated the state word for the last time. -/
def sDone : SPc k τ ε → Bool
  | .errWaker _ | .errBack _ | .errFree _ | .drWaker _ | .drFree | .gone => true
  | _ => false

/-- The receiver is in or past its drop. -/
def rDone : RPc k → Bool
  | .drSlot _ _ | .drErr _ | .drWaker _ | .drFree | .gone => true
  | _ => false

/-- A leaving sender: did it see that the receiver left first? -/
def sSt : SPc k τ ε → Option Bool
  | .errWaker st | .errBack st | .drWaker st => some (has st (HALF k))
  | .errFree _ | .drFree => some true
  | _ => none

/-- A leaving receiver: did it see that the sender left first? -/
def rSt : RPc k → Option Bool
  | .drSlot st _ | .drErr st | .drWaker st => some (has st (HALF k))
  | .drFree => some true
  | _ => none

/-- About to take the receiver's waker. -/
def sWk : SPc k τ ε → Bool
  | .errWaker _ | .drWaker _ => true
  | _ => false

/-- The sender holds its own waker cell. -/
def sTx : SPc k τ ε → Bool
  | .pRmw _ _ wr => wr
  | .pUndo _ => true
  | _ => false

/-- The sender is storing its waker. -/
def sStoring : SPc k τ ε → Bool
  | .pWrite _ _ => true
  | .pRmw _ _ wr => wr
  | _ => false

/-- The sender changes the kind of its stored waker. -/
def sKind : SPc k τ ε → Bool
  | .pRmw _ _ wr => !wr
  | _ => false

/-- The error is written, the state not yet updated. -/
def sWritten : SPc k τ ε → Bool
  | .errRmw => true
  | _ => false

/-- About to take its own waker back. -/
def sUndo : SPc k τ ε → Bool
  | .pUndo _ => true
  | _ => false

/-- The sender is gone. -/
def sGone : SPc k τ ε → Bool
  | .gone => true
  | _ => false

/-- The receiver is gone. -/
def rGone : RPc k → Bool
  | .gone => true
  | _ => false

/-- About to give the error back. -/
def sFail : SPc k τ ε → Bool
  | .errWaker st => has st (CLOSED k)
  | .errBack _ => true
  | _ => false

/-- About to take the sender's waker. -/
def rTx : RPc k → Bool
  | .clWaker _ | .drWaker _ => true
  | .drErr st | .drSlot st _ => !has st (CLOSED k) && hasWaker st
  | _ => false

/-- About to wake the sender by reference. -/
def rWake : RPc k → Bool
  | .tvRmw _ wake _ => wake
  | .tvWake _ => true
  | .pnUndo _ => false
  | _ => false

/-- The receiver holds its own waker cell. -/
def rRx : RPc k → Bool
  | .pnRmw2 _ | .pnUndo _ => true
  | _ => false

/-- The receiver is storing its waker. -/
def rStoring : RPc k → Bool
  | .pnWrite _ | .pnRmw2 _ => true
  | _ => false

/-- About to take the error, or to put its flag back. -/
def rRead : RPc k → Bool
  | .rdErr | .drErr _ => true
  | .tvRmw _ _ err => err
  | .pnUndo st | .drSlot st _ => has st (ERR k)
  | _ => false

/-- Impossible: the receiver left without closing. -/
def sBad : SPc k τ ε → Bool
  | .errWaker st => has st (HALF k) && !has st (CLOSED k)
  | _ => false

/-- About to take its own waker back. -/
def rUndo : RPc k → Bool
  | .pnUndo _ => true
  | _ => false

/-- About to read the error or to put its flag back, without having left. -/
def rPlain : RPc k → Bool
  | .rdErr => true
  | .tvRmw _ _ err => err
  | _ => false

/-- About to wake the receiver by reference. -/
def sRef : SPc k τ ε → Bool
  | .wakeRef => true
  | _ => false

/-- Between the claim with a waker and its undoing: kinds are set. -/
def rUndoWake (cap : Nat) : RPc k → Bool
  | .pnUndo st => shouldWake cap st
  | _ => false

/-- The invariant; `d`, `r`, `t` tell which cells hold values. -/
structure InvV (cap : Nat) (st : Word k) (d r t f : Bool) (spc : SPc k τ ε) (rpc : RPc k) : Prop where
  half : has st (HALF k) = (sDone spc || rDone rpc)
  closed : rDone rpc = true → has st (CLOSED k) = true
  rtx : rTx rpc = true → has st (CLOSED k) = true ∧ hasWaker st = true ∧ sUndo spc = false
  sundo : sUndo spc = true → has st (CLOSED k) = true ∧ hasWaker st = true
  sfail : sFail spc = true → has st (CLOSED k) = true
  sbad : sBad spc = false
  rundo : rUndo rpc = true → has st (RX k) = true ∧ sDone spc = true ∧ sWk spc = false ∧ has st (ERR k) = false
  rplain : rPlain rpc = true → has st (ERR k) = false
  first1 : sSt spc = some true → rDone rpc = true
  first2 : rSt rpc = some true → sDone spc = true
  first3 : sSt spc = some true → rSt rpc = some true → False
  first3' : sSt spc = some false → rSt rpc = some false → False
  first4 : sSt spc = some false → rGone rpc = false
  first5 : rSt rpc = some false → sGone spc = false
  freed : f = (sGone spc && rGone rpc)
  rStore : rStoring rpc = true → has st (RX k) = false
  swk : sWk spc = true → has st (RX k) = true
  rxw : r = (rRx rpc || has st (RX k) && (!sDone spc || sWk spc))
  sStore : sStoring spc = true → hasWaker st = false
  skind : sKind spc = true → hasWaker st = true
  rwake : rWake rpc = true ∨ rUndoWake cap rpc = true → hasWaker st = true
  txw : t = (sTx spc || hasWaker st && (!has st (CLOSED k) || rTx rpc))
  data : d = (sWritten spc || has st (ERR k) && !rDone rpc || rRead rpc || sFail spc)
  dOk : (has st (ERR k) = true ∨ rRead rpc = true) → sDone spc = true ∧ sFail spc = false
  sref : sRef spc = true → has st (RX k) = true

/-- The invariant. -/
def Inv (cap : Nat) (s : State k τ ε) : Prop :=
  InvV cap s.st s.err.isSome s.rxw.isSome s.txw.isSome s.freed s.spc s.rpc

theorem init_inv (cap k : Nat) (τ ε : Type) : Inv cap (init k τ ε) := by
  constructor <;> simp [init, sDone, rDone, rTx, sSt, rSt, sGone, rGone, rStoring, Ring.sWk, rRx,
    sStoring, sTx, rRead, sFail, sWritten, has_zero, sUndo, rUndo, rPlain, sBad, sRef, hasWaker, sKind, rWake, rUndoWake]

/-- Relations between the classes of program points of the receiver. -/
structure RFacts (cap : Nat) (rpc : RPc k) : Prop where
  st : rSt rpc = none ∨ rDone rpc = true
  gone : rGone rpc = true → rDone rpc = true ∧ rSt rpc = none
  rx : rRx rpc = true → rDone rpc = false
  undo : rUndo rpc = true → rRx rpc = true
  plain : rPlain rpc = true → rRead rpc = true
  free : rpc.freeing = true → rSt rpc = some true
  leave : rpc.leaving = false → rSt rpc = none
  held : rRx rpc = true → rStoring rpc = true ∨ rUndo rpc = true
  tx : rTx rpc = true → rSt rpc = none → rDone rpc = false
  rd : rRead rpc = true → rSt rpc = none → rDone rpc = false
  done : rDone rpc = true → rSt rpc = none → rGone rpc = true

theorem rFacts (cap : Nat) (rpc : RPc k) : RFacts cap rpc := by
  constructor <;> cases rpc <;> simp [rSt, rDone, rGone, rRx, rUndo, rPlain, rRead, rTx, rStoring,
    RPc.freeing, RPc.leaving]

/-- Relations between the classes of program points of the sender. -/
structure SFacts (spc : SPc k τ ε) : Prop where
  st : sSt spc = none ∨ sDone spc = true
  gone : sGone spc = true → sDone spc = true ∧ sSt spc = none
  wk : sWk spc = true → sDone spc = true
  fail : sFail spc = true → sDone spc = true
  free : spc.freeing = true → sSt spc = some true
  leave : spc.leaving = false → sSt spc = none
  held : sTx spc = true → sStoring spc = true ∨ sUndo spc = true
  wkst : sWk spc = true → sSt spc = none → False
  failst : sFail spc = true → sSt spc = none → False
  done : sDone spc = true → sSt spc = none → sGone spc = true
  written : sWritten spc = true → sDone spc = false
  txd : sTx spc = true → sDone spc = false

theorem sFacts (spc : SPc k τ ε) : SFacts spc := by
  constructor <;> cases spc <;> simp [sSt, sDone, sGone, sWk, sFail, sTx, sStoring, sUndo, sWritten, SPc.freeing,
    SPc.leaving]

/-- Evaluate the classes of a concrete program point of the sender. -/
macro "spc_simp" : tactic => `(tactic| simp only [sDone, sSt, sGone, Ring.sWk, sStoring, sTx, sFail, sWritten,
  sUndo, sBad, sRef, sKind, SPc.freeing, SPc.leaving, Bool.false_eq_true, false_implies, true_implies, reduceCtorEq, Option.some.injEq,
  Bool.false_or, Bool.or_false, Bool.true_or, Bool.or_true, Bool.not_false, Bool.not_true, Bool.true_and, Bool.and_true,
  Bool.false_and, Bool.and_false, and_true, true_and, and_false, false_and, implies_true, Bool.not_eq_true,
  Option.isSome_some, Option.isSome_none, or_false, false_or] at *)

/-- Evaluate the classes of the program points of the sender in the goal. -/
macro "spc_goal" : tactic => `(tactic| try simp only [sDone, sSt, sGone, Ring.sWk, sStoring, sTx, sFail, sWritten,
  sUndo, sBad, sRef, sKind, SPc.freeing, SPc.leaving])

/-- … of the receiver. -/
macro "rpc_goal" : tactic => `(tactic| try simp only [rDone, rSt, rGone, rTx, rRx, rStoring, rRead, rUndo, rPlain,
  rWake, rUndoWake, RPc.freeing, RPc.leaving])

/-- … of the receiver. -/
macro "rpc_simp" : tactic => `(tactic| simp only [rDone, rSt, rGone, rTx, rRx, rStoring, rRead, rUndo, rPlain,
  rWake, rUndoWake, RPc.freeing, RPc.leaving, Bool.false_eq_true, false_implies, true_implies, reduceCtorEq, Option.some.injEq,
  Bool.false_or, Bool.or_false, Bool.true_or, Bool.or_true, Bool.not_false, Bool.not_true, Bool.true_and, Bool.and_true,
  Bool.false_and, Bool.and_false, and_true, true_and, and_false, false_and, implies_true, Bool.not_eq_true,
  Option.isSome_some, Option.isSome_none, or_false, false_or] at *)

end Verif.Ring
