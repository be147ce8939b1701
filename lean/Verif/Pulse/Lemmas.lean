import Verif.Pulse.Spec
import Verif.Pulse.Word
/-! # Invariant of the pulse channel -/
namespace Verif.Pulse

open Verif.Spsc

variable {n : Nat} {ε : Type}

/-- The sender has updated the state word for the last time. -/
def sDone : SPc n ε → Bool
  | .errWaker _ | .errBack _ | .errFree _ | .drWaker _ | .drFree | .gone => true
  | _ => false

/-- The receiver has updated the state word for the last time. -/
def rDone : RPc n → Bool
  | .drErr _ | .drWaker _ | .drFree | .gone => true
  | _ => false

/-- A leaving sender: did it see that the receiver left first? -/
def sSt : SPc n ε → Option Bool
  | .errWaker st | .errBack st | .drWaker st => some (has st (HALF n))
  | .errFree _ | .drFree => some true
  | _ => none

/-- A leaving receiver: did it see that the sender left first? -/
def rSt : RPc n → Option Bool
  | .drErr st | .drWaker st => some (has st (HALF n))
  | .drFree => some true
  | _ => none

/-- About to take the receiver's waker. -/
def sWk : SPc n ε → Bool
  | .errWaker _ | .drWaker _ => true
  | _ => false

/-- The sender holds its own waker cell. -/
def sTx : SPc n ε → Bool
  | .pcRmw _ | .pcUndo => true
  | _ => false

/-- The sender is storing its waker. -/
def sStoring : SPc n ε → Bool
  | .pcWrite _ | .pcRmw _ => true
  | _ => false

/-- The value is written, the state not yet updated. -/
def sWritten : SPc n ε → Bool
  | .errRmw => true
  | _ => false

/-- About to take its own waker back. -/
def sUndo : SPc n ε → Bool
  | .pcUndo => true
  | _ => false

/-- The sender is gone. -/
def sGone : SPc n ε → Bool
  | .gone => true
  | _ => false

/-- The receiver is gone. -/
def rGone : RPc n → Bool
  | .gone => true
  | _ => false

/-- About to give the value back. -/
def sFail : SPc n ε → Bool
  | .errWaker st => has st (CLOSED n)
  | .errBack _ => true
  | _ => false

/-- About to take the sender's waker. -/
def rTx : RPc n → Bool
  | .clWaker _ | .drWaker _ => true
  | .drErr st => !has st (CLOSED n) && has st (TX n)
  | _ => false

/-- The receiver holds its own waker cell. -/
def rRx : RPc n → Bool
  | .pnRmw2 _ | .pnUndo _ => true
  | _ => false

/-- The receiver is storing its waker. -/
def rStoring : RPc n → Bool
  | .pnWrite _ | .pnRmw2 _ => true
  | _ => false

/-- About to take the value. -/
def rRead : RPc n → Bool
  | .rdErr | .drErr _ | .reErr => true
  | .pnUndo st => has st (ERR n)
  | _ => false

/-- Impossible: the receiver left without closing. -/
def sBad : SPc n ε → Bool
  | .errWaker st => has st (HALF n) && !has st (CLOSED n)
  | _ => false

/-- About to take its own waker back. -/
def rUndo : RPc n → Bool
  | .pnUndo _ => true
  | _ => false

/-- About to read the error or to put its flag back. -/
def rPlain : RPc n → Bool
  | .rdErr | .reErr => true
  | _ => false

/-- About to wake the receiver by reference. -/
def sRef : SPc n ε → Bool
  | .wakeRef => true
  | _ => false

/-- Number of pulses of a running `send`. -/
def sArg : SPc n ε → Nat
  | .sendRmw p => p.toNat
  | _ => 0

/-- The invariant; `d`, `r`, `t` tell which cells hold values. -/
structure InvV (st : Word n) (d r t f : Bool) (spc : SPc n ε) (rpc : RPc n) : Prop where
  half : has st (HALF n) = (sDone spc || rDone rpc)
  closed : rDone rpc = true → has st (CLOSED n) = true
  rtx : rTx rpc = true → has st (CLOSED n) = true ∧ has st (TX n) = true ∧ sUndo spc = false
  sundo : sUndo spc = true → has st (CLOSED n) = true ∧ has st (TX n) = true
  sfail : sFail spc = true → has st (CLOSED n) = true
  sbad : sBad spc = false
  rundo : rUndo rpc = true → has st (RX n) = true ∧ sDone spc = true ∧ sWk spc = false ∧ has st (ERR n) = false
  rplain : rPlain rpc = true → has st (ERR n) = false
  first1 : sSt spc = some true → rDone rpc = true
  first2 : rSt rpc = some true → sDone spc = true
  first3 : sSt spc = some true → rSt rpc = some true → False
  first3' : sSt spc = some false → rSt rpc = some false → False
  first4 : sSt spc = some false → rGone rpc = false
  first5 : rSt rpc = some false → sGone spc = false
  freed : f = (sGone spc && rGone rpc)
  rStore : rStoring rpc = true → has st (RX n) = false
  swk : sWk spc = true → has st (RX n) = true
  rxw : r = (rRx rpc || has st (RX n) && (!sDone spc || sWk spc))
  sStore : sStoring spc = true → has st (TX n) = false
  txw : t = (sTx spc || has st (TX n) && (!has st (CLOSED n) || rTx rpc))
  data : d = (sWritten spc || has st (ERR n) && !rDone rpc || rRead rpc || sFail spc)
  dOk : (has st (ERR n) = true ∨ rRead rpc = true) → sDone spc = true ∧ sFail spc = false
  sref : sRef spc = true → has st (RX n) = true
  arg : sArg spc < 2 ^ (n + 1)

/-- The invariant. -/
def Inv (s : State n ε) : Prop :=
  InvV s.st s.err.isSome s.rxw.isSome s.txw.isSome s.freed s.spc s.rpc

/-- The invariant sees only the flags of the state word, and a sender that is
through with a `send`. -/
theorem InvV.sent {st st' : Word n} {d r t f : Bool} {spc : SPc n ε} {rpc : RPc n} (p : Word n)
    (hs : spc = .sendRmw p ∨ spc = .satRmw p) (inv : InvV st d r t f spc rpc)
    (h1 : has st' (TX n) = has st (TX n)) (h2 : has st' (RX n) = has st (RX n)) (h3 : has st' (ERR n) = has st (ERR n))
    (h4 : has st' (CLOSED n) = has st (CLOSED n)) (h5 : has st' (HALF n) = has st (HALF n)) :
    InvV (ε := ε) st' d r t f .idle rpc ∧ (has st (RX n) = true → InvV (ε := ε) st' d r t f .wakeRef rpc) := by
  have hp : 0 < 2 ^ (n + 1) := Nat.pos_of_ne_zero (by simp)
  obtain ⟨half, closed, rtx, sundo, sfail, sbad, rundo, rplain, first1, first2, first3, first3', first4, first5, hfreed,
    rStore, hsWk, hrxw, sStore, htxw, hdata, dOk, sref, arg⟩ := inv
  refine ⟨?_, fun hr => ?_⟩ <;> rcases hs with rfl | rfl <;> constructor <;>
    (try simp only [h1, h2, h3, h4, h5]) <;> first | assumption | (intros; contradiction) | (intros; assumption)

theorem init_inv (n : Nat) (ε : Type) : Inv (init n ε) := by
  constructor <;> simp [init, sDone, rDone, rTx, sSt, rSt, sGone, rGone, rStoring, Pulse.sWk, rRx,
    sStoring, sTx, rRead, sFail, sWritten, has_zero, sUndo, rUndo, rPlain, sBad, sRef, sArg]
  exact Nat.pos_of_ne_zero (by simp)

/-- Relations between the classes of program points of the receiver. -/
structure RFacts (rpc : RPc n) : Prop where
  st : rSt rpc = none ∨ rDone rpc = true
  gone : rGone rpc = true → rDone rpc = true ∧ rSt rpc = none
  rx : rRx rpc = true → rDone rpc = false
  undo : rUndo rpc = true → rRx rpc = true
  plain : rPlain rpc = true → rRead rpc = true
  free : rpc.freeing = true → rSt rpc = some true
  leave : rpc.leaving = false → rSt rpc = none
  held : rRx rpc = true → rStoring rpc = true ∨ rUndo rpc = true
  tx : rTx rpc = true → rSt rpc = none → rDone rpc = false
  rd : rRead rpc = true → rSt rpc = none → rDone rpc = false
  done : rDone rpc = true → rSt rpc = none → rGone rpc = true

theorem rFacts (rpc : RPc n) : RFacts rpc := by
  constructor <;> cases rpc <;> simp [rSt, rDone, rGone, rRx, rUndo, rPlain, rRead, rTx, rStoring,
    RPc.freeing, RPc.leaving]

/-- Relations between the classes of program points of the sender. -/
structure SFacts (spc : SPc n ε) : Prop where
  st : sSt spc = none ∨ sDone spc = true
  gone : sGone spc = true → sDone spc = true ∧ sSt spc = none
  wk : sWk spc = true → sDone spc = true
  fail : sFail spc = true → sDone spc = true
  free : spc.freeing = true → sSt spc = some true
  leave : spc.leaving = false → sSt spc = none
  held : sTx spc = true → sStoring spc = true ∨ sUndo spc = true
  wkst : sWk spc = true → sSt spc = none → False
  failst : sFail spc = true → sSt spc = none → False
  done : sDone spc = true → sSt spc = none → sGone spc = true
  written : sWritten spc = true → sDone spc = false
  txd : sTx spc = true → sDone spc = false

theorem sFacts (spc : SPc n ε) : SFacts spc := by
  constructor <;> cases spc <;> simp [sSt, sDone, sGone, sWk, sFail, sTx, sStoring, sUndo, sWritten, SPc.freeing,
    SPc.leaving]

/-- Evaluate the classes of a concrete program point of the sender. -/
macro "spc_simp" : tactic => `(tactic| simp only [sDone, sSt, sGone, Pulse.sWk, sStoring, sTx, sFail, sWritten,
  sUndo, sBad, sRef, sArg, SPc.freeing, SPc.leaving] at *)

/-- Evaluate the classes of the program points of the sender in the goal. -/
macro "spc_goal" : tactic => `(tactic| try simp only [sDone, sSt, sGone, Pulse.sWk, sStoring, sTx, sFail, sWritten,
  sUndo, sBad, sRef, sArg, SPc.freeing, SPc.leaving])

/-- … of the receiver. -/
macro "rpc_goal" : tactic => `(tactic| try simp only [rDone, rSt, rGone, rTx, rRx, rStoring, rRead, rUndo, rPlain,
  RPc.freeing, RPc.leaving])

/-- … of the receiver. -/
macro "rpc_simp" : tactic => `(tactic| simp only [rDone, rSt, rGone, rTx, rRx, rStoring, rRead, rUndo, rPlain,
  RPc.freeing, RPc.leaving] at *)

end Verif.Pulse
