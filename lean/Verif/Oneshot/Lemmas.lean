import Verif.Oneshot.Spec
import Verif.Oneshot.Flags
/-! # Invariant of the oneshot channel -/
namespace Verif.Oneshot

open Verif.Spsc

variable {α : Type}

/-- The sender has updated the state word for the last time. -/
def sDone : SPc α → Bool
  | .sendWaker _ | .sendBack _ | .sendFree _ | .drWaker _ | .drFree | .gone => true
  | _ => false

/-- The receiver has updated the state word for the last time. -/
def rDone : RPc → Bool
  | .drData _ | .drWaker _ | .drFree | .gone => true
  | _ => false

/-- A leaving sender: did it see that the receiver left first? -/
def sSt : SPc α → Option Bool
  | .sendWaker st | .sendBack st | .drWaker st => some (has st HALF)
  | .sendFree _ | .drFree => some true
  | _ => none

/-- A leaving receiver: did it see that the sender left first? -/
def rSt : RPc → Option Bool
  | .drData st | .drWaker st => some (has st HALF)
  | .drFree => some true
  | _ => none

/-- About to take the receiver's waker. -/
def sWk : SPc α → Bool
  | .sendWaker _ | .drWaker _ => true
  | _ => false

/-- The sender holds its own waker cell. -/
def sTx : SPc α → Bool
  | .pcRmw _ | .pcUndo => true
  | _ => false

/-- The sender is storing its waker. -/
def sStoring : SPc α → Bool
  | .pcWrite _ | .pcRmw _ => true
  | _ => false

/-- The value is written, the state not yet updated. -/
def sWritten : SPc α → Bool
  | .sendRmw => true
  | _ => false

/-- About to take its own waker back. -/
def sUndo : SPc α → Bool
  | .pcUndo => true
  | _ => false

/-- The sender is gone. -/
def sGone : SPc α → Bool
  | .gone => true
  | _ => false

/-- The receiver is gone. -/
def rGone : RPc → Bool
  | .gone => true
  | _ => false

/-- About to give the value back. -/
def sFail : SPc α → Bool
  | .sendWaker st => has st CLOSED
  | .sendBack _ => true
  | _ => false

/-- About to take the sender's waker. -/
def rTx : RPc → Bool
  | .clWaker _ | .drWaker _ => true
  | .drData st => !has st CLOSED && has st TX
  | _ => false

/-- The receiver holds its own waker cell. -/
def rRx : RPc → Bool
  | .poRmw2 _ | .poUndo _ => true
  | _ => false

/-- The receiver is storing its waker. -/
def rStoring : RPc → Bool
  | .poWrite _ | .poRmw2 _ => true
  | _ => false

/-- About to take the value. -/
def rRead : RPc → Bool
  | .read | .drData _ => true
  | .poUndo st => has st DATA
  | _ => false

/-- Impossible: the receiver left without closing. -/
def sBad : SPc α → Bool
  | .sendWaker st => has st HALF && !has st CLOSED
  | _ => false

/-- About to take its own waker back. -/
def rUndo : RPc → Bool
  | .poUndo _ => true
  | _ => false

/-- About to read the value. -/
def rPlain : RPc → Bool
  | .read => true
  | _ => false

/-- The invariant; `d`, `r`, `t` tell which cells hold values. -/
structure InvV (st : BitVec 8) (d r t f : Bool) (spc : SPc α) (rpc : RPc) : Prop where
  half : has st HALF = (sDone spc || rDone rpc)
  closed : rDone rpc = true → has st CLOSED = true
  rtx : rTx rpc = true → has st CLOSED = true ∧ has st TX = true ∧ sUndo spc = false
  sundo : sUndo spc = true → has st CLOSED = true ∧ has st TX = true
  sfail : sFail spc = true → has st CLOSED = true
  sbad : sBad spc = false
  rundo : rUndo rpc = true → has st RX = true ∧ sDone spc = true ∧ sWk spc = false ∧ has st DATA = false
  rplain : rPlain rpc = true → has st DATA = false
  first1 : sSt spc = some true → rDone rpc = true
  first2 : rSt rpc = some true → sDone spc = true
  first3 : sSt spc = some true → rSt rpc = some true → False
  first3' : sSt spc = some false → rSt rpc = some false → False
  first4 : sSt spc = some false → rGone rpc = false
  first5 : rSt rpc = some false → sGone spc = false
  freed : f = (sGone spc && rGone rpc)
  rStore : rStoring rpc = true → has st RX = false
  swk : sWk spc = true → has st RX = true
  rxw : r = (rRx rpc || has st RX && (!sDone spc || sWk spc))
  sStore : sStoring spc = true → has st TX = false
  txw : t = (sTx spc || has st TX && (!has st CLOSED || rTx rpc))
  data : d = (sWritten spc || has st DATA && !rDone rpc || rRead rpc || sFail spc)
  dOk : (has st DATA = true ∨ rRead rpc = true) → sDone spc = true ∧ sFail spc = false

/-- The invariant. -/
def Inv (s : State α) : Prop :=
  InvV s.st s.data.isSome s.rxw.isSome s.txw.isSome s.freed s.spc s.rpc

theorem init_inv (α : Type) : Inv (init α) := by
  constructor <;> simp [init, sDone, rDone, rTx, sSt, rSt, sGone, rGone, rStoring, Oneshot.sWk, rRx,
    sStoring, sTx, rRead, sFail, sWritten, has_zero, sUndo, rUndo, rPlain, sBad]

/-- Relations between the classes of program points of the receiver. -/
structure RFacts (rpc : RPc) : Prop where
  st : rSt rpc = none ∨ rDone rpc = true
  gone : rGone rpc = true → rDone rpc = true ∧ rSt rpc = none
  rx : rRx rpc = true → rDone rpc = false
  undo : rUndo rpc = true → rRx rpc = true
  plain : rPlain rpc = true → rRead rpc = true
  free : rpc.freeing = true → rSt rpc = some true
  leave : rpc.leaving = false → rSt rpc = none
  held : rRx rpc = true → rStoring rpc = true ∨ rUndo rpc = true
  tx : rTx rpc = true → rSt rpc = none → rDone rpc = false
  rd : rRead rpc = true → rSt rpc = none → rDone rpc = false
  done : rDone rpc = true → rSt rpc = none → rGone rpc = true

theorem rFacts (rpc : RPc) : RFacts rpc := by
  constructor <;> cases rpc <;> simp [rSt, rDone, rGone, rRx, rUndo, rPlain, rRead, rTx, rStoring,
    RPc.freeing, RPc.leaving]

/-- Relations between the classes of program points of the sender. -/
structure SFacts (spc : SPc α) : Prop where
  st : sSt spc = none ∨ sDone spc = true
  gone : sGone spc = true → sDone spc = true ∧ sSt spc = none
  wk : sWk spc = true → sDone spc = true
  fail : sFail spc = true → sDone spc = true
  free : spc.freeing = true → sSt spc = some true
  leave : spc.leaving = false → sSt spc = none
  held : sTx spc = true → sStoring spc = true ∨ sUndo spc = true
  wkst : sWk spc = true → sSt spc = none → False
  failst : sFail spc = true → sSt spc = none → False
  done : sDone spc = true → sSt spc = none → sGone spc = true
  written : sWritten spc = true → sDone spc = false
  txd : sTx spc = true → sDone spc = false

theorem sFacts (spc : SPc α) : SFacts spc := by
  constructor <;> cases spc <;> simp [sSt, sDone, sGone, sWk, sFail, sTx, sStoring, sUndo, sWritten, SPc.freeing,
    SPc.leaving]

/-- Evaluate the classes of a concrete program point of the sender. -/
macro "spc_simp" : tactic => `(tactic| simp only [sDone, sSt, sGone, Oneshot.sWk, sStoring, sTx, sFail, sWritten,
  sUndo, sBad, SPc.freeing, SPc.leaving] at *)

/-- … of the receiver. -/
macro "rpc_simp" : tactic => `(tactic| simp only [rDone, rSt, rGone, rTx, rRx, rStoring, rRead, rUndo, rPlain,
  RPc.freeing, RPc.leaving] at *)

set_option maxHeartbeats 4000000 in
theorem sStep_inv {s : State α} (inv : Inv s) (ap1 : s.spc.freeing = true → s.rpc.leaving = false) :
    ∃ s', sStep s = some s' ∧ Inv s' := by
  have inv0 := inv
  obtain ⟨st, data, rxw, txw, freed, spc, rpc, log⟩ := s
  unfold Inv at inv
  obtain ⟨half, closed, rtx, sundo, sfail, sbad, rundo, rplain, first1, first2, first3, first3', first4, first5, hfreed,
    rStore, hsWk, hrxw, sStore, htxw, hdata, dOk⟩ := inv
  obtain ⟨f1, f2, f3, f4, f5, f6, f7, f8, f9, f10, f11⟩ := rFacts rpc
  dsimp only at *
  cases spc with
  | idle => exact ⟨_, rfl, inv0⟩
  | gone => exact ⟨_, rfl, inv0⟩
  | sendWrite v =>
    clear inv0
    spc_simp
    have : freed = false := by simp_all
    have : data = none := by cases data <;> simp_all
    subst this; subst freed
    refine ⟨_, rfl, ?_⟩
    constructor <;> spc_simp <;> grind
  | sendRmw =>
    clear inv0
    spc_simp
    have : freed = false := by simp_all
    subst this
    cases h1 : has st RX <;> cases h2 : has st CLOSED
    all_goals refine ⟨_, by simp [sStep, SPc.resting, h1, h2, sendTail, State.emit]; rfl, ?_⟩
    all_goals constructor <;> spc_simp <;> flag_simp <;> grind
  | sendWaker st' =>
    clear inv0
    spc_simp
    have : freed = false := by simp_all
    subst this
    cases rxw with
    | none => exfalso; grind
    | some w =>
      cases h2 : has st' CLOSED
      all_goals refine ⟨_, by simp [sStep, SPc.resting, h2, sendTail, State.emit]; rfl, ?_⟩
      all_goals constructor <;> spc_simp <;> grind
  | sendBack st' =>
    clear inv0
    spc_simp
    have : freed = false := by simp_all
    subst this
    cases data with
    | none => exfalso; grind
    | some v =>
      cases h2 : has st' HALF
      all_goals refine ⟨_, by simp [sStep, SPc.resting, h2, State.emit]; rfl, ?_⟩
      all_goals constructor <;> spc_simp <;> grind
  | sendFree v =>
    clear inv0
    spc_simp
    have : freed = false := by simp_all
    subst this
    refine ⟨_, by simp [sStep, SPc.resting, State.release, State.emit]; rfl, ?_⟩
    constructor <;> spc_simp <;> grind
  | pcLoad w =>
    clear inv0
    spc_simp
    have : freed = false := by simp_all
    subst this
    cases h1 : has st TX <;> cases h2 : has st CLOSED
    all_goals refine ⟨_, by simp [sStep, SPc.resting, h1, h2, State.emit]; rfl, ?_⟩
    all_goals constructor <;> spc_simp <;> grind
  | pcWrite w =>
    clear inv0
    spc_simp
    have : freed = false := by simp_all
    have : txw = none := by cases txw <;> grind
    subst this; subst freed
    refine ⟨_, by simp [sStep, SPc.resting, State.emit]; rfl, ?_⟩
    constructor <;> spc_simp <;> grind
  | pcRmw w =>
    clear inv0
    spc_simp
    have : freed = false := by simp_all
    subst this
    cases h2 : has st CLOSED
    all_goals refine ⟨_, by simp [sStep, SPc.resting, h2, State.emit]; rfl, ?_⟩
    all_goals constructor <;> spc_simp <;> flag_simp <;> grind
  | pcUndo =>
    clear inv0
    spc_simp
    have : freed = false := by simp_all
    subst this
    cases txw with
    | none => exfalso; grind
    | some w =>
      refine ⟨_, by simp [sStep, SPc.resting, State.emit]; rfl, ?_⟩
      constructor <;> spc_simp <;> grind
  | icLoad =>
    clear inv0
    spc_simp
    have : freed = false := by simp_all
    subst this
    refine ⟨_, by simp [sStep, SPc.resting, State.emit]; rfl, ?_⟩
    constructor <;> spc_simp <;> grind
  | drRmw =>
    clear inv0
    spc_simp
    have : freed = false := by simp_all
    subst this
    cases h1 : has st RX <;> cases h2 : has st HALF
    all_goals refine ⟨_, by simp [sStep, SPc.resting, h1, h2, State.emit]; rfl, ?_⟩
    all_goals constructor <;> spc_simp <;> flag_simp <;> grind
  | drWaker st' =>
    clear inv0
    spc_simp
    have : freed = false := by simp_all
    subst this
    cases rxw with
    | none => exfalso; grind
    | some w =>
      cases h2 : has st' HALF
      all_goals refine ⟨_, by simp [sStep, SPc.resting, h2, State.emit]; rfl, ?_⟩
      all_goals constructor <;> spc_simp <;> grind
  | drFree =>
    clear inv0
    spc_simp
    have : freed = false := by simp_all
    subst this
    refine ⟨_, by simp [sStep, SPc.resting, State.release, State.emit]; rfl, ?_⟩
    constructor <;> spc_simp <;> grind

set_option maxHeartbeats 4000000 in
theorem rStep_inv {s : State α} (inv : Inv s) (ap1 : s.rpc.freeing = true → s.spc.leaving = false) :
    ∃ s', rStep s = some s' ∧ Inv s' := by
  have inv0 := inv
  obtain ⟨st, data, rxw, txw, freed, spc, rpc, log⟩ := s
  unfold Inv at inv
  obtain ⟨half, closed, rtx, sundo, sfail, sbad, rundo, rplain, first1, first2, first3, first3', first4, first5, hfreed,
    rStore, hsWk, hrxw, sStore, htxw, hdata, dOk⟩ := inv
  obtain ⟨f1, f2, f3, f4, f5, f6, f7, f8, f9, f10, f11, f12⟩ := sFacts spc
  dsimp only at *
  cases rpc with
  | idle => exact ⟨_, rfl, inv0⟩
  | gone => exact ⟨_, rfl, inv0⟩
  | clRmw =>
    clear inv0
    rpc_simp
    have : freed = false := by simp_all
    subst this
    cases h1 : has st TX <;> cases h2 : has st CLOSED
    all_goals refine ⟨_, by simp [rStep, RPc.resting, h1, h2, State.emit]; rfl, ?_⟩
    all_goals constructor <;> rpc_simp <;> flag_simp <;> grind
  | clWaker st' =>
    clear inv0
    rpc_simp
    have : freed = false := by simp_all
    subst this
    cases txw with
    | none => exfalso; grind
    | some w =>
      cases h2 : has st' HALF
      all_goals refine ⟨_, by simp [rStep, RPc.resting, h2, State.emit]; rfl, ?_⟩
      all_goals constructor <;> rpc_simp <;> grind
  | trRmw =>
    clear inv0
    rpc_simp
    have : freed = false := by simp_all
    subst this
    cases h1 : has st DATA <;> cases h2 : (has st HALF || has st CLOSED)
    all_goals refine ⟨_, by simp [rStep, RPc.resting, h1, h2, State.emit]; rfl, ?_⟩
    all_goals constructor <;> rpc_simp <;> flag_simp <;> grind
  | read =>
    clear inv0
    rpc_simp
    have : freed = false := by simp_all
    subst this
    cases data with
    | none => exfalso; grind
    | some v =>
      refine ⟨_, by simp [rStep, RPc.resting, State.emit]; rfl, ?_⟩
      constructor <;> rpc_simp <;> grind
  | poRmw w =>
    clear inv0
    rpc_simp
    have : freed = false := by simp_all
    subst this
    cases h1 : has st DATA <;> cases h2 : (has st HALF || has st CLOSED) <;> cases h3 : has st RX
    all_goals refine ⟨_, by simp [rStep, RPc.resting, h1, h2, h3, State.emit]; rfl, ?_⟩
    all_goals constructor <;> rpc_simp <;> flag_simp <;> grind
  | poWrite w =>
    clear inv0
    rpc_simp
    have : freed = false := by simp_all
    subst this
    have : rxw = none := by cases rxw <;> grind
    subst this
    refine ⟨_, by simp [rStep, RPc.resting, State.emit]; rfl, ?_⟩
    constructor <;> rpc_simp <;> grind
  | poRmw2 w =>
    clear inv0
    rpc_simp
    have : freed = false := by simp_all
    subst this
    cases h2 : has st HALF
    all_goals refine ⟨_, by simp [rStep, RPc.resting, h2, State.emit]; rfl, ?_⟩
    all_goals constructor <;> rpc_simp <;> flag_simp <;> grind
  | poUndo st' =>
    clear inv0
    rpc_simp
    have : freed = false := by simp_all
    subst this
    cases rxw with
    | none => exfalso; grind
    | some w =>
      cases h2 : has st' DATA
      all_goals refine ⟨_, by simp [rStep, RPc.resting, h2, State.emit]; rfl, ?_⟩
      all_goals constructor <;> rpc_simp <;> grind
  | itLoad =>
    clear inv0
    rpc_simp
    have : freed = false := by simp_all
    subst this
    refine ⟨_, by simp [rStep, RPc.resting, State.emit]; rfl, ?_⟩
    constructor <;> rpc_simp <;> grind
  | drRmw =>
    clear inv0
    rpc_simp
    have : freed = false := by simp_all
    subst this
    cases h1 : has st DATA <;> cases h2 : has st HALF <;> cases h3 : has st CLOSED <;> cases h4 : has st TX
    all_goals refine ⟨_, by simp [rStep, RPc.resting, dropTail, h1, h2, h3, h4, State.emit]; rfl, ?_⟩
    all_goals constructor <;> rpc_simp <;> flag_simp <;> grind
  | drData st' =>
    clear inv0
    rpc_simp
    have : freed = false := by simp_all
    subst this
    cases data with
    | none => exfalso; grind
    | some v =>
      cases h2 : has st' HALF <;> cases h3 : has st' CLOSED <;> cases h4 : has st' TX
      all_goals refine ⟨_, by simp [rStep, RPc.resting, dropTail, h2, h3, h4, State.emit]; rfl, ?_⟩
      all_goals constructor <;> rpc_simp <;> grind
  | drWaker st' =>
    clear inv0
    rpc_simp
    have : freed = false := by simp_all
    subst this
    cases txw with
    | none => exfalso; grind
    | some w =>
      cases h2 : has st' HALF
      all_goals refine ⟨_, by simp [rStep, RPc.resting, h2, State.emit]; rfl, ?_⟩
      all_goals constructor <;> rpc_simp <;> grind
  | drFree =>
    clear inv0
    rpc_simp
    have : freed = false := by simp_all
    subst this
    refine ⟨_, by simp [rStep, RPc.resting, State.release, State.emit]; rfl, ?_⟩
    constructor <;> rpc_simp <;> grind

end Verif.Oneshot
