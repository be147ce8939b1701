import Verif.Oneshot.Run
/-! # Wakers of a oneshot channel -/
namespace Verif.Oneshot

open Verif.Spsc

variable {α : Type}

/-- The waker just stored by `poll`. -/
def rPw : RPc → List Waker
  | .poRmw2 w => [w]
  | _ => []

/-- The waker just stored by `poll_canceled`. -/
def sPw : SPc α → List Waker
  | .pcRmw w => [w]
  | _ => []

/-- Inside `close`, after the sender was seen to have left. -/
def rCl : RPc → Bool
  | .clWaker st => has st HALF
  | _ => false

/-- Relation of the log to the state: wakers. -/
structure LogW (st : BitVec 8) (rxw txw : Option Waker) (spc : SPc α) (rpc : RPc) (log : List (Event α)) : Prop where
  rxc : rxStored log = rxw.toList ++ rxWoken log ++ rxDropped log
  rx1 : (rxStored log).length ≤ 1
  rx0 : has st RX = false → rRx rpc = false → rxStored log = []
  rxp : rPw rpc ≠ [] → rxStored log = rPw rpc
  pend : pendings log = [] ∨ (has st RX = true ∧ (pendings log).getLast?.toList = rxStored log)
  und : rUndo rpc = true → pendings log = []
  rxd : rxDropped log ≠ [] → has st CLOSED = true ∨ (pendings log = [] ∧ sDone spc = true)
  rxq : has st RX = true → pendings log ≠ [] ∨ sDone spc = true
  txc : txStored log = txw.toList ++ txWoken log ++ txDropped log
  tx1 : (txStored log).length ≤ 1
  tx0 : has st TX = false → sTx spc = false → txStored log = []
  txp : sPw spc ≠ [] → txStored log = sPw spc
  cpend : cancelPendings log = [] ∨ (has st TX = true ∧ (cancelPendings log).getLast?.toList = txStored log)
  tund : sUndo spc = true → cancelPendings log = []
  txd : txDropped log ≠ [] → sDone spc = true ∨ (cancelPendings log = [] ∧ has st CLOSED = true)
  txq : has st TX = true → cancelPendings log ≠ [] ∨ has st CLOSED = true
  clh : rCl rpc = true → sDone spc = true

/-- Relation of the log to the state: wakers. -/
def LogB (s : State α) : Prop := LogW s.st s.rxw s.txw s.spc s.rpc s.log

theorem init_logB (α : Type) : LogB (init α) := by
  constructor <;> simp [init, rxStored, rxWoken, rxDropped, txStored, txWoken, txDropped, pendings, cancelPendings,
    has_zero, rPw, sPw, rUndo, sUndo, rCl]

theorem getLast?_cons' (w : Waker) (l : List Waker) (h : l ≠ []) : (w :: l).getLast? = l.getLast? := by
  cases l with
  | nil => exact absurd rfl h
  | cons a l => simp [List.getLast?_cons]

/-- Evaluate the readers of the log on known events. -/
macro "wlog_simp" : tactic => `(tactic| try simp only [rxStored, rxWoken, rxDropped, txStored, txWoken, txDropped,
  pendings, cancelPendings, Option.toList_none, Option.toList_some] at *)

macro "spc3_simp" : tactic => `(tactic| try simp only [sPw, sDone, sSt, sGone, Oneshot.sWk, sStoring, sTx,
  sFail, sWritten, sUndo, sBad, SPc.freeing, SPc.leaving] at *)

macro "rpc3_simp" : tactic => `(tactic| try simp only [rPw, rCl, rDone, rSt, rGone, rTx, rRx, rStoring, rRead, rUndo, rPlain,
  RPc.freeing, RPc.leaving] at *)

theorem rPw_rRx (rpc : RPc) : rPw rpc ≠ [] → rRx rpc = true ∧ rStoring rpc = true := by
  cases rpc <;> simp [rPw, rRx, rStoring]

theorem sPw_sTx (spc : SPc α) : sPw spc ≠ [] → sTx spc = true ∧ sStoring spc = true := by
  cases spc <;> simp [sPw, sTx, sStoring]

set_option maxHeartbeats 4000000 in
theorem sStep_logB {s s' : State α} (inv : Inv s) (lg : LogB s) (h : sStep s = some s') : LogB s' := by
  have lg0 := lg
  obtain ⟨st, data, rxw, txw, freed, spc, rpc, log⟩ := s
  unfold Inv at inv
  unfold LogB at lg
  obtain ⟨half, closed, rtx, sundo, sfail, sbad, rundo, rplain, first1, first2, first3, first3', first4, first5, hfreed,
    rStore, hsWk, hrxw, sStore, htxw, hdata, dOk⟩ := inv
  obtain ⟨rxc, rx1, rx0, rxp, pend, und, rxd, rxq, txc, tx1, tx0, txp, cpend, tund, txd, txq, clh⟩ := lg
  clear first2 first3 first3' first4 first5 hdata dOk rplain
  dsimp only at *
  obtain ⟨f1, f2, f3, f4, f5, f6, f7, f8, f9, f10, f11⟩ := rFacts rpc
  clear f5 f6 f7 f9 f10 f11 f1
  have hr := rPw_rRx rpc
  have gl := getLast?_cons'
  cases spc with
  | idle => simp [sStep, SPc.resting] at h; subst h; exact lg0
  | gone => simp [sStep, SPc.resting] at h; subst h; exact lg0
  | sendWrite v =>
    clear lg0
    cases freed <;> cases data <;> simp [sStep, SPc.resting] at h
    subst h
    constructor <;> spc3_simp <;> wlog_simp <;> grind
  | sendRmw =>
    clear lg0
    cases freed <;> cases h1 : has st RX <;> cases h2 : has st CLOSED <;>
      simp [sStep, SPc.resting, sendTail, State.emit, h1, h2] at h
    all_goals subst h
    all_goals constructor <;> spc3_simp <;> flag_simp <;> wlog_simp <;> grind
  | sendWaker st' =>
    clear lg0
    cases freed <;> cases rxw <;> cases h2 : has st' CLOSED <;>
      simp [sStep, SPc.resting, sendTail, State.emit, h2] at h
    all_goals subst h
    all_goals constructor <;> spc3_simp <;> wlog_simp <;> grind
  | sendBack st' =>
    clear lg0
    cases freed <;> cases data <;> cases h2 : has st' HALF <;>
      simp [sStep, SPc.resting, State.emit, h2] at h
    all_goals subst h
    all_goals constructor <;> spc3_simp <;> wlog_simp <;> grind
  | sendFree v =>
    clear lg0
    cases freed <;> simp [sStep, SPc.resting, State.emit, State.release] at h
    subst h
    constructor <;> spc3_simp <;> wlog_simp <;> grind
  | pcLoad w =>
    clear lg0
    cases freed <;> cases h1 : has st TX <;> cases h2 : has st CLOSED <;>
      simp [sStep, SPc.resting, State.emit, h1, h2] at h
    all_goals subst h
    all_goals constructor <;> spc3_simp <;> wlog_simp <;> grind
  | pcWrite w =>
    clear lg0
    cases freed <;> cases txw <;> simp [sStep, SPc.resting, State.emit] at h
    subst h
    constructor <;> spc3_simp <;> wlog_simp <;> grind
  | pcRmw w =>
    clear lg0
    cases freed <;> cases h2 : has st CLOSED <;> simp [sStep, SPc.resting, State.emit, h2] at h
    all_goals subst h
    all_goals constructor <;> spc3_simp <;> flag_simp <;> wlog_simp <;> grind
  | pcUndo =>
    clear lg0
    cases freed <;> cases txw <;> simp [sStep, SPc.resting, State.emit] at h
    subst h
    constructor <;> spc3_simp <;> wlog_simp <;> grind
  | icLoad =>
    clear lg0
    cases freed <;> simp [sStep, SPc.resting, State.emit] at h
    subst h
    constructor <;> spc3_simp <;> wlog_simp <;> grind
  | drRmw =>
    clear lg0
    cases freed <;> cases h1 : has st RX <;> cases h2 : has st HALF <;>
      simp [sStep, SPc.resting, State.emit, h1, h2] at h
    all_goals subst h
    all_goals constructor <;> spc3_simp <;> flag_simp <;> wlog_simp <;> grind
  | drWaker st' =>
    clear lg0
    cases freed <;> cases rxw <;> cases h2 : has st' HALF <;>
      simp [sStep, SPc.resting, State.emit, h2] at h
    all_goals subst h
    all_goals constructor <;> spc3_simp <;> wlog_simp <;> grind
  | drFree =>
    clear lg0
    cases freed <;> simp [sStep, SPc.resting, State.emit, State.release] at h
    subst h
    constructor <;> spc3_simp <;> wlog_simp <;> grind

set_option maxHeartbeats 4000000 in
theorem rStep_logB {s s' : State α} (inv : Inv s) (lg : LogB s) (h : rStep s = some s') : LogB s' := by
  have lg0 := lg
  obtain ⟨st, data, rxw, txw, freed, spc, rpc, log⟩ := s
  unfold Inv at inv
  unfold LogB at lg
  obtain ⟨half, closed, rtx, sundo, sfail, sbad, rundo, rplain, first1, first2, first3, first3', first4, first5, hfreed,
    rStore, hsWk, hrxw, sStore, htxw, hdata, dOk⟩ := inv
  obtain ⟨rxc, rx1, rx0, rxp, pend, und, rxd, rxq, txc, tx1, tx0, txp, cpend, tund, txd, txq, clh⟩ := lg
  clear first1 first3 first3' first4 first5 hdata dOk rplain
  dsimp only at *
  obtain ⟨f1, f2, f3, f4, f5, f6, f7, f8, f9, f10, f11, f12⟩ := sFacts spc
  clear f5 f6 f8 f9 f10 f1
  have hr := sPw_sTx spc
  have gl := getLast?_cons'
  cases rpc with
  | idle => simp [rStep, RPc.resting] at h; subst h; exact lg0
  | gone => simp [rStep, RPc.resting] at h; subst h; exact lg0
  | clRmw =>
    clear lg0
    cases freed <;> cases h1 : has st TX <;> cases h2 : has st CLOSED <;>
      simp [rStep, RPc.resting, State.emit, h1, h2] at h
    all_goals subst h
    all_goals constructor <;> rpc3_simp <;> flag_simp <;> wlog_simp <;> grind
  | clWaker st' =>
    clear lg0
    cases freed <;> cases txw <;> cases h2 : has st' HALF <;>
      simp [rStep, RPc.resting, State.emit, h2] at h
    all_goals subst h
    all_goals constructor <;> rpc3_simp <;> wlog_simp <;> grind
  | trRmw =>
    clear lg0
    cases freed <;> cases h1 : has st DATA <;> cases h2 : (has st HALF || has st CLOSED) <;>
      simp [rStep, RPc.resting, State.emit, h1, h2] at h
    all_goals subst h
    all_goals constructor <;> rpc3_simp <;> flag_simp <;> wlog_simp <;> grind
  | read =>
    clear lg0
    cases freed <;> cases data <;> simp [rStep, RPc.resting, State.emit] at h
    subst h
    constructor <;> rpc3_simp <;> wlog_simp <;> grind
  | poRmw w =>
    clear lg0
    cases freed <;> cases h1 : has st DATA <;> cases h2 : (has st HALF || has st CLOSED) <;> cases h3 : has st RX <;>
      simp [rStep, RPc.resting, State.emit, h1, h2, h3] at h
    all_goals subst h
    all_goals constructor <;> rpc3_simp <;> flag_simp <;> wlog_simp <;> grind
  | poWrite w =>
    clear lg0
    cases freed <;> cases rxw <;> simp [rStep, RPc.resting, State.emit] at h
    subst h
    constructor <;> rpc3_simp <;> wlog_simp <;> grind
  | poRmw2 w =>
    clear lg0
    cases freed <;> cases h2 : has st HALF <;> simp [rStep, RPc.resting, State.emit, h2] at h
    all_goals subst h
    all_goals constructor <;> rpc3_simp <;> flag_simp <;> wlog_simp <;> grind
  | poUndo st' =>
    clear lg0
    cases freed <;> cases rxw <;> cases h2 : has st' DATA <;> simp [rStep, RPc.resting, State.emit, h2] at h
    all_goals subst h
    all_goals constructor <;> rpc3_simp <;> wlog_simp <;> grind
  | itLoad =>
    clear lg0
    cases freed <;> simp [rStep, RPc.resting, State.emit] at h
    subst h
    constructor <;> rpc3_simp <;> wlog_simp <;> grind
  | drRmw =>
    clear lg0
    cases freed <;> cases h1 : has st DATA <;> cases h2 : has st HALF <;> cases h3 : has st CLOSED <;>
      cases h4 : has st TX <;> simp [rStep, RPc.resting, dropTail, State.emit, h1, h2, h3, h4] at h
    all_goals subst h
    all_goals constructor <;> rpc3_simp <;> flag_simp <;> wlog_simp <;> grind
  | drData st' =>
    clear lg0
    cases freed <;> cases data <;> cases h2 : has st' HALF <;> cases h3 : has st' CLOSED <;>
      cases h4 : has st' TX <;> simp [rStep, RPc.resting, dropTail, State.emit, h2, h3, h4] at h
    all_goals subst h
    all_goals constructor <;> rpc3_simp <;> wlog_simp <;> grind
  | drWaker st' =>
    clear lg0
    cases freed <;> cases txw <;> cases h2 : has st' HALF <;>
      simp [rStep, RPc.resting, State.emit, h2] at h
    all_goals subst h
    all_goals constructor <;> rpc3_simp <;> wlog_simp <;> grind
  | drFree =>
    clear lg0
    cases freed <;> simp [rStep, RPc.resting, State.emit, State.release] at h
    subst h
    constructor <;> rpc3_simp <;> wlog_simp <;> grind

theorem sCall_logB {s : State α} (lg : LogB s) (h : s.spc.isIdle = true) (op : SOp α) : LogB (sCall s op) := by
  obtain ⟨st, data, rxw, txw, freed, spc, rpc, log⟩ := s
  cases spc <;> simp [SPc.isIdle] at h
  unfold LogB at lg
  obtain ⟨rxc, rx1, rx0, rxp, pend, und, rxd, rxq, txc, tx1, tx0, txp, cpend, tund, txd, txq, clh⟩ := lg
  cases op <;>
  · constructor <;> simp only [sCall, State.emit] at * <;> spc3_simp <;> wlog_simp <;> grind

theorem rCall_logB {s : State α} (lg : LogB s) (h : s.rpc.isIdle = true) (op : ROp) : LogB (rCall s op) := by
  obtain ⟨st, data, rxw, txw, freed, spc, rpc, log⟩ := s
  cases rpc <;> simp [RPc.isIdle] at h
  unfold LogB at lg
  obtain ⟨rxc, rx1, rx0, rxp, pend, und, rxd, rxq, txc, tx1, tx0, txp, cpend, tund, txd, txq, clh⟩ := lg
  cases op <;>
  · constructor <;> simp only [rCall, State.emit] at * <;> rpc3_simp <;> grind

theorem step_logB (s : State α) (a : Act α) (s' : State α) (inv : Inv s) (lg : LogB s) (h : step s a = some s') :
    LogB s' := by
  cases a with
  | sCall op =>
    simp only [step] at h
    split at h <;> simp at h <;> subst h
    · exact sCall_logB lg (by assumption) op
    · exact lg
  | rCall op =>
    simp only [step] at h
    split at h <;> simp at h <;> subst h
    · exact rCall_logB lg (by assumption) op
    · exact lg
  | sStep => exact sStep_logB inv lg h
  | rStep => exact rStep_logB inv lg h

end Verif.Oneshot
