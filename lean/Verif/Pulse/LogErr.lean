import Verif.Pulse.LogCount
/-! # What the log of a pulse channel says about the error: definitions -/
namespace Verif.Pulse

open Verif.Spsc

variable {n : Nat} {ε : Type}

/-- The error in the hands of a running `send_err`. -/
def sVal : SPc n ε → List ε
  | .errWrite v | .errFree v => [v]
  | _ => []

/-- Inside `send_err`. -/
def sSend : SPc n ε → Bool
  | .errWrite _ | .errRmw | .errWaker _ | .errBack _ | .errFree _ => true
  | _ => false

/-- Inside `send_err`, before the state update. -/
def sPre : SPc n ε → Bool
  | .errWrite _ | .errRmw => true
  | _ => false

/-- Inside `send_err`, after the error was published. -/
def sOpen : SPc n ε → Bool
  | .errWaker st => !has st (CLOSED n)
  | _ => false

/-- Inside drop, after the state update. -/
def sDrop : SPc n ε → Bool
  | .drWaker _ | .drFree => true
  | _ => false

/-- Relation of the log to the state: errors. -/
structure LogV (st : Word n) (err : Option ε) (f : Bool) (spc : SPc n ε) (rpc : RPc n) (log : List (Event ε)) :
    Prop where
  closed : (Event.closed ∈ log) ↔ has st (CLOSED n) = true
  vals : errs log = sVal spc ++ err.toList ++ recvErrs log ++ dropErrs log ++ returned log
  one : (errs log).length ≤ 1
  sent : sSend spc = true → errs log ≠ []
  unsent : sSend spc = false → sGone spc = false → errs log = []
  drop1 : Event.sDropped ∈ log → errs log = [] ∧ (sDrop spc = true ∨ sGone spc = true)
  drop2 : sDrop spc = true → Event.sDropped ∈ log
  ok : Event.errOk ∈ log → sGone spc = true ∧ returned log = [] ∧ errs log ≠ []
  ret : returned log ≠ [] → sGone spc = true ∧ Event.closed ∈ log ∧ Event.errOk ∉ log
  gone : sGone spc = true → Event.sDropped ∈ log ∨ (errs log ≠ [] ∧ (Event.errOk ∈ log ∨ returned log ≠ []))
  rdrop : dropErrs log ≠ [] → rDone rpc = true
  openD : (has st (ERR n) = true ∨ rRead rpc = true) → calledOpen log
  openS : sOpen spc = true → calledOpen log
  openW : sPre spc = true → has st (CLOSED n) = false → calledOpen log
  openO : Event.errOk ∈ log → calledOpen log
  stor : rStoring rpc = true → has st (CLOSED n) = false
  frees : frees log = if f then 1 else 0
  count : cnt st = pend n true log
  hist : Hist OkErr log
  term : Hist (OkTerm n) log

/-- Relation of the log to the state: errors. -/
def LogA (s : State n ε) : Prop := LogV s.st s.err s.freed s.spc s.rpc s.log

theorem init_logA (n : Nat) (ε : Type) : LogA (init n ε) := by
  constructor <;> simp [init, errs, recvErrs, dropErrs, returned, sVal, sSend, sGone, sDrop, frees, has_zero,
    rRead, sOpen, sPre, Hist, rStoring, cnt, pend]

/-- Relations between the classes. -/
structure SFacts2 (spc : SPc n ε) : Prop where
  send : sSend spc = true → sGone spc = false ∧ sDrop spc = false
  drop : sDrop spc = true → sGone spc = false
  pre : sPre spc = true → sSend spc = true ∧ sDone spc = false
  opn : sOpen spc = true → sSend spc = true
  don : sDone spc = true → sSend spc = true ∨ sDrop spc = true ∨ sGone spc = true
  wr : sWritten spc = true → sPre spc = true
  fl : sFail spc = true → sSend spc = true ∧ sVal spc = []
  dd : sDrop spc = true → sDone spc = true
  gv : sGone spc = true → sVal spc = []

theorem sFacts2 (spc : SPc n ε) : SFacts2 spc := by
  constructor <;> cases spc <;> simp [sSend, sGone, sDrop, sPre, sOpen, sDone, sWritten, sFail, sVal]

theorem vals_one {α : Type} {l p q r d e : List α} (h : l = p ++ q ++ r ++ d ++ e) (h1 : l.length ≤ 1) :
    (p ≠ [] → l = p ∧ q = [] ∧ r = [] ∧ d = [] ∧ e = []) ∧ (q ≠ [] → l = q ∧ p = [] ∧ r = [] ∧ d = [] ∧ e = []) := by
  subst h
  simp only [List.length_append] at h1
  refine ⟨fun hp => ?_, fun hq => ?_⟩
  · have := List.length_pos_iff.2 hp
    have hq : q = [] := List.eq_nil_of_length_eq_zero (by omega)
    have hr : r = [] := List.eq_nil_of_length_eq_zero (by omega)
    have hd : d = [] := List.eq_nil_of_length_eq_zero (by omega)
    have he : e = [] := List.eq_nil_of_length_eq_zero (by omega)
    simp [hq, hr, hd, he]
  · have := List.length_pos_iff.2 hq
    have hp : p = [] := List.eq_nil_of_length_eq_zero (by omega)
    have hr : r = [] := List.eq_nil_of_length_eq_zero (by omega)
    have hd : d = [] := List.eq_nil_of_length_eq_zero (by omega)
    have he : e = [] := List.eq_nil_of_length_eq_zero (by omega)
    simp [hp, hr, hd, he]

/-- Evaluate the readers of the log on known events. -/
macro "log_simp" : tactic => `(tactic| try simp only [errs, recvErrs, dropErrs, returned, Pulse.frees, calledOpen, Hist, OkErr, OkTerm,
  Untaken, SenderLeft, List.mem_cons, reduceCtorEq, false_or, true_or, true_and, and_true, Option.toList_none, Option.toList_some])

/-- Evaluate the classes of a concrete program point of the sender. -/
macro "spc2_simp" : tactic => `(tactic| try simp only [sVal, sSend, sPre, sOpen, sDrop, sDone, sSt, sGone, Pulse.sWk, sStoring, sTx,
  sFail, sWritten, sUndo, sBad, SPc.freeing, SPc.leaving] at *)

/-- … in the goal. -/
macro "spc2_goal" : tactic => `(tactic| try simp only [sVal, sSend, sPre, sOpen, sDrop, sDone, sSt, sGone, Pulse.sWk, sStoring, sTx,
  sFail, sWritten, sUndo, sBad, SPc.freeing, SPc.leaving])

end Verif.Pulse
