import Verif.Ring.Run
/-! # What the log of a ring channel says about the error -/
namespace Verif.Ring

open Verif.Spsc

variable {k cap : Nat} {τ ε : Type}

/-- The error in the hands of a running `send_err`. -/
def sErr : SPc k τ ε → List ε
  | .errWrite v | .errFree v => [v]
  | _ => []

/-- Inside `send_err`. -/
def sSend : SPc k τ ε → Bool
  | .errWrite _ | .errRmw | .errWaker _ | .errBack _ | .errFree _ => true
  | _ => false

/-- Inside `send_err`, before the state update. -/
def sPre : SPc k τ ε → Bool
  | .errWrite _ | .errRmw => true
  | _ => false

/-- Inside `send_err`, after the error was published. -/
def sOpen : SPc k τ ε → Bool
  | .errWaker st => !has st (CLOSED k)
  | _ => false

/-- Inside drop, after the state update. -/
def sDrop : SPc k τ ε → Bool
  | .drWaker _ | .drFree => true
  | _ => false

/-- Relation of the log to the state: errors. -/
structure LogV (st : Word k) (err : Option ε) (f : Bool) (spc : SPc k τ ε) (rpc : RPc k) (log : List (Event τ ε)) :
    Prop where
  vals : errs log = sErr spc ++ err.toList ++ recvErrs log ++ dropErrs log ++ returned log
  one : (errs log).length ≤ 1
  sent : sSend spc = true → errs log ≠ []
  unsent : sSend spc = false → sGone spc = false → errs log = []
  drop1 : Event.sDropped ∈ log → errs log = [] ∧ (sDrop spc = true ∨ sGone spc = true)
  drop2 : sDrop spc = true → Event.sDropped ∈ log
  ok : Event.errOk ∈ log → sGone spc = true ∧ returned log = [] ∧ errs log ≠ []
  ret : returned log ≠ [] → sGone spc = true ∧ Event.closed ∈ log ∧ Event.errOk ∉ log
  gone : sGone spc = true → Event.sDropped ∈ log ∨ (errs log ≠ [] ∧ (Event.errOk ∈ log ∨ returned log ≠ []))
  rdrop : dropErrs log ≠ [] → rDone rpc = true
  openD : (has st (ERR k) = true ∨ rRead rpc = true) → calledOpen log
  openS : sOpen spc = true → calledOpen log
  openW : sPre spc = true → has st (CLOSED k) = false → calledOpen log
  openO : Event.errOk ∈ log → calledOpen log
  stor : rStoring rpc = true → has st (CLOSED k) = false
  frees : frees log = if f then 1 else 0
  hist : Hist OkErr log
  term : Hist OkTerm log

/-- Relation of the log to the state: errors. -/
def LogA (s : State k τ ε) : Prop := LogV s.st s.err s.freed s.spc s.rpc s.log

theorem init_logA : LogA (init k τ ε) := by
  constructor <;> simp [init, errs, recvErrs, dropErrs, returned, sErr, sSend, sGone, sDrop, frees, has_zero,
    rRead, sOpen, sPre, Hist, rStoring]

/-- Relations between the classes. -/
structure SFacts2 (spc : SPc k τ ε) : Prop where
  send : sSend spc = true → sGone spc = false ∧ sDrop spc = false
  drop : sDrop spc = true → sGone spc = false
  pre : sPre spc = true → sSend spc = true ∧ sDone spc = false
  opn : sOpen spc = true → sSend spc = true
  don : sDone spc = true → sSend spc = true ∨ sDrop spc = true ∨ sGone spc = true
  wr : sWritten spc = true → sPre spc = true
  fl : sFail spc = true → sSend spc = true ∧ sErr spc = []
  dd : sDrop spc = true → sDone spc = true
  gv : sGone spc = true → sErr spc = []

theorem sFacts2 (spc : SPc k τ ε) : SFacts2 spc := by
  constructor <;> cases spc <;> simp [sSend, sGone, sDrop, sPre, sOpen, sDone, sWritten, sFail, sErr]

theorem vals_one {α : Type} {l p q r d e : List α} (h : l = p ++ q ++ r ++ d ++ e) (h1 : l.length ≤ 1) :
    (p ≠ [] → l = p ∧ q = [] ∧ r = [] ∧ d = [] ∧ e = []) ∧ (q ≠ [] → l = q ∧ p = [] ∧ r = [] ∧ d = [] ∧ e = []) := by
  subst h
  simp only [List.length_append] at h1
  refine ⟨fun hp => ?_, fun hq => ?_⟩
  · have := List.length_pos_iff.2 hp
    have hq : q = [] := List.eq_nil_of_length_eq_zero (by omega)
    have hr : r = [] := List.eq_nil_of_length_eq_zero (by omega)
    have hd : d = [] := List.eq_nil_of_length_eq_zero (by omega)
    have he : e = [] := List.eq_nil_of_length_eq_zero (by omega)
    simp [hq, hr, hd, he]
  · have := List.length_pos_iff.2 hq
    have hp : p = [] := List.eq_nil_of_length_eq_zero (by omega)
    have hr : r = [] := List.eq_nil_of_length_eq_zero (by omega)
    have hd : d = [] := List.eq_nil_of_length_eq_zero (by omega)
    have he : e = [] := List.eq_nil_of_length_eq_zero (by omega)
    simp [hp, hr, hd, he]

/-- Evaluate the readers of the log on known events. -/
macro "log_simp" : tactic => `(tactic| try simp only [errs, recvErrs, dropErrs, returned, Ring.frees, calledOpen, Hist, OkErr, OkTerm,
  Untaken, SenderLeft, List.mem_cons, reduceCtorEq, false_or, true_or, true_and, and_true, Option.toList_none, Option.toList_some,
  closedResult])

/-- Evaluate the classes of a concrete program point of the sender. -/
macro "spc2_simp" : tactic => `(tactic| try simp only [sErr, sSend, sPre, sOpen, sDrop, sDone, sSt, sGone, Ring.sWk, sStoring, sTx,
  sFail, sWritten, sUndo, sBad, SPc.freeing, SPc.leaving, Bool.false_eq_true, false_implies, true_implies,
  reduceCtorEq, implies_true, Bool.false_or, Bool.or_false, false_and, and_false, or_false, false_or, List.nil_append] at *)

/-- … in the goal. -/
macro "spc2_goal" : tactic => `(tactic| try simp only [sErr, sSend, sPre, sOpen, sDrop, sDone, sSt, sGone, Ring.sWk, sStoring, sTx,
  sFail, sWritten, sUndo, sBad, SPc.freeing, SPc.leaving])

set_option maxHeartbeats 4000000 in
theorem sStep_logA {s s' : State k τ ε} (inv : Inv cap s) (il : InvL cap s) (lg : LogA s) (h : sStep cap s = some s') :
    LogA s' := by
  have lg0 := lg
  obtain ⟨st, buf, err, rxw, txw, freed, spc, rpc, log⟩ := s
  have lclosed := il.1.cl
  obtain ⟨lvals, lone, lsent, lunsent, ldrop1, ldrop2, lok, lret, lgone, lrdrop, lopenD, lopenS, lopenW, lopenO,
    lstor, lfrees, lhist, lterm⟩ := lg
  have dOk := inv.dOk
  have hdata := inv.data
  have hsfail := inv.sfail
  have sbad := inv.sbad
  have half := inv.half
  have hcl := inv.closed
  have first1 := inv.first1
  obtain ⟨hv1, hv2⟩ := vals_one lvals lone
  clear inv il
  dsimp only at *
  cases spc with
  | idle => simp [sStep, SPc.resting] at h; subst h; exact lg0
  | gone => simp [sStep, SPc.resting] at h; subst h; exact lg0
  | _ =>
    clear lg0
    spc2_simp
    simp only [sStep, SPc.resting, owMid, errTail, closedResult, State.emit, State.release, Bool.false_eq_true, if_false] at h
    (repeat' split at h) <;> simp only [Option.some.injEq, reduceCtorEq] at h
    all_goals subst h
    all_goals (try simp only [Option.toList_none, Option.toList_some] at lvals hv1 hv2)
    all_goals constructor <;> spc2_goal <;> log_simp <;> flag_simp <;> first | assumption | grind

set_option maxHeartbeats 4000000 in
theorem rStep_logA {s s' : State k τ ε} (inv : Inv cap s) (il : InvL cap s) (lg : LogA s) (h : rStep cap s = some s') :
    LogA s' := by
  have lg0 := lg
  obtain ⟨st, buf, err, rxw, txw, freed, spc, rpc, log⟩ := s
  have lclosed := il.1.cl
  have lcnt := il.1.cnt
  have lzero := il.1.zero
  obtain ⟨lvals, lone, lsent, lunsent, ldrop1, ldrop2, lok, lret, lgone, lrdrop, lopenD, lopenS, lopenW, lopenO,
    lstor, lfrees, lhist, lterm⟩ := lg
  have dOk := inv.dOk
  have hdata := inv.data
  have hsfail := inv.sfail
  have half := inv.half
  have hcl := inv.closed
  have rundo := inv.rundo
  have rplain := inv.rplain
  have first2 := inv.first2
  have hfreed := inv.freed
  clear inv il
  dsimp only at *
  obtain ⟨f1, f2, f3, f4, f5, f6, f7, f8, f9, f10, f11, f12⟩ := sFacts spc
  obtain ⟨g1, g2, g3, g4, g5, g6, g7, g8, g9⟩ := sFacts2 spc
  have hnil : err.isSome = false → err.toList = [] := by cases err <;> simp
  obtain ⟨hv1, hv2⟩ := vals_one lvals lone
  clear f5 f6 f7 f8 f9 f10 f1 f11 f12
  cases rpc with
  | idle => simp [rStep, RPc.resting] at h; subst h; exact lg0
  | gone => simp [rStep, RPc.resting] at h; subst h; exact lg0
  | _ =>
    clear lg0
    simp only [rDone, rSt, rGone, rTx, rRx, rStoring, rRead, rUndo, rPlain, Bool.false_eq_true, false_implies,
      true_implies, reduceCtorEq, implies_true, Bool.false_or, Bool.or_false, false_and, and_false, or_false, rZero] at *
    simp only [rStep, RPc.resting, takeValue, dropTail, dropLoop, State.emit, State.release, Bool.false_eq_true, if_false] at h
    (repeat' split at h) <;> simp only [Option.some.injEq, reduceCtorEq] at h
    all_goals subst h
    all_goals (try simp only [Option.toList_none, Option.toList_some] at lvals hv1 hv2)
    all_goals constructor <;> rpc_goal <;> log_simp <;> flag_simp <;> first | assumption | grind

theorem sCall_logA {s : State k τ ε} (inv : Inv cap s) (il : InvL cap s) (lg : LogA s) (h : s.spc.isIdle = true) (op : SOp τ ε) :
    LogA (sCall s op) := by
  obtain ⟨st, buf, err, rxw, txw, freed, spc, rpc, log⟩ := s
  cases spc <;> simp [SPc.isIdle] at h
  have lg0 := lg
  obtain ⟨lvals, lone, lsent, lunsent, ldrop1, ldrop2, lok, lret, lgone, lrdrop, lopenD, lopenS, lopenW, lopenO,
    lstor, lfrees, lhist, lterm⟩ := lg
  have dOk := inv.dOk
  have hdata := inv.data
  have lclosed := il.1.cl
  clear inv lg0 il
  dsimp only at *
  cases op with
  | sendErr e =>
    spc2_simp
    constructor <;> simp only [sCall, State.emit] <;> spc2_goal <;> log_simp <;> first | assumption | grind
  | trySend v =>
    spc2_simp
    constructor <;> simp only [sCall, State.emit] <;> spc2_goal <;> log_simp <;> first | assumption | grind
  | sendOverwrite v =>
    spc2_simp
    constructor <;> simp only [sCall, State.emit] <;> spc2_goal <;> log_simp <;> first | assumption | grind
  | _ =>
    exact ⟨lvals, lone, lsent, lunsent, ldrop1, ldrop2, lok, lret, lgone, lrdrop, lopenD, lopenS, lopenW, lopenO,
        lstor, lfrees, lhist, lterm⟩

theorem rCall_logA {s : State k τ ε} (lg : LogA s) (h : s.rpc.isIdle = true) (op : ROp) : LogA (rCall s op) := by
  obtain ⟨st, buf, err, rxw, txw, freed, spc, rpc, log⟩ := s
  cases rpc <;> simp [RPc.isIdle] at h
  obtain ⟨lvals, lone, lsent, lunsent, ldrop1, ldrop2, lok, lret, lgone, lrdrop, lopenD, lopenS, lopenW, lopenO,
    lstor, lfrees, lhist, lterm⟩ := lg
  cases op <;>
    exact ⟨lvals, lone, lsent, lunsent, ldrop1, ldrop2, lok, lret, lgone, lrdrop, lopenD, lopenS, lopenW, lopenO,
        lstor, lfrees, lhist, lterm⟩

theorem step_logA (s : State k τ ε) (a : Act τ ε) (s' : State k τ ε) (inv : Inv cap s) (il : InvL cap s) (lg : LogA s)
    (h : step cap s a = some s') : LogA s' := by
  cases a with
  | sCall op =>
    simp only [step] at h
    split at h <;> simp at h <;> subst h
    · exact sCall_logA inv il lg (by assumption) op
    · exact lg
  | rCall op =>
    simp only [step] at h
    split at h <;> simp at h <;> subst h
    · exact rCall_logA lg (by assumption) op
    · exact lg
  | sStep => exact sStep_logA inv il lg h
  | rStep => exact rStep_logA inv il lg h

end Verif.Ring
