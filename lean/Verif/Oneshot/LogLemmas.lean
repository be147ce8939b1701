import Verif.Oneshot.Run
/-! # What the log of a oneshot channel says -/
namespace Verif.Oneshot

open Verif.Spsc

variable {α : Type}

/-- The value in the hands of a running `send`. -/
def sVal : SPc α → List α
  | .sendWrite v | .sendFree v => [v]
  | _ => []

/-- Inside `send`. -/
def sSend : SPc α → Bool
  | .sendWrite _ | .sendRmw | .sendWaker _ | .sendBack _ | .sendFree _ => true
  | _ => false

/-- Inside `send`, before the state update. -/
def sPre : SPc α → Bool
  | .sendWrite _ | .sendRmw => true
  | _ => false

/-- Inside `send`, after the value was published. -/
def sOpen : SPc α → Bool
  | .sendWaker st => !has st CLOSED
  | _ => false

/-- Inside drop, after the state update. -/
def sDrop : SPc α → Bool
  | .drWaker _ | .drFree => true
  | _ => false

/-- Relation of the log to the state: values. -/
structure LogV (st : BitVec 8) (data : Option α) (f : Bool) (spc : SPc α) (rpc : RPc) (log : List (Event α)) :
    Prop where
  closed : (Event.closed ∈ log) ↔ has st CLOSED = true
  vals : sends log = sVal spc ++ data.toList ++ received log ++ droppedValues log ++ returned log
  one : (sends log).length ≤ 1
  sent : sSend spc = true → sends log ≠ []
  unsent : sSend spc = false → sGone spc = false → sends log = []
  drop1 : Event.sDropped ∈ log → sends log = [] ∧ (sDrop spc = true ∨ sGone spc = true)
  drop2 : sDrop spc = true → Event.sDropped ∈ log
  ok : Event.sendOk ∈ log → sGone spc = true ∧ returned log = [] ∧ sends log ≠ []
  ret : returned log ≠ [] → sGone spc = true ∧ Event.closed ∈ log ∧ Event.sendOk ∉ log
  gone : sGone spc = true → Event.sDropped ∈ log ∨ (sends log ≠ [] ∧ (Event.sendOk ∈ log ∨ returned log ≠ []))
  rdrop : droppedValues log ≠ [] → rDone rpc = true
  openD : (has st DATA = true ∨ rRead rpc = true) → calledOpen log
  openS : sOpen spc = true → calledOpen log
  openW : sPre spc = true → has st CLOSED = false → calledOpen log
  openO : Event.sendOk ∈ log → calledOpen log
  stor : rStoring rpc = true → has st CLOSED = false
  frees : frees log = if f then 1 else 0
  hist : Hist log

/-- Relation of the log to the state: values. -/
def LogA (s : State α) : Prop := LogV s.st s.data s.freed s.spc s.rpc s.log

theorem init_logA (α : Type) : LogA (init α) := by
  constructor <;> simp [init, sends, received, droppedValues, returned, sVal, sSend, sGone, sDrop, frees, has_zero,
    rRead, sOpen, sPre, Hist, rStoring]

/-- Relations between the classes. -/
structure SFacts2 (spc : SPc α) : Prop where
  send : sSend spc = true → sGone spc = false ∧ sDrop spc = false
  drop : sDrop spc = true → sGone spc = false
  pre : sPre spc = true → sSend spc = true ∧ sDone spc = false
  opn : sOpen spc = true → sSend spc = true
  don : sDone spc = true → sSend spc = true ∨ sDrop spc = true ∨ sGone spc = true
  wr : sWritten spc = true → sPre spc = true
  fl : sFail spc = true → sSend spc = true ∧ sVal spc = []
  dd : sDrop spc = true → sDone spc = true
  gv : sGone spc = true → sVal spc = []

theorem sFacts2 (spc : SPc α) : SFacts2 spc := by
  constructor <;> cases spc <;> simp [sSend, sGone, sDrop, sPre, sOpen, sDone, sWritten, sFail, sVal]

theorem vals_one {l p q r d e : List α} (h : l = p ++ q ++ r ++ d ++ e) (h1 : l.length ≤ 1) :
    (p ≠ [] → l = p ∧ q = [] ∧ r = [] ∧ d = [] ∧ e = []) ∧ (q ≠ [] → l = q ∧ p = [] ∧ r = [] ∧ d = [] ∧ e = []) := by
  subst h
  simp only [List.length_append] at h1
  refine ⟨fun hp => ?_, fun hq => ?_⟩
  · have := List.length_pos_iff.2 hp
    have hq : q = [] := List.eq_nil_of_length_eq_zero (by omega)
    have hr : r = [] := List.eq_nil_of_length_eq_zero (by omega)
    have hd : d = [] := List.eq_nil_of_length_eq_zero (by omega)
    have he : e = [] := List.eq_nil_of_length_eq_zero (by omega)
    simp [hq, hr, hd, he]
  · have := List.length_pos_iff.2 hq
    have hp : p = [] := List.eq_nil_of_length_eq_zero (by omega)
    have hr : r = [] := List.eq_nil_of_length_eq_zero (by omega)
    have hd : d = [] := List.eq_nil_of_length_eq_zero (by omega)
    have he : e = [] := List.eq_nil_of_length_eq_zero (by omega)
    simp [hp, hr, hd, he]

/-- Evaluate the readers of the log on known events. -/
macro "log_simp" : tactic => `(tactic| simp only [sends, received, droppedValues, returned, Oneshot.frees, calledOpen, Hist, Ok,
  Untaken, SenderLeft, List.mem_cons, reduceCtorEq, false_or, true_or, true_and, and_true, Option.toList_none, Option.toList_some] at *)

/-- Evaluate the classes of a concrete program point of the sender. -/
macro "spc2_simp" : tactic => `(tactic| simp only [sVal, sSend, sPre, sOpen, sDrop, sDone, sSt, sGone, Oneshot.sWk, sStoring, sTx,
  sFail, sWritten, sUndo, sBad, SPc.freeing, SPc.leaving] at *)

set_option maxHeartbeats 4000000 in
theorem sStep_logA {s s' : State α} (inv : Inv s) (lg : LogA s) (h : sStep s = some s') : LogA s' := by
  have lg0 := lg
  obtain ⟨st, data, rxw, txw, freed, spc, rpc, log⟩ := s
  unfold Inv at inv
  unfold LogA at lg
  obtain ⟨half, closed, rtx, sundo, sfail, sbad, rundo, rplain, first1, first2, first3, first3', first4, first5, hfreed,
    rStore, hsWk, hrxw, sStore, htxw, hdata, dOk⟩ := inv
  obtain ⟨lclosed, lvals, lone, lsent, lunsent, ldrop1, ldrop2, lok, lret, lgone, lrdrop, lopenD, lopenS, lopenW, lopenO,
    lstor, lfrees, lhist⟩ := lg
  clear first2 first3 first3' first5 rStore hrxw htxw rtx
  dsimp only at *
  cases spc with
  | idle => simp [sStep, SPc.resting] at h; subst h; exact lg0
  | gone => simp [sStep, SPc.resting] at h; subst h; exact lg0
  | sendWrite v =>
    clear lg0
    cases freed <;> cases data <;> simp [sStep, SPc.resting] at h
    subst h
    constructor <;> spc2_simp <;> log_simp <;> grind
  | sendRmw =>
    clear lg0
    cases freed <;> cases h1 : has st RX <;> cases h2 : has st CLOSED <;>
      simp [sStep, SPc.resting, sendTail, State.emit, h1, h2] at h
    all_goals subst h
    all_goals constructor <;> spc2_simp <;> flag_simp <;> log_simp <;> grind
  | sendWaker st' =>
    clear lg0
    cases freed <;> cases rxw <;> cases h2 : has st' CLOSED <;>
      simp [sStep, SPc.resting, sendTail, State.emit, h2] at h
    all_goals subst h
    all_goals constructor <;> spc2_simp <;> log_simp <;> grind
  | sendBack st' =>
    clear lg0
    obtain ⟨-, hv⟩ := vals_one lvals lone
    cases freed <;> cases data <;> cases h2 : has st' HALF <;>
      simp [sStep, SPc.resting, State.emit, h2] at h
    all_goals subst h
    all_goals constructor <;> spc2_simp <;> log_simp <;> grind
  | sendFree v =>
    clear lg0
    obtain ⟨hv, -⟩ := vals_one lvals lone
    cases freed <;> simp [sStep, SPc.resting, State.emit, State.release] at h
    subst h
    constructor <;> spc2_simp <;> log_simp <;> grind
  | pcLoad w =>
    clear lg0
    cases freed <;> cases h1 : has st TX <;> cases h2 : has st CLOSED <;>
      simp [sStep, SPc.resting, State.emit, h1, h2] at h
    all_goals subst h
    all_goals constructor <;> spc2_simp <;> log_simp <;> grind
  | pcWrite w =>
    clear lg0
    cases freed <;> cases txw <;> simp [sStep, SPc.resting, State.emit] at h
    subst h
    constructor <;> spc2_simp <;> log_simp <;> grind
  | pcRmw w =>
    clear lg0
    cases freed <;> cases h2 : has st CLOSED <;> simp [sStep, SPc.resting, State.emit, h2] at h
    all_goals subst h
    all_goals constructor <;> spc2_simp <;> flag_simp <;> log_simp <;> grind
  | pcUndo =>
    clear lg0
    cases freed <;> cases txw <;> simp [sStep, SPc.resting, State.emit] at h
    subst h
    constructor <;> spc2_simp <;> log_simp <;> grind
  | icLoad =>
    clear lg0
    cases freed <;> simp [sStep, SPc.resting, State.emit] at h
    subst h
    constructor <;> spc2_simp <;> log_simp <;> grind
  | drRmw =>
    clear lg0
    cases freed <;> cases h1 : has st RX <;> cases h2 : has st HALF <;>
      simp [sStep, SPc.resting, State.emit, h1, h2] at h
    all_goals subst h
    all_goals constructor <;> spc2_simp <;> flag_simp <;> log_simp <;> grind
  | drWaker st' =>
    clear lg0
    cases freed <;> cases rxw <;> cases h2 : has st' HALF <;>
      simp [sStep, SPc.resting, State.emit, h2] at h
    all_goals subst h
    all_goals constructor <;> spc2_simp <;> log_simp <;> grind
  | drFree =>
    clear lg0
    cases freed <;> simp [sStep, SPc.resting, State.emit, State.release] at h
    subst h
    constructor <;> spc2_simp <;> log_simp <;> grind

end Verif.Oneshot
