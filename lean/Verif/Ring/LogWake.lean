import Verif.Ring.Run
/-! # Wakers of a ring channel -/
namespace Verif.Ring

open Verif.Spsc

variable {k cap : Nat} {τ ε : Type}

/-- About to wake the receiver. -/
def sWaking : SPc k τ ε → Bool
  | .wakeRef | .drWaker _ => true
  | _ => false

/-- Relation of the log to the state: the wakers in the cells. -/
structure LogW (st : Word k) (rxw txw : Option Waker) (spc : SPc k τ ε) (rpc : RPc k) (log : List (Event τ ε)) : Prop where
  rx0 : has st (RX k) = false → rRx rpc = false → rxStored log = []
  tx0 : hasWaker st = false → sTx spc = false → txStored log = []
  rxs : rxStored log = rxUsed log ++ rxw.toList
  txs : txStored log = txUsed log ++ txw.toList
  rx1 : (rxStored log).length ≤ 1
  tx1 : (txStored log).length ≤ 1
  hist : Hist OkWk log

/-- Relation of the log to the state: waking the receiver. -/
structure LogR (st : Word k) (spc : SPc k τ ε) (log : List (Event τ ε)) : Prop where
  hlf : ∀ st', spc = .drWaker st' → has st' (HALF k) = true → Event.closed ∈ log
  pend : pendings log = [] ∨ has st (RX k) = true
  wake : since isNotify log = true → pendings log ≠ [] → Event.closed ∉ log →
    since isWake log = true ∨ sWaking spc = true

/-- Relation of the log to the state: the wakers in the cells. -/
def LogB (s : State k τ ε) : Prop := LogW s.st s.rxw s.txw s.spc s.rpc s.log
/-- Relation of the log to the state: waking the receiver. -/
def LogC (s : State k τ ε) : Prop := LogR s.st s.spc s.log

theorem init_logB : LogB (init k τ ε) := by
  constructor <;> simp [init, rxStored, txStored, rxUsed, txUsed, Hist]

theorem init_logC : LogC (init k τ ε) := by
  constructor <;> simp [init, pendings, since]

/-- Evaluate the readers of the log on known events. -/
macro "wlog_simp" : tactic => `(tactic| try simp only [rxStored, rxUsed, txStored, txUsed, pendings, since, isNotify, isWake, List.mem_cons,
  reduceCtorEq, false_or, true_or, Option.toList_none, Option.toList_some, Bool.false_or, Bool.true_or, sWaking, Hist, OkWk, true_and,
  sTx, rRx, closedResult])

theorem one_left {α : Type} {l p q : List α} (h : l = p ++ q) (h1 : l.length ≤ 1) : q ≠ [] → l = q ∧ p = [] := by
  intro hq
  subst h
  have := List.length_pos_iff.2 hq
  simp only [List.length_append] at h1
  have hp : p = [] := List.eq_nil_of_length_eq_zero (by omega)
  simp [hp]

set_option maxHeartbeats 4000000 in
theorem sStep_logB {s s' : State k τ ε} (inv : Inv cap s) (lg : LogB s) (h : sStep cap s = some s') : LogB s' := by
  have lg0 := lg
  obtain ⟨st, buf, err, rxw, txw, freed, spc, rpc, log⟩ := s
  obtain ⟨rx0, tx0, rxs, txs, rx1, tx1, hist⟩ := lg
  have sst := inv.sStore
  have sun := inv.sundo
  have o1 := one_left rxs rx1
  have o2 := one_left txs tx1
  clear inv
  dsimp only at *
  cases spc with
  | idle => simp [sStep, SPc.resting] at h; subst h; exact lg0
  | gone => simp [sStep, SPc.resting] at h; subst h; exact lg0
  | _ =>
    clear lg0
    simp only [sTx, sStoring, sUndo, Bool.false_eq_true, false_implies, true_implies] at tx0 sst sun
    simp only [sStep, SPc.resting, owMid, errTail, closedResult, State.emit, State.release, Bool.false_eq_true, if_false] at h
    (repeat' split at h) <;> simp only [Option.some.injEq, reduceCtorEq] at h
    all_goals subst h
    all_goals try simp only [Option.toList_some, Option.toList_none, List.append_nil, ne_eq, not_true_eq_false, false_implies,
      reduceCtorEq, not_false_eq_true, true_implies] at rxs txs o1 o2
    all_goals constructor <;> wlog_simp <;> flag_simp <;> first | assumption | grind

set_option maxHeartbeats 4000000 in
theorem rStep_logB {s s' : State k τ ε} (inv : Inv cap s) (lg : LogB s) (h : rStep cap s = some s') : LogB s' := by
  have lg0 := lg
  obtain ⟨st, buf, err, rxw, txw, freed, spc, rpc, log⟩ := s
  obtain ⟨rx0, tx0, rxs, txs, rx1, tx1, hist⟩ := lg
  have rst := inv.rStore
  have rundo := inv.rundo
  have o1 := one_left rxs rx1
  have o2 := one_left txs tx1
  clear inv
  dsimp only at *
  cases rpc with
  | idle => simp [rStep, RPc.resting] at h; subst h; exact lg0
  | gone => simp [rStep, RPc.resting] at h; subst h; exact lg0
  | _ =>
    clear lg0
    simp only [rRx, rStoring, rUndo, Bool.false_eq_true, Bool.true_eq_false, false_implies, true_implies] at rx0 rst rundo
    simp only [rStep, RPc.resting, takeValue, dropTail, dropLoop, State.emit, State.release, Bool.false_eq_true, if_false] at h
    (repeat' split at h) <;> simp only [Option.some.injEq, reduceCtorEq] at h
    all_goals subst h
    all_goals try simp only [Option.toList_some, Option.toList_none, List.append_nil, ne_eq, not_true_eq_false, false_implies,
      reduceCtorEq, not_false_eq_true, true_implies] at rxs txs o1 o2
    all_goals constructor <;> wlog_simp <;> flag_simp <;> first | assumption | grind

theorem sCall_logB {s : State k τ ε} (lg : LogB s) (h : s.spc.isIdle = true) (op : SOp τ ε) : LogB (sCall s op) := by
  obtain ⟨st, buf, err, rxw, txw, freed, spc, rpc, log⟩ := s
  cases spc <;> simp [SPc.isIdle] at h
  obtain ⟨rx0, tx0, rxs, txs, rx1, tx1, hist⟩ := lg
  dsimp only at *
  simp only [sTx] at tx0
  cases op <;> simp only [sCall, State.emit] <;> constructor <;> wlog_simp <;> assumption

theorem rCall_logB {s : State k τ ε} (lg : LogB s) (h : s.rpc.isIdle = true) (op : ROp) : LogB (rCall s op) := by
  obtain ⟨st, buf, err, rxw, txw, freed, spc, rpc, log⟩ := s
  cases rpc <;> simp [RPc.isIdle] at h
  obtain ⟨rx0, tx0, rxs, txs, rx1, tx1, hist⟩ := lg
  cases op <;> exact ⟨rx0, tx0, rxs, txs, rx1, tx1, hist⟩

theorem step_logB (s : State k τ ε) (a : Act τ ε) (s' : State k τ ε) (inv : Inv cap s) (lg : LogB s)
    (h : step cap s a = some s') : LogB s' := by
  cases a with
  | sCall op =>
    simp only [step] at h
    split at h <;> simp at h <;> subst h
    · exact sCall_logB lg (by assumption) op
    · exact lg
  | rCall op =>
    simp only [step] at h
    split at h <;> simp at h <;> subst h
    · exact rCall_logB lg (by assumption) op
    · exact lg
  | sStep => exact sStep_logB inv lg h
  | rStep => exact rStep_logB inv lg h

set_option maxHeartbeats 4000000 in
theorem sStep_logC {s s' : State k τ ε} (inv : Inv cap s) (il : InvL cap s) (lg : LogC s) (h : sStep cap s = some s') :
    LogC s' := by
  have lg0 := lg
  obtain ⟨st, buf, err, rxw, txw, freed, spc, rpc, log⟩ := s
  obtain ⟨hlf, pend, wake⟩ := lg
  have lcl := il.1.cl
  have half := inv.half
  have rcl := inv.closed
  clear inv il
  dsimp only at *
  cases spc with
  | idle => simp [sStep, SPc.resting] at h; subst h; exact lg0
  | gone => simp [sStep, SPc.resting] at h; subst h; exact lg0
  | drWaker st' =>
    clear lg0
    have hlf' := hlf st' rfl
    simp only [sWaking, or_true] at wake
    simp only [sStep, SPc.resting, State.emit, Bool.false_eq_true, if_false] at h
    (repeat' split at h) <;> simp only [Option.some.injEq, reduceCtorEq] at h
    all_goals subst h
    all_goals constructor <;> wlog_simp <;> first | assumption | grind
  | _ =>
    clear lg0 hlf
    simp only [sWaking, Bool.false_eq_true, or_false, or_true] at wake
    simp only [sDone] at half
    simp only [sStep, SPc.resting, owMid, errTail, closedResult, State.emit, State.release, Bool.false_eq_true, if_false] at h
    (repeat' split at h) <;> simp only [Option.some.injEq, reduceCtorEq] at h
    all_goals subst h
    all_goals constructor <;> wlog_simp <;> flag_simp <;> first | assumption | grind

set_option maxHeartbeats 4000000 in
theorem rStep_logC {s s' : State k τ ε} (lg : LogC s) (h : rStep cap s = some s') : LogC s' := by
  have lg0 := lg
  obtain ⟨st, buf, err, rxw, txw, freed, spc, rpc, log⟩ := s
  obtain ⟨hlf, pend, wake⟩ := lg
  dsimp only at *
  cases rpc with
  | idle => simp [rStep, RPc.resting] at h; subst h; exact lg0
  | gone => simp [rStep, RPc.resting] at h; subst h; exact lg0
  | _ =>
    clear lg0
    simp only [rStep, RPc.resting, takeValue, dropTail, dropLoop, State.emit, State.release, Bool.false_eq_true, if_false] at h
    (repeat' split at h) <;> simp only [Option.some.injEq, reduceCtorEq] at h
    all_goals subst h
    all_goals constructor <;> wlog_simp <;> flag_simp <;> first | assumption | grind [sWaking]

theorem sCall_logC {s : State k τ ε} (lg : LogC s) (h : s.spc.isIdle = true) (op : SOp τ ε) : LogC (sCall s op) := by
  obtain ⟨st, buf, err, rxw, txw, freed, spc, rpc, log⟩ := s
  cases spc <;> simp [SPc.isIdle] at h
  obtain ⟨hlf, pend, wake⟩ := lg
  dsimp only at *
  simp only [sWaking, Bool.false_eq_true, or_false] at wake
  cases op <;> simp only [sCall, State.emit] <;> constructor <;> wlog_simp <;> first | assumption | grind

theorem step_logC (s : State k τ ε) (a : Act τ ε) (s' : State k τ ε) (inv : Inv cap s) (il : InvL cap s) (lg : LogC s)
    (h : step cap s a = some s') : LogC s' := by
  cases a with
  | sCall op =>
    simp only [step] at h
    split at h <;> simp at h <;> subst h
    · exact sCall_logC lg (by assumption) op
    · exact lg
  | rCall op =>
    simp only [step] at h
    split at h <;> simp at h <;> subst h
    · cases op <;> exact lg
    · exact lg
  | sStep => exact sStep_logC inv il lg h
  | rStep => exact rStep_logC lg h

end Verif.Ring
