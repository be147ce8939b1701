import Verif.Pulse.Run
/-! # What the log of a pulse channel says about the counter -/
namespace Verif.Pulse

open Verif.Spsc

variable {n : Nat} {ε : Type}

/-- The receiver has just emptied the counter and the sender has left. -/
def rZero : RPc n → Bool
  | .rdErr | .reErr | .pnUndo _ => true
  | _ => false

/-- Relation of the log to the state: pulses. -/
structure LogC (st : Word n) (rpc : RPc n) (log : List (Event ε)) : Prop where
  closed : (Event.closed ∈ log) ↔ has st (CLOSED n) = true
  count : cnt st = pend n true log
  zero : rZero rpc = true → cnt st = 0
  hist : Hist (OkCount n) log

/-- Relation of the log to the state: pulses. -/
def LogN (s : State n ε) : Prop := LogC s.st s.rpc s.log

theorem init_logN (n : Nat) (ε : Type) : LogN (init n ε) := by
  constructor <;> simp [init, has_zero, pend, rZero, Hist, cnt]

theorem cnt_iteE (st : Word n) (b : Bool) : cnt (st ||| if b = true then 0#(n + 6) else ERR n) = cnt st := by
  cases b
  · exact cnt_ERR st
  · exact cnt_zero_or st

/-- Evaluate the readers of the log on known events. -/
macro "logc_simp" : tactic => `(tactic| try simp only [pend, Hist, OkCount, List.mem_cons, reduceCtorEq, false_or, true_or,
  true_and, and_true, if_true, cnt_TX, cnt_RX, cnt_ERR, cnt_CLOSED, cnt_HALF, cnt_zero_or, cnt_takeWord, cnt_iteE])

set_option maxHeartbeats 4000000 in
theorem sStep_logN {s s' : State n ε} (inv : Inv s) (lg : LogN s) (h : sStep s = some s') : LogN s' := by
  have lg0 := lg
  obtain ⟨st, data, rxw, txw, freed, spc, rpc, log⟩ := s
  obtain ⟨lclosed, lcount, lzero, lhist⟩ := lg
  have hz : rZero rpc = true → sDone spc = true := by
    intro hz
    cases rpc <;> simp [rZero] at hz
    · exact (inv.dOk (.inr rfl)).1
    · exact (inv.dOk (.inr rfl)).1
    · exact (inv.rundo rfl).2.1
  have harg := inv.arg
  clear inv
  dsimp only at *
  cases spc with
  | idle => simp [sStep, SPc.resting] at h; subst h; exact lg0
  | gone => simp [sStep, SPc.resting] at h; subst h; exact lg0
  | sendRmw p =>
    have hc := cnt_addWord st p harg
    have ha := has_addWord st p harg (i := 3) (by omega)
    have hn := checkedAdd_isNone st p harg
    change has _ (CLOSED n) = has _ (CLOSED n) at ha
    have hp : 0 < 2 ^ (n + 1) := Nat.pos_of_ne_zero (by simp)
    have hz' : rZero rpc = false := by cases hr : rZero rpc <;> simp_all [sDone]
    clear lg0 hz
    simp only [sStep, SPc.resting, sendTail, State.emit, Bool.false_eq_true, if_false] at h
    (repeat' split at h) <;> simp only [Option.some.injEq, reduceCtorEq] at h
    all_goals subst h
    all_goals constructor <;> logc_simp <;> (try simp only [ha, maxPulses]) <;> grind
  | satRmw p =>
    have hc := cnt_satWord st p
    have ha := has_satWord st p (i := 3) (by omega)
    change has _ (CLOSED n) = has _ (CLOSED n) at ha
    have hz' : rZero rpc = false := by cases hr : rZero rpc <;> simp_all [sDone]
    clear lg0 hz
    simp only [sStep, SPc.resting, satTail, State.emit, Bool.false_eq_true, if_false] at h
    (repeat' split at h) <;> simp only [Option.some.injEq, reduceCtorEq] at h
    all_goals subst h
    all_goals constructor <;> logc_simp <;> (try simp only [ha, maxPulses]) <;> grind
  | _ =>
    clear lg0 harg
    simp only [sStep, SPc.resting, errTail, State.emit, State.release, Bool.false_eq_true, if_false] at h
    (repeat' split at h) <;> simp only [Option.some.injEq, reduceCtorEq] at h
    all_goals subst h
    all_goals constructor <;> logc_simp <;> flag_simp <;> first | assumption | grind

set_option maxHeartbeats 4000000 in
theorem rStep_logN {s s' : State n ε} (lg : LogN s) (h : rStep s = some s') : LogN s' := by
  obtain ⟨st, data, rxw, txw, freed, spc, rpc, log⟩ := s
  have lg0 := lg
  obtain ⟨lclosed, lcount, lzero, lhist⟩ := lg
  dsimp only at *
  cases rpc with
  | idle => simp [rStep, RPc.resting] at h; subst h; exact lg0
  | gone => simp [rStep, RPc.resting] at h; subst h; exact lg0
  | _ =>
    clear lg0
    simp only [rZero, forall_const] at lzero
    simp only [rStep, RPc.resting, gotCount, dropTail, State.emit, State.release, Bool.false_eq_true, if_false] at h
    (repeat' split at h) <;> simp only [Option.some.injEq, reduceCtorEq] at h
    all_goals subst h
    all_goals constructor <;> simp only [rZero] <;> logc_simp <;> flag_simp <;> first | assumption | grind

theorem sCall_logN {s : State n ε} (lg : LogN s) (op : SOp n ε) : LogN (sCall s op) := by
  obtain ⟨st, data, rxw, txw, freed, spc, rpc, log⟩ := s
  have lg0 := lg
  obtain ⟨lclosed, lcount, lzero, lhist⟩ := lg
  dsimp only at *
  cases op with
  | send p =>
    simp only [sCall]
    split
    · rename_i h
      have h1 : ¬p.toNat < 2 ^ (n + 1) := fun g => (lt_capacity (p := p)).2 g h
      have hp : 0 < 2 ^ (n + 1) := Nat.pos_of_ne_zero (by simp)
      have : maxPulses n < p.toNat := by unfold maxPulses; omega
      constructor <;> simp only [State.emit] <;> logc_simp <;> grind
    · exact lg0
  | sendErr e => constructor <;> simp only [sCall, State.emit] <;> logc_simp <;> grind
  | _ => exact lg0

theorem rCall_logN {s : State n ε} (lg : LogN s) (op : ROp) : LogN (rCall s op) := by
  obtain ⟨lclosed, lcount, lzero, lhist⟩ := lg
  cases op <;> exact ⟨lclosed, lcount, fun h => by simp [rCall, rZero] at h, lhist⟩

theorem step_logN (s : State n ε) (a : Act n ε) (s' : State n ε) (inv : Inv s) (lg : LogN s) (h : step s a = some s') :
    LogN s' := by
  cases a with
  | sCall op =>
    simp only [step] at h
    split at h <;> simp at h <;> subst h
    · exact sCall_logN lg op
    · exact lg
  | rCall op =>
    simp only [step] at h
    split at h <;> simp at h <;> subst h
    · exact rCall_logN lg op
    · exact lg
  | sStep => exact sStep_logN inv lg h
  | rStep => exact rStep_logN lg h

end Verif.Pulse
