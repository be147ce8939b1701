import Verif.Pulse.Run
/-! # Wakers of a pulse channel -/
namespace Verif.Pulse

open Verif.Spsc

variable {n : Nat} {ε : Type}

/-- The waker just stored by `poll_next`. -/
def rPw : RPc n → List Waker
  | .pnRmw2 w => [w]
  | _ => []

/-- About to wake the receiver. -/
def sWaking : SPc n ε → Bool
  | .wakeRef | .drWaker _ => true
  | _ => false

/-- Relation of the log to the state: the receiver's waker. -/
structure LogR (st : Word n) (rxw : Option Waker) (spc : SPc n ε) (rpc : RPc n) (log : List (Event ε)) : Prop where
  closed : (Event.closed ∈ log) ↔ has st (CLOSED n) = true
  hlf : ∀ st', spc = .drWaker st' → has st' (HALF n) = true → Event.closed ∈ log
  rx0 : has st (RX n) = false → rRx rpc = false → rxStored log = []
  rxp : rPw rpc ≠ [] → rxStored log = rPw rpc
  rx1 : has st (RX n) = true → rxStored log ≠ []
  pend : pendings log = [] ∨ has st (RX n) = true
  held : ∀ w, rxw = some w → rxStored log = [w]
  woken : ∀ w, w ∈ rxWoken log → rxStored log = [w]
  wake : since isNotify log = true → pendings log ≠ [] → Event.closed ∉ log →
    since isWake log = true ∨ sWaking spc = true

/-- Relation of the log to the state: the receiver's waker. -/
def LogB (s : State n ε) : Prop := LogR s.st s.rxw s.spc s.rpc s.log

theorem init_logB (n : Nat) (ε : Type) : LogB (init n ε) := by
  constructor <;> simp [init, rxStored, pendings, has_zero, rPw, rxWoken, since]

/-- Evaluate the readers of the log on known events. -/
macro "wlog_simp" : tactic => `(tactic| try simp only [rxStored, rxWoken, pendings, since, isNotify, isWake, List.mem_cons,
  reduceCtorEq, false_or, true_or, Option.toList_none, Option.toList_some, Bool.false_or, Bool.true_or, sWaking, rPw])

theorem rPw_rRx (rpc : RPc n) : rPw rpc ≠ [] → rRx rpc = true ∧ rStoring rpc = true := by
  cases rpc <;> simp [rPw, rRx, rStoring]

set_option maxHeartbeats 4000000 in
theorem sStep_logB {s s' : State n ε} (inv : Inv s) (lg : LogB s) (h : sStep s = some s') : LogB s' := by
  have lg0 := lg
  obtain ⟨st, data, rxw, txw, freed, spc, rpc, log⟩ := s
  obtain ⟨lclosed, hlf, rx0, rxp, rx1, pend, held, woken, wake⟩ := lg
  have harg := inv.arg
  have half := inv.half
  have rcl := inv.closed
  clear inv
  dsimp only at *
  cases spc with
  | idle => simp [sStep, SPc.resting] at h; subst h; exact lg0
  | gone => simp [sStep, SPc.resting] at h; subst h; exact lg0
  | sendRmw p =>
    clear lg0 hlf
    simp only [sWaking, Bool.false_eq_true, or_false] at wake
    have e1 := has_addWord st p harg (i := 1) (by omega)
    have e2 := has_addWord st p harg (i := 3) (by omega)
    change has _ (RX n) = has _ (RX n) at e1
    change has _ (CLOSED n) = has _ (CLOSED n) at e2
    simp only [sStep, SPc.resting, sendTail, State.emit, Bool.false_eq_true, if_false] at h
    (repeat' split at h) <;> simp only [Option.some.injEq, reduceCtorEq] at h
    all_goals subst h
    all_goals constructor <;> wlog_simp <;> (try simp only [e1, e2]) <;> first | assumption | grind
  | satRmw p =>
    clear lg0 hlf
    simp only [sWaking, Bool.false_eq_true, or_false] at wake
    have e1 := has_satWord st p (i := 1) (by omega)
    have e2 := has_satWord st p (i := 3) (by omega)
    change has _ (RX n) = has _ (RX n) at e1
    change has _ (CLOSED n) = has _ (CLOSED n) at e2
    simp only [sStep, SPc.resting, satTail, State.emit, Bool.false_eq_true, if_false] at h
    (repeat' split at h) <;> simp only [Option.some.injEq, reduceCtorEq] at h
    all_goals subst h
    all_goals constructor <;> wlog_simp <;> (try simp only [e1, e2]) <;> first | assumption | grind
  | drWaker st' =>
    clear lg0
    have hlf' := hlf st' rfl
    simp only [sWaking, or_true] at wake
    simp only [sStep, SPc.resting, State.emit, Bool.false_eq_true, if_false] at h
    (repeat' split at h) <;> simp only [Option.some.injEq, reduceCtorEq] at h
    all_goals subst h
    all_goals constructor <;> wlog_simp <;> first | assumption | grind
  | _ =>
    clear lg0 hlf
    simp only [sWaking, Bool.false_eq_true, or_false, or_true] at wake
    simp only [sDone] at half
    simp only [sStep, SPc.resting, errTail, State.emit, State.release, Bool.false_eq_true, if_false] at h
    (repeat' split at h) <;> simp only [Option.some.injEq, reduceCtorEq] at h
    all_goals subst h
    all_goals constructor <;> wlog_simp <;> flag_simp <;> first | assumption | grind

set_option maxHeartbeats 4000000 in
theorem rStep_logB {s s' : State n ε} (inv : Inv s) (lg : LogB s) (h : rStep s = some s') : LogB s' := by
  have lg0 := lg
  obtain ⟨st, data, rxw, txw, freed, spc, rpc, log⟩ := s
  obtain ⟨lclosed, hlf, rx0, rxp, rx1, pend, held, woken, wake⟩ := lg
  have rundo := inv.rundo
  have rstore := inv.rStore
  clear inv
  dsimp only at *
  cases rpc with
  | idle => simp [rStep, RPc.resting] at h; subst h; exact lg0
  | gone => simp [rStep, RPc.resting] at h; subst h; exact lg0
  | _ =>
    clear lg0
    rpc_simp
    simp only [rPw] at rxp
    simp only [rStep, RPc.resting, gotCount, dropTail, State.emit, State.release, Bool.false_eq_true, if_false] at h
    (repeat' split at h) <;> simp only [Option.some.injEq, reduceCtorEq] at h
    all_goals subst h
    all_goals constructor <;> rpc_goal <;> wlog_simp <;> flag_simp <;> first | assumption | grind

theorem sCall_logB {s : State n ε} (lg : LogB s) (h : s.spc.isIdle = true) (op : SOp n ε) : LogB (sCall s op) := by
  obtain ⟨st, data, rxw, txw, freed, spc, rpc, log⟩ := s
  cases spc <;> simp [SPc.isIdle] at h
  have lg0 := lg
  obtain ⟨lclosed, hlf, rx0, rxp, rx1, pend, held, woken, wake⟩ := lg
  dsimp only at *
  simp only [sWaking, Bool.false_eq_true, or_false] at wake
  cases op with
  | send p =>
    simp only [sCall]
    split
    · constructor <;> simp only [State.emit] <;> wlog_simp <;> first | assumption | grind
    · constructor <;> wlog_simp <;> first | assumption | grind
  | _ => constructor <;> simp only [sCall, State.emit] <;> wlog_simp <;> first | assumption | grind

theorem rCall_logB {s : State n ε} (lg : LogB s) (h : s.rpc.isIdle = true) (op : ROp) : LogB (rCall s op) := by
  obtain ⟨st, data, rxw, txw, freed, spc, rpc, log⟩ := s
  cases rpc <;> simp [RPc.isIdle] at h
  obtain ⟨lclosed, hlf, rx0, rxp, rx1, pend, held, woken, wake⟩ := lg
  cases op <;> exact ⟨lclosed, hlf, rx0, fun h => absurd rfl h, rx1, pend, held, woken, wake⟩

theorem step_logB (s : State n ε) (a : Act n ε) (s' : State n ε) (inv : Inv s) (lg : LogB s) (h : step s a = some s') :
    LogB s' := by
  cases a with
  | sCall op =>
    simp only [step] at h
    split at h <;> simp at h <;> subst h
    · exact sCall_logB lg (by assumption) op
    · exact lg
  | rCall op =>
    simp only [step] at h
    split at h <;> simp at h <;> subst h
    · exact rCall_logB lg (by assumption) op
    · exact lg
  | sStep => exact sStep_logB inv lg h
  | rStep => exact rStep_logB inv lg h

end Verif.Pulse
