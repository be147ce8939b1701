import Verif.Pulse.Run
/-! # After the end of a pulse channel was reported -/
namespace Verif.Pulse

open Verif.Spsc

variable {n : Nat} {ε : Type}

/-- The end was reported. -/
def endSeen (log : List (Event ε)) : Prop := Event.ended ∈ log ∨ Event.terminated true ∈ log

/-- No error can show up any more. -/
structure LogF (st : Word n) (spc : SPc n ε) (rpc : RPc n) (log : List (Event ε)) : Prop where
  fin : endSeen log → has st (ERR n) = false ∧ rRead rpc = false ∧ (has st (CLOSED n) = true ∨ sDone spc = true)
  hist : Hist OkFin log

/-- No error can show up any more. -/
def LogE (s : State n ε) : Prop := LogF s.st s.spc s.rpc s.log

theorem init_logE (n : Nat) (ε : Type) : LogE (init n ε) := by
  constructor <;> simp [init, endSeen, Hist]

/-- Evaluate the readers of the log on known events. -/
macro "flog_simp" : tactic => `(tactic| try simp only [endSeen, Hist, OkFin, List.mem_cons, reduceCtorEq, false_or, true_or,
  or_true, forall_const, true_and, Event.terminated.injEq, Bool.false_eq_true, Bool.true_eq_false])

set_option maxHeartbeats 4000000 in
theorem sStep_logE {s s' : State n ε} (inv : Inv s) (lg : LogE s) (h : sStep s = some s') : LogE s' := by
  have lg0 := lg
  obtain ⟨st, data, rxw, txw, freed, spc, rpc, log⟩ := s
  obtain ⟨fin, hist⟩ := lg
  have harg := inv.arg
  clear inv
  dsimp only at *
  simp only [endSeen] at fin
  cases spc with
  | idle => simp [sStep, SPc.resting] at h; subst h; exact lg0
  | gone => simp [sStep, SPc.resting] at h; subst h; exact lg0
  | sendRmw p =>
    clear lg0
    simp only [sDone] at fin
    have e1 := has_addWord st p harg (i := 2) (by omega)
    have e2 := has_addWord st p harg (i := 3) (by omega)
    change has _ (ERR n) = has _ (ERR n) at e1
    change has _ (CLOSED n) = has _ (CLOSED n) at e2
    simp only [sStep, SPc.resting, sendTail, State.emit, Bool.false_eq_true, if_false] at h
    (repeat' split at h) <;> simp only [Option.some.injEq, reduceCtorEq] at h
    all_goals subst h
    all_goals constructor <;> flog_simp <;> (try simp only [e1, e2, sDone]) <;> first | assumption | grind
  | satRmw p =>
    clear lg0
    simp only [sDone] at fin
    have e1 := has_satWord st p (i := 2) (by omega)
    have e2 := has_satWord st p (i := 3) (by omega)
    change has _ (ERR n) = has _ (ERR n) at e1
    change has _ (CLOSED n) = has _ (CLOSED n) at e2
    simp only [sStep, SPc.resting, satTail, State.emit, Bool.false_eq_true, if_false] at h
    (repeat' split at h) <;> simp only [Option.some.injEq, reduceCtorEq] at h
    all_goals subst h
    all_goals constructor <;> flog_simp <;> (try simp only [e1, e2, sDone]) <;> first | assumption | grind
  | _ =>
    clear lg0 harg
    simp only [sDone] at fin
    simp only [sStep, SPc.resting, errTail, State.emit, State.release, Bool.false_eq_true, if_false] at h
    (repeat' split at h) <;> simp only [Option.some.injEq, reduceCtorEq] at h
    all_goals subst h
    all_goals constructor <;> (try simp only [sDone]) <;> flog_simp <;> flag_simp <;> first | assumption | grind

set_option maxHeartbeats 4000000 in
theorem rStep_logE {s s' : State n ε} (inv : Inv s) (lg : LogE s) (h : rStep s = some s') : LogE s' := by
  have lg0 := lg
  obtain ⟨st, data, rxw, txw, freed, spc, rpc, log⟩ := s
  obtain ⟨fin, hist⟩ := lg
  have rundo := inv.rundo
  have half := inv.half
  have dok := inv.dOk
  clear inv
  dsimp only at *
  simp only [endSeen] at fin
  cases rpc with
  | idle => simp [rStep, RPc.resting] at h; subst h; exact lg0
  | gone => simp [rStep, RPc.resting] at h; subst h; exact lg0
  | _ =>
    clear lg0
    rpc_simp
    simp only [rStep, RPc.resting, gotCount, dropTail, State.emit, State.release, Bool.false_eq_true, if_false] at h
    (repeat' split at h) <;> simp only [Option.some.injEq, reduceCtorEq] at h
    all_goals subst h
    all_goals constructor <;> rpc_goal <;> flog_simp <;> flag_simp <;> first | assumption | grind

theorem step_logE (s : State n ε) (a : Act n ε) (s' : State n ε) (inv : Inv s) (lg : LogE s) (h : step s a = some s') :
    LogE s' := by
  cases a with
  | sCall op =>
    obtain ⟨st, data, rxw, txw, freed, spc, rpc, log⟩ := s
    obtain ⟨fin, hist⟩ := lg
    simp only [step] at h
    split at h <;> simp only [Option.some.injEq] at h <;> subst h
    · rename_i hi
      cases spc <;> simp [SPc.isIdle] at hi
      dsimp only [endSeen, sDone] at *
      cases op with
      | send p =>
        simp only [sCall]
        split
        · constructor <;> simp only [State.emit] <;> flog_simp <;> assumption
        · exact ⟨fin, hist⟩
      | sendErr e => constructor <;> simp only [sCall, State.emit] <;> flog_simp <;> assumption
      | _ => exact ⟨fin, hist⟩
    · exact ⟨fin, hist⟩
  | rCall op =>
    obtain ⟨st, data, rxw, txw, freed, spc, rpc, log⟩ := s
    obtain ⟨fin, hist⟩ := lg
    simp only [step] at h
    split at h <;> simp only [Option.some.injEq] at h <;> subst h
    · rename_i hi
      cases rpc <;> simp [RPc.isIdle] at hi
      cases op <;> exact ⟨fin, hist⟩
    · exact ⟨fin, hist⟩
  | sStep => exact sStep_logE inv lg h
  | rStep => exact rStep_logE inv lg h

end Verif.Pulse
