import Verif.Pulse.LogErr
/-! # The log of a pulse channel: steps of the sender -/
namespace Verif.Pulse

open Verif.Spsc

variable {n : Nat} {ε : Type}

set_option maxHeartbeats 4000000 in
theorem sStep_logA {s s' : State n ε} (inv : Inv s) (lgn : LogN s') (lg : LogA s) (h : sStep s = some s') : LogA s' := by
  have lg0 := lg
  obtain ⟨st, data, rxw, txw, freed, spc, rpc, log⟩ := s
  obtain ⟨lclosed, lvals, lone, lsent, lunsent, ldrop1, ldrop2, lok, lret, lgone, lrdrop, lopenD, lopenS, lopenW, lopenO,
    lstor, lfrees, -, lhist, lterm⟩ := lg
  have lcount := lgn.count
  have lclosed' := lgn.closed
  have dOk := inv.dOk
  have hdata := inv.data
  have hsfail := inv.sfail
  have sbad := inv.sbad
  have half := inv.half
  have hcl := inv.closed
  have sundo := inv.sundo
  have harg := inv.arg
  have first1 := inv.first1
  obtain ⟨hv1, hv2⟩ := vals_one lvals lone
  clear inv lgn
  dsimp only at *
  cases spc with
  | idle => simp [sStep, SPc.resting] at h; subst h; exact lg0
  | gone => simp [sStep, SPc.resting] at h; subst h; exact lg0
  | sendRmw p =>
    clear lg0
    spc2_simp
    have e1 := has_addWord st p harg (i := 2) (by omega)
    have e2 := has_addWord st p harg (i := 3) (by omega)
    change has _ (ERR n) = has _ (ERR n) at e1
    change has _ (CLOSED n) = has _ (CLOSED n) at e2
    simp only [sStep, SPc.resting, sendTail, State.emit, Bool.false_eq_true, if_false] at h
    (repeat' split at h) <;> simp only [Option.some.injEq, reduceCtorEq] at h
    all_goals subst h
    all_goals constructor <;> spc2_goal <;> log_simp <;> (try simp only [e1, e2]) <;> first | assumption | grind
  | satRmw p =>
    clear lg0
    spc2_simp
    have e1 := has_satWord st p (i := 2) (by omega)
    have e2 := has_satWord st p (i := 3) (by omega)
    change has _ (ERR n) = has _ (ERR n) at e1
    change has _ (CLOSED n) = has _ (CLOSED n) at e2
    simp only [sStep, SPc.resting, satTail, State.emit, Bool.false_eq_true, if_false] at h
    (repeat' split at h) <;> simp only [Option.some.injEq, reduceCtorEq] at h
    all_goals subst h
    all_goals constructor <;> spc2_goal <;> log_simp <;> (try simp only [e1, e2]) <;> first | assumption | grind
  | _ =>
    clear lg0
    spc2_simp
    simp only [sStep, SPc.resting, errTail, State.emit, State.release, Bool.false_eq_true, if_false] at h
    (repeat' split at h) <;> simp only [Option.some.injEq, reduceCtorEq] at h
    all_goals subst h
    all_goals (try simp only [Option.toList_none, Option.toList_some] at lvals hv1 hv2)
    all_goals constructor <;> spc2_goal <;> log_simp <;> flag_simp <;> first | assumption | grind

end Verif.Pulse
