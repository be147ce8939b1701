import Verif.Ring.Run
/-! # After the end of a ring channel was reported -/
namespace Verif.Ring

open Verif.Spsc

variable {k cap : Nat} {τ ε : Type}

/-- The end was reported. -/
def endSeen (log : List (Event τ ε)) : Prop := Event.ended ∈ log ∨ Event.terminated true ∈ log

/-- Nothing can show up any more. -/
structure LogF (st : Word k) (spc : SPc k τ ε) (rpc : RPc k) (log : List (Event τ ε)) : Prop where
  fin : endSeen log → has st (ERR k) = false ∧ rRead rpc = false ∧ len st = 0 ∧
    (has st (CLOSED k) = true ∨ sDone spc = true)
  hist : Hist OkFin log

/-- Nothing can show up any more. -/
def LogE (s : State k τ ε) : Prop := LogF s.st s.spc s.rpc s.log

theorem init_logE : LogE (init k τ ε) := by
  constructor <;> simp [init, endSeen, Hist]

/-- Evaluate the readers of the log on known events. -/
macro "flog_simp" : tactic => `(tactic| try simp only [endSeen, Hist, OkFin, List.mem_cons, reduceCtorEq, false_or, true_or,
  or_true, forall_const, true_and, Event.terminated.injEq, Bool.false_eq_true, Bool.true_eq_false])

set_option maxHeartbeats 4000000 in
theorem sStep_logE {s s' : State k τ ε} (h1 : 1 < cap) (hcap : cap < 2 ^ k) (il : InvL cap s) (lg : LogE s)
    (h : sStep cap s = some s') : LogE s' := by
  have lg0 := lg
  obtain ⟨st, buf, err, rxw, txw, freed, spc, rpc, log⟩ := s
  obtain ⟨fin, hist⟩ := lg
  have hc := il.1.cur
  clear il
  dsimp only at *
  simp only [endSeen] at fin
  cases spc with
  | idle => simp [sStep, SPc.resting] at h; subst h; exact lg0
  | gone => simp [sStep, SPc.resting] at h; subst h; exact lg0
  | owClaim v =>
    clear lg0
    simp only [sDone] at fin
    have e1 := len_claimIfFull (st := st) (cap := cap) (by omega) hc
    simp only [sStep, SPc.resting, owMid, State.emit, Bool.false_eq_true, if_false] at h
    (repeat' split at h) <;> simp only [Option.some.injEq, reduceCtorEq] at h
    all_goals subst h
    all_goals constructor <;> (try simp only [sDone, e1]) <;> flog_simp <;> flag_simp <;> first | assumption | grind
  | wrRmw v i =>
    clear lg0
    simp only [sDone] at fin
    have e1 : has st (CLOSED k) = true → addLength st = st := by intro h; simp [addLength, h]
    simp only [sStep, SPc.resting, State.emit, Bool.false_eq_true, if_false] at h
    (repeat' split at h) <;> simp only [Option.some.injEq, reduceCtorEq] at h
    all_goals subst h
    all_goals constructor <;> (try simp only [sDone]) <;> flog_simp <;> flag_simp <;> first | assumption | grind
  | _ =>
    clear lg0
    simp only [sDone] at fin
    simp only [sStep, SPc.resting, owMid, errTail, closedResult, State.emit, State.release, Bool.false_eq_true, if_false] at h
    (repeat' split at h) <;> simp only [Option.some.injEq, reduceCtorEq] at h
    all_goals subst h
    all_goals constructor <;> (try simp only [sDone]) <;> flog_simp <;> flag_simp <;> lc_simp <;> first | assumption | grind

set_option maxHeartbeats 4000000 in
theorem rStep_logE {s s' : State k τ ε} (h1 : 1 < cap) (hcap : cap < 2 ^ k) (inv : Inv cap s) (il : InvL cap s) (lg : LogE s)
    (h : rStep cap s = some s') : LogE s' := by
  have lg0 := lg
  obtain ⟨st, buf, err, rxw, txw, freed, spc, rpc, log⟩ := s
  obtain ⟨fin, hist⟩ := lg
  have rundo := inv.rundo
  have half := inv.half
  have dok := inv.dOk
  have zero := il.1.zero
  have e1 := len_take (st := st) (cap := cap) (by omega) il.1.cur
  have e2 := len_clearLen st
  clear inv il
  dsimp only at *
  simp only [endSeen] at fin
  cases rpc with
  | idle => simp [rStep, RPc.resting] at h; subst h; exact lg0
  | gone => simp [rStep, RPc.resting] at h; subst h; exact lg0
  | tvRmw i wake er =>
    clear lg0
    obtain ⟨e3, -, e4⟩ := lc_tvRmw st wake er
    simp only [rRead] at fin
    simp only [rStep, RPc.resting, Bool.false_eq_true, ↓reduceIte] at h
    cases wake <;> cases er <;> simp only [Bool.false_eq_true, ↓reduceIte] at h e3 e4 <;> (repeat' split at h) <;>
      simp only [Option.some.injEq, reduceCtorEq] at h
    all_goals subst h
    all_goals constructor <;> flog_simp <;> (try simp only [e3, e4, rRead]) <;> flag_simp <;> first | assumption | grind
  | _ =>
    clear lg0
    simp only [rZero] at zero
    simp only [rDone, rRead, rUndo, Bool.false_eq_true, false_implies, true_implies, or_false] at fin rundo half dok
    simp only [rStep, RPc.resting, takeValue, dropLoop, dropTail, State.emit, State.release, Bool.false_eq_true, if_false] at h
    (repeat' split at h) <;> simp only [Option.some.injEq, reduceCtorEq] at h
    all_goals subst h
    all_goals constructor <;> rpc_goal <;> flog_simp <;> flag_simp <;> lc_simp <;> (try simp only [e1, e2]) <;>
      first | assumption | grind

theorem step_logE (h1 : 1 < cap) (hcap : cap < 2 ^ k) (s : State k τ ε) (a : Act τ ε) (s' : State k τ ε) (inv : Inv cap s)
    (il : InvL cap s) (lg : LogE s) (h : step cap s a = some s') : LogE s' := by
  cases a with
  | sCall op =>
    obtain ⟨st, buf, err, rxw, txw, freed, spc, rpc, log⟩ := s
    obtain ⟨fin, hist⟩ := lg
    simp only [step] at h
    split at h <;> simp only [Option.some.injEq] at h <;> subst h
    · rename_i hi
      cases spc <;> simp [SPc.isIdle] at hi
      dsimp only [endSeen, sDone] at *
      cases op <;> simp only [sCall, State.emit] <;> constructor <;> (try simp only [sDone]) <;> flog_simp <;> first | assumption | grind
    · exact ⟨fin, hist⟩
  | rCall op =>
    obtain ⟨st, buf, err, rxw, txw, freed, spc, rpc, log⟩ := s
    obtain ⟨fin, hist⟩ := lg
    simp only [step] at h
    split at h <;> simp only [Option.some.injEq] at h <;> subst h
    · rename_i hi
      cases rpc <;> simp [RPc.isIdle] at hi
      cases op <;> exact ⟨fin, hist⟩
    · exact ⟨fin, hist⟩
  | sStep => exact sStep_logE h1 hcap il lg h
  | rStep => exact rStep_logE h1 hcap inv il lg h

end Verif.Ring
