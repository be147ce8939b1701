import Verif.Pulse.LogSend
/-! # The log of a pulse channel: steps of the receiver, calls -/
namespace Verif.Pulse

open Verif.Spsc

variable {n : Nat} {ε : Type}

set_option maxHeartbeats 4000000 in
theorem rStep_logA {s s' : State n ε} (inv : Inv s) (lgn : LogN s') (lg : LogA s) (h : rStep s = some s') : LogA s' := by
  have lg0 := lg
  obtain ⟨st, data, rxw, txw, freed, spc, rpc, log⟩ := s
  obtain ⟨lclosed, lvals, lone, lsent, lunsent, ldrop1, ldrop2, lok, lret, lgone, lrdrop, lopenD, lopenS, lopenW, lopenO,
    lstor, lfrees, lcnt, lhist, lterm⟩ := lg
  have lcount := lgn.count
  have lclosed' := lgn.closed
  have dOk := inv.dOk
  have hdata := inv.data
  have hsfail := inv.sfail
  have half := inv.half
  have hcl := inv.closed
  have rundo := inv.rundo
  have rplain := inv.rplain
  have first2 := inv.first2
  have hfreed := inv.freed
  clear inv lgn
  dsimp only at *
  obtain ⟨f1, f2, f3, f4, f5, f6, f7, f8, f9, f10⟩ := sFacts spc
  obtain ⟨g1, g2, g3, g4, g5, g6, g7, g8, g9⟩ := sFacts2 spc
  have hnil : data.isSome = false → data.toList = [] := by cases data <;> simp
  obtain ⟨hv1, hv2⟩ := vals_one lvals lone
  clear f5 f6 f7 f8 f9 f10 f1
  cases rpc with
  | idle => simp [rStep, RPc.resting] at h; subst h; exact lg0
  | gone => simp [rStep, RPc.resting] at h; subst h; exact lg0
  | _ =>
    clear lg0
    rpc_simp
    simp only [rStep, RPc.resting, gotCount, dropTail, State.emit, State.release, Bool.false_eq_true, if_false] at h
    (repeat' split at h) <;> simp only [Option.some.injEq, reduceCtorEq] at h
    all_goals subst h
    all_goals (try simp only [Option.toList_none, Option.toList_some] at lvals hv1 hv2)
    all_goals constructor <;> rpc_goal <;> log_simp <;> flag_simp <;> first | assumption | grind

theorem sCall_logA {s : State n ε} (inv : Inv s) (lgn : LogN (sCall s op)) (lg : LogA s) (h : s.spc.isIdle = true) :
    LogA (sCall s op) := by
  obtain ⟨st, data, rxw, txw, freed, spc, rpc, log⟩ := s
  cases spc <;> simp [SPc.isIdle] at h
  have lg0 := lg
  obtain ⟨lclosed, lvals, lone, lsent, lunsent, ldrop1, ldrop2, lok, lret, lgone, lrdrop, lopenD, lopenS, lopenW, lopenO,
    lstor, lfrees, lcnt, lhist, lterm⟩ := lg
  have dOk := inv.dOk
  have lcount := lgn.count
  dsimp only at *
  cases op with
  | send p =>
    simp only [sCall] at *
    split
    · rename_i h1
      simp only [h1, if_true, State.emit] at lcount
      clear lgn inv lg0
      spc2_simp
      constructor <;> simp only [State.emit] <;> spc2_goal <;> log_simp <;> first | assumption | grind
    · exact ⟨lclosed, lvals, lone, lsent, lunsent, ldrop1, ldrop2, lok, lret, lgone, lrdrop, lopenD, lopenS, lopenW, lopenO,
        lstor, lfrees, lcnt, lhist, lterm⟩
  | sendErr e =>
    simp only [sCall, State.emit] at lcount
    spc2_simp
    constructor <;> simp only [sCall, State.emit] <;> spc2_goal <;> log_simp <;> first | assumption | grind
  | _ =>
    exact ⟨lclosed, lvals, lone, lsent, lunsent, ldrop1, ldrop2, lok, lret, lgone, lrdrop, lopenD, lopenS, lopenW, lopenO,
        lstor, lfrees, lcnt, lhist, lterm⟩

theorem rCall_logA {s : State n ε} (lg : LogA s) (h : s.rpc.isIdle = true) (op : ROp) : LogA (rCall s op) := by
  obtain ⟨st, data, rxw, txw, freed, spc, rpc, log⟩ := s
  cases rpc <;> simp [RPc.isIdle] at h
  obtain ⟨lclosed, lvals, lone, lsent, lunsent, ldrop1, ldrop2, lok, lret, lgone, lrdrop, lopenD, lopenS, lopenW, lopenO,
    lstor, lfrees, lcnt, lhist, lterm⟩ := lg
  cases op <;>
    exact ⟨lclosed, lvals, lone, lsent, lunsent, ldrop1, ldrop2, lok, lret, lgone, lrdrop, lopenD, lopenS, lopenW, lopenO,
        lstor, lfrees, lcnt, lhist, lterm⟩

theorem step_logA (s : State n ε) (a : Act n ε) (s' : State n ε) (inv : Inv s) (lg : LogN s ∧ LogA s)
    (h : step s a = some s') : LogN s' ∧ LogA s' := by
  have lgn := step_logN s a s' inv lg.1 h
  refine ⟨lgn, ?_⟩
  replace lg := lg.2
  cases a with
  | sCall op =>
    simp only [step] at h
    split at h <;> simp at h <;> subst h
    · exact sCall_logA inv lgn lg (by assumption)
    · exact lg
  | rCall op =>
    simp only [step] at h
    split at h <;> simp at h <;> subst h
    · exact rCall_logA lg (by assumption) op
    · exact lg
  | sStep => exact sStep_logA inv lgn lg h
  | rStep => exact rStep_logA inv lgn lg h

end Verif.Pulse
