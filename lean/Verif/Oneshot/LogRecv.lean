import Verif.Oneshot.LogLemmas
/-! # The log of a oneshot channel: steps of the receiver, calls -/
namespace Verif.Oneshot

open Verif.Spsc

variable {α : Type}

set_option maxHeartbeats 4000000 in
theorem rStep_logA {s s' : State α} (inv : Inv s) (lg : LogA s) (h : rStep s = some s') : LogA s' := by
  have lg0 := lg
  obtain ⟨st, data, rxw, txw, freed, spc, rpc, log⟩ := s
  unfold Inv at inv
  unfold LogA at lg
  obtain ⟨half, closed, rtx, sundo, sfail, sbad, rundo, rplain, first1, first2, first3, first3', first4, first5, hfreed,
    rStore, hsWk, hrxw, sStore, htxw, hdata, dOk⟩ := inv
  obtain ⟨lclosed, lvals, lone, lsent, lunsent, ldrop1, ldrop2, lok, lret, lgone, lrdrop, lopenD, lopenS, lopenW, lopenO,
    lstor, lfrees, lhist⟩ := lg
  clear first1 first3 first3' first4 first5 rStore hrxw htxw
  dsimp only at *
  obtain ⟨f1, f2, f3, f4, f5, f6, f7, f8, f9, f10, f11, f12⟩ := sFacts spc
  obtain ⟨g1, g2, g3, g4, g5, g6, g7, g8, g9⟩ := sFacts2 spc
  have hnil : data.isSome = false → data.toList = [] := by cases data <;> simp
  obtain ⟨hv1, hv2⟩ := vals_one lvals lone
  clear f5 f6 f7 f8 f9 f10 f12 f1
  cases rpc with
  | idle => simp [rStep, RPc.resting] at h; subst h; exact lg0
  | gone => simp [rStep, RPc.resting] at h; subst h; exact lg0
  | clRmw =>
    clear lg0
    cases freed <;> cases h1 : has st TX <;> cases h2 : has st CLOSED <;>
      simp [rStep, RPc.resting, State.emit, h1, h2] at h
    all_goals subst h
    all_goals constructor <;> rpc_simp <;> flag_simp <;> log_simp <;> grind
  | clWaker st' =>
    clear lg0
    cases freed <;> cases txw <;> cases h2 : has st' HALF <;>
      simp [rStep, RPc.resting, State.emit, h2] at h
    all_goals subst h
    all_goals constructor <;> rpc_simp <;> log_simp <;> grind
  | trRmw =>
    clear lg0
    cases freed <;> cases h1 : has st DATA <;> cases h2 : (has st HALF || has st CLOSED) <;>
      simp [rStep, RPc.resting, State.emit, h1, h2] at h
    all_goals subst h
    all_goals constructor <;> rpc_simp <;> flag_simp <;> log_simp <;> grind
  | read =>
    clear lg0
    cases freed <;> cases data <;> simp [rStep, RPc.resting, State.emit] at h
    subst h
    constructor <;> rpc_simp <;> log_simp <;> grind
  | poRmw w =>
    clear lg0
    cases freed <;> cases h1 : has st DATA <;> cases h2 : (has st HALF || has st CLOSED) <;> cases h3 : has st RX <;>
      simp [rStep, RPc.resting, State.emit, h1, h2, h3] at h
    all_goals subst h
    all_goals constructor <;> rpc_simp <;> flag_simp <;> log_simp <;> grind
  | poWrite w =>
    clear lg0
    cases freed <;> cases rxw <;> simp [rStep, RPc.resting, State.emit] at h
    subst h
    constructor <;> rpc_simp <;> log_simp <;> grind
  | poRmw2 w =>
    clear lg0
    cases freed <;> cases h2 : has st HALF <;> simp [rStep, RPc.resting, State.emit, h2] at h
    all_goals subst h
    all_goals constructor <;> rpc_simp <;> flag_simp <;> log_simp <;> grind
  | poUndo st' =>
    clear lg0
    cases freed <;> cases rxw <;> cases h2 : has st' DATA <;> simp [rStep, RPc.resting, State.emit, h2] at h
    all_goals subst h
    all_goals constructor <;> rpc_simp <;> log_simp <;> grind
  | itLoad =>
    clear lg0
    cases freed <;> cases h1 : has st DATA <;> cases h2 : (has st HALF || has st CLOSED) <;>
      simp [rStep, RPc.resting, State.emit, h1, h2] at h
    all_goals subst h
    all_goals constructor <;> rpc_simp <;> log_simp <;> grind
  | drRmw =>
    clear lg0
    cases freed <;> cases h1 : has st DATA <;> cases h2 : has st HALF <;> cases h3 : has st CLOSED <;>
      cases h4 : has st TX <;> simp [rStep, RPc.resting, dropTail, State.emit, h1, h2, h3, h4] at h
    all_goals subst h
    all_goals constructor <;> rpc_simp <;> flag_simp <;> log_simp <;> grind
  | drData st' =>
    clear lg0
    cases freed <;> cases data <;> cases h2 : has st' HALF <;> cases h3 : has st' CLOSED <;>
      cases h4 : has st' TX <;> simp [rStep, RPc.resting, dropTail, State.emit, h2, h3, h4] at h
    all_goals subst h
    all_goals constructor <;> rpc_simp <;> log_simp <;> grind
  | drWaker st' =>
    clear lg0
    cases freed <;> cases txw <;> cases h2 : has st' HALF <;>
      simp [rStep, RPc.resting, State.emit, h2] at h
    all_goals subst h
    all_goals constructor <;> rpc_simp <;> log_simp <;> grind
  | drFree =>
    clear lg0
    cases freed <;> simp [rStep, RPc.resting, State.emit, State.release] at h
    subst h
    constructor <;> rpc_simp <;> log_simp <;> grind

theorem sCall_logA {s : State α} (inv : Inv s) (lg : LogA s) (h : s.spc.isIdle = true) (op : SOp α) : LogA (sCall s op) := by
  obtain ⟨st, data, rxw, txw, freed, spc, rpc, log⟩ := s
  cases spc <;> simp [SPc.isIdle] at h
  unfold LogA at lg
  obtain ⟨lclosed, lvals, lone, lsent, lunsent, ldrop1, ldrop2, lok, lret, lgone, lrdrop, lopenD, lopenS, lopenW, lopenO,
    lstor, lfrees, lhist⟩ := lg
  have dOk := inv.dOk
  cases op <;>
  · constructor <;> simp only [sCall, State.emit] at * <;> spc2_simp <;> log_simp <;> grind

theorem rCall_logA {s : State α} (lg : LogA s) (h : s.rpc.isIdle = true) (op : ROp) : LogA (rCall s op) := by
  obtain ⟨st, data, rxw, txw, freed, spc, rpc, log⟩ := s
  cases rpc <;> simp [RPc.isIdle] at h
  unfold LogA at lg
  obtain ⟨lclosed, lvals, lone, lsent, lunsent, ldrop1, ldrop2, lok, lret, lgone, lrdrop, lopenD, lopenS, lopenW, lopenO,
    lstor, lfrees, lhist⟩ := lg
  cases op <;>
  · constructor <;> simp only [rCall, State.emit] at * <;> rpc_simp <;> grind

theorem step_logA (s : State α) (a : Act α) (s' : State α) (inv : Inv s) (lg : LogA s) (h : step s a = some s') :
    LogA s' := by
  cases a with
  | sCall op =>
    simp only [step] at h
    split at h <;> simp at h <;> subst h
    · exact sCall_logA inv lg (by assumption) op
    · exact lg
  | rCall op =>
    simp only [step] at h
    split at h <;> simp at h <;> subst h
    · exact rCall_logA lg (by assumption) op
    · exact lg
  | sStep => exact sStep_logA inv lg h
  | rStep => exact rStep_logA inv lg h

end Verif.Oneshot
