import Verif.Pulse.Lemmas
/-! # Steps of the sender of the pulse channel keep the invariant -/
namespace Verif.Pulse

open Verif.Spsc

variable {n : Nat} {ε : Type}

set_option maxHeartbeats 4000000 in
theorem sStep_inv {s : State n ε} (inv : Inv s) (ap1 : s.spc.freeing = true → s.rpc.leaving = false) :
    ∃ s', sStep s = some s' ∧ Inv s' := by
  have inv0 := inv
  obtain ⟨st, data, rxw, txw, freed, spc, rpc, log⟩ := s
  unfold Inv at inv
  obtain ⟨half, closed, rtx, sundo, sfail, sbad, rundo, rplain, first1, first2, first3, first3', first4, first5, hfreed,
    rStore, hsWk, hrxw, sStore, htxw, hdata, dOk, sref, arg⟩ := inv
  obtain ⟨f1, f2, f3, f4, f5, f6, f7, f8, f9, f10, f11⟩ := rFacts rpc
  dsimp only at *
  cases spc with
  | idle => exact ⟨_, rfl, inv0⟩
  | gone => exact ⟨_, rfl, inv0⟩
  | sendRmw p =>
    have : freed = false := by simp_all [sGone]
    subst this
    obtain ⟨i1, i2⟩ := InvV.sent (st' := addWord st (p <<< 5)) p (.inl rfl) inv0 (has_addWord st p arg (by omega))
      (has_addWord st p arg (by omega)) (has_addWord st p arg (by omega)) (has_addWord st p arg (by omega))
      (has_addWord st p arg (by omega))
    refine ⟨_, rfl, ?_⟩
    simp only [sendTail]
    (repeat' split) <;> first | exact i1 | exact i2 (by assumption)
  | satRmw p =>
    have : freed = false := by simp_all [sGone]
    subst this
    obtain ⟨i1, i2⟩ := InvV.sent (st' := satWord st (satArg p)) p (.inr rfl) inv0 (has_satWord st p (by omega))
      (has_satWord st p (by omega)) (has_satWord st p (by omega)) (has_satWord st p (by omega))
      (has_satWord st p (by omega))
    refine ⟨_, rfl, ?_⟩
    simp only [satTail]
    (repeat' split) <;> first | exact i1 | exact i2 (by assumption)
  | wakeRef =>
    clear inv0
    spc_simp
    have : freed = false := by simpa using hfreed
    subst this
    cases rxw with
    | none => exfalso; grind
    | some w =>
      refine ⟨_, by simp [sStep, SPc.resting, State.emit]; rfl, ?_⟩
      constructor <;> spc_goal <;> first | assumption | grind
  | errWrite v =>
    clear inv0
    spc_simp
    have : freed = false := by simpa using hfreed
    have : data = none := by cases data <;> simp_all
    subst this; subst freed
    refine ⟨_, rfl, ?_⟩
    constructor <;> spc_goal <;> first | assumption | grind
  | errRmw =>
    clear inv0
    spc_simp
    have : freed = false := by simpa using hfreed
    subst this
    cases h1 : has st (RX n) <;> cases h2 : has st (CLOSED n)
    all_goals refine ⟨_, by simp [sStep, SPc.resting, h1, h2, errTail, State.emit]; rfl, ?_⟩
    all_goals constructor <;> spc_goal <;> flag_simp <;> first | assumption | grind
  | errWaker st' =>
    clear inv0
    spc_simp
    have : freed = false := by simpa using hfreed
    subst this
    cases rxw with
    | none => exfalso; grind
    | some w =>
      cases h2 : has st' (CLOSED n)
      all_goals refine ⟨_, by simp [sStep, SPc.resting, h2, errTail, State.emit]; rfl, ?_⟩
      all_goals constructor <;> spc_goal <;> first | assumption | grind
  | errBack st' =>
    clear inv0
    spc_simp
    have : freed = false := by simpa using hfreed
    subst this
    cases data with
    | none => exfalso; grind
    | some v =>
      cases h2 : has st' (HALF n)
      all_goals refine ⟨_, by simp [sStep, SPc.resting, h2, State.emit]; rfl, ?_⟩
      all_goals constructor <;> spc_goal <;> first | assumption | grind
  | errFree v =>
    clear inv0
    spc_simp
    have : freed = false := by simpa using hfreed
    subst this
    refine ⟨_, by simp [sStep, SPc.resting, State.release, State.emit]; rfl, ?_⟩
    constructor <;> spc_goal <;> first | assumption | grind
  | pcLoad w =>
    clear inv0
    spc_simp
    have : freed = false := by simpa using hfreed
    subst this
    cases h1 : has st (TX n) <;> cases h2 : has st (CLOSED n)
    all_goals refine ⟨_, by simp [sStep, SPc.resting, h1, h2, State.emit]; rfl, ?_⟩
    all_goals constructor <;> spc_goal <;> first | assumption | grind
  | pcWrite w =>
    clear inv0
    spc_simp
    have : freed = false := by simpa using hfreed
    have : txw = none := by cases txw <;> grind
    subst this; subst freed
    refine ⟨_, by simp [sStep, SPc.resting, State.emit]; rfl, ?_⟩
    constructor <;> spc_goal <;> first | assumption | grind
  | pcRmw w =>
    clear inv0
    spc_simp
    have : freed = false := by simpa using hfreed
    subst this
    cases h2 : has st (CLOSED n)
    all_goals refine ⟨_, by simp [sStep, SPc.resting, h2, State.emit]; rfl, ?_⟩
    all_goals constructor <;> spc_goal <;> flag_simp <;> first | assumption | grind
  | pcUndo =>
    clear inv0
    spc_simp
    have : freed = false := by simpa using hfreed
    subst this
    cases txw with
    | none => exfalso; grind
    | some w =>
      refine ⟨_, by simp [sStep, SPc.resting, State.emit]; rfl, ?_⟩
      constructor <;> spc_goal <;> first | assumption | grind
  | icLoad =>
    clear inv0
    spc_simp
    have : freed = false := by simpa using hfreed
    subst this
    refine ⟨_, by simp [sStep, SPc.resting, State.emit]; rfl, ?_⟩
    constructor <;> spc_goal <;> first | assumption | grind
  | drRmw =>
    clear inv0
    spc_simp
    have : freed = false := by simpa using hfreed
    subst this
    cases h1 : has st (RX n) <;> cases h2 : has st (HALF n)
    all_goals refine ⟨_, by simp [sStep, SPc.resting, h1, h2, State.emit]; rfl, ?_⟩
    all_goals constructor <;> spc_goal <;> flag_simp <;> first | assumption | grind
  | drWaker st' =>
    clear inv0
    spc_simp
    have : freed = false := by simpa using hfreed
    subst this
    cases rxw with
    | none => exfalso; grind
    | some w =>
      cases h2 : has st' (HALF n)
      all_goals refine ⟨_, by simp [sStep, SPc.resting, h2, State.emit]; rfl, ?_⟩
      all_goals constructor <;> spc_goal <;> first | assumption | grind
  | drFree =>
    clear inv0
    spc_simp
    have : freed = false := by simpa using hfreed
    subst this
    refine ⟨_, by simp [sStep, SPc.resting, State.release, State.emit]; rfl, ?_⟩
    constructor <;> spc_goal <;> first | assumption | grind

end Verif.Pulse
