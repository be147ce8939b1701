import Verif.Pulse.Lemmas
/-! # Steps of the receiver of the pulse channel keep the invariant -/
namespace Verif.Pulse

open Verif.Spsc

variable {n : Nat} {ε : Type}

set_option maxHeartbeats 4000000 in
/-- The state update of `try_next` and `poll_next`. -/
theorem InvV.took {st : Word n} {d r t f : Bool} {spc : SPc n ε} {rpc : RPc n}
    (hs : rpc = .tnRmw ∨ ∃ w, rpc = .pnRmw w) (inv : InvV st d r t f spc rpc) :
    f = false ∧
    (has st (ERR n) = false → InvV (takeWord st) d r t f spc .idle) ∧
    (has st (ERR n) = true → InvV (takeWord st) d r t f spc .reErr ∧ InvV (takeWord st) d r t f spc .rdErr) ∧
    (has st (ERR n) = false → has st (HALF n) = false → has st (RX n) = false →
      ∀ w, InvV (takeWord st) d r t f spc (.pnWrite w)) := by
  replace inv : InvV st d r t f spc .tnRmw := by
    rcases hs with rfl | ⟨w, rfl⟩
    · exact inv
    · exact ⟨inv.1, inv.2, inv.3, inv.4, inv.5, inv.6, inv.7, inv.8, inv.9, inv.10, inv.11, inv.12, inv.13, inv.14,
        inv.15, inv.16, inv.17, inv.18, inv.19, inv.20, inv.21, inv.22, inv.23, inv.24⟩
  clear hs
  obtain ⟨half, closed, rtx, sundo, sfail, sbad, rundo, rplain, first1, first2, first3, first3', first4, first5, hfreed,
    rStore, hsWk, hrxw, sStore, htxw, hdata, dOk, sref, arg⟩ := inv
  obtain ⟨f1, f2, f3, f4, f5, f6, f7, f8, f9, f10⟩ := sFacts spc
  rpc_simp
  refine ⟨by simp_all, fun h => ?_, fun h => ⟨?_, ?_⟩, fun h h1 h2 w => ?_⟩
  all_goals constructor <;> rpc_goal <;> flag_simp <;> first | assumption | grind

/-- The second state update of `poll_next`. -/
theorem InvV.took2 {st : Word n} {d r t f : Bool} {spc : SPc n ε} {w : Waker}
    (inv : InvV st d r t f spc (.pnRmw2 w)) :
    f = false ∧
    (has st (HALF n) = true → InvV (takeWord st ||| RX n) d r t f spc (.pnUndo st)) ∧
    (has st (HALF n) = false → has st (ERR n) = false ∧ InvV (takeWord st ||| RX n) d r t f spc .idle) := by
  obtain ⟨half, closed, rtx, sundo, sfail, sbad, rundo, rplain, first1, first2, first3, first3', first4, first5, hfreed,
    rStore, hsWk, hrxw, sStore, htxw, hdata, dOk, sref, arg⟩ := inv
  obtain ⟨f1, f2, f3, f4, f5, f6, f7, f8, f9, f10⟩ := sFacts spc
  rpc_simp
  refine ⟨by simp_all, fun h => ?_, fun h => ⟨by grind, ?_⟩⟩
  all_goals constructor <;> rpc_goal <;> flag_simp <;> first | assumption | grind

set_option maxHeartbeats 4000000 in
theorem rStep_inv {s : State n ε} (inv : Inv s) (ap1 : s.rpc.freeing = true → s.spc.leaving = false) :
    ∃ s', rStep s = some s' ∧ Inv s' := by
  have inv0 := inv
  obtain ⟨st, data, rxw, txw, freed, spc, rpc, log⟩ := s
  unfold Inv at inv
  obtain ⟨half, closed, rtx, sundo, sfail, sbad, rundo, rplain, first1, first2, first3, first3', first4, first5, hfreed,
    rStore, hsWk, hrxw, sStore, htxw, hdata, dOk, sref, arg⟩ := inv
  obtain ⟨f1, f2, f3, f4, f5, f6, f7, f8, f9, f10, f11, f12⟩ := sFacts spc
  dsimp only at *
  cases rpc with
  | idle => exact ⟨_, rfl, inv0⟩
  | gone => exact ⟨_, rfl, inv0⟩
  | clRmw =>
    clear inv0
    rpc_simp
    have : freed = false := by simpa using hfreed
    subst this
    cases h1 : has st (TX n) <;> cases h2 : has st (CLOSED n)
    all_goals refine ⟨_, by simp [rStep, RPc.resting, h1, h2, State.emit]; rfl, ?_⟩
    all_goals constructor <;> rpc_goal <;> flag_simp <;> first | assumption | grind
  | clWaker st' =>
    clear inv0
    rpc_simp
    have : freed = false := by simpa using hfreed
    subst this
    cases txw with
    | none => exfalso; grind
    | some w =>
      cases h2 : has st' (HALF n)
      all_goals refine ⟨_, by simp [rStep, RPc.resting, h2, State.emit]; rfl, ?_⟩
      all_goals constructor <;> rpc_goal <;> first | assumption | grind
  | tnRmw =>
    clear half closed rtx sundo sfail sbad rundo rplain first1 first2 first3 first3' first4 first5 hfreed
      rStore hsWk hrxw sStore htxw hdata dOk sref arg f1 f2 f3 f4 f5 f6 f7 f8 f9 f10 ap1
    obtain ⟨rfl, i1, i2, i3⟩ := InvV.took (.inl rfl) inv0
    simp only [rStep, RPc.resting, gotCount, Bool.false_eq_true, if_false]
    (repeat' split) <;> refine ⟨_, rfl, ?_⟩ <;> first | exact i1 (by grind) | exact (i2 (by assumption)).1 | exact (i2 (by assumption)).2
  | reErr =>
    clear inv0
    rpc_simp
    have : freed = false := by simpa using hfreed
    subst this
    refine ⟨_, by simp [rStep, RPc.resting, State.emit]; rfl, ?_⟩
    constructor <;> rpc_goal <;> flag_simp <;> first | assumption | grind
  | rdErr =>
    clear inv0
    rpc_simp
    have : freed = false := by simpa using hfreed
    subst this
    cases data with
    | none => exfalso; grind
    | some v =>
      refine ⟨_, by simp [rStep, RPc.resting, State.emit]; rfl, ?_⟩
      constructor <;> rpc_goal <;> first | assumption | grind
  | pnRmw w =>
    clear half closed rtx sundo sfail sbad rundo rplain first1 first2 first3 first3' first4 first5 hfreed
      rStore hsWk hrxw sStore htxw hdata dOk sref arg f1 f2 f3 f4 f5 f6 f7 f8 f9 f10 ap1
    obtain ⟨rfl, i1, i2, i3⟩ := InvV.took (.inr ⟨w, rfl⟩) inv0
    simp only [rStep, RPc.resting, gotCount, Bool.false_eq_true, if_false]
    (repeat' split) <;> refine ⟨_, rfl, ?_⟩ <;> first | exact i1 (by grind) | exact (i2 (by assumption)).1 | exact (i2 (by assumption)).2 |
      exact i3 (by grind) (by grind) (by grind) w
  | pnWrite w =>
    clear inv0
    rpc_simp
    have : freed = false := by simpa using hfreed
    subst this
    have : rxw = none := by cases rxw <;> grind
    subst this
    refine ⟨_, by simp [rStep, RPc.resting, State.emit]; rfl, ?_⟩
    constructor <;> rpc_goal <;> first | assumption | grind
  | pnRmw2 w =>
    clear half closed rtx sundo sfail sbad rundo rplain first1 first2 first3 first3' first4 first5 hfreed
      rStore hsWk hrxw sStore htxw hdata dOk sref arg f1 f2 f3 f4 f5 f6 f7 f8 f9 f10 ap1
    obtain ⟨rfl, i1, i2⟩ := InvV.took2 inv0
    simp only [rStep, RPc.resting, gotCount, Bool.false_eq_true, if_false]
    (repeat' split) <;> refine ⟨_, rfl, ?_⟩ <;> first | exact i1 (by assumption) | exact (i2 (by grind)).2 | (exfalso; grind)
  | pnUndo st' =>
    clear inv0
    rpc_simp
    have : freed = false := by simpa using hfreed
    subst this
    cases rxw with
    | none => exfalso; grind
    | some w =>
      by_cases h0 : cnt st' = 0 <;> cases h2 : has st' (ERR n)
      all_goals refine ⟨_, by simp [rStep, RPc.resting, h0, h2, State.emit]; rfl, ?_⟩
      all_goals constructor <;> rpc_goal <;> first | assumption | grind
  | itLoad =>
    clear inv0
    rpc_simp
    have : freed = false := by simpa using hfreed
    subst this
    refine ⟨_, by simp [rStep, RPc.resting, State.emit]; rfl, ?_⟩
    constructor <;> rpc_goal <;> first | assumption | grind
  | drRmw =>
    clear inv0
    rpc_simp
    have : freed = false := by simpa using hfreed
    subst this
    simp only [rStep, RPc.resting, dropTail, Bool.false_eq_true, if_false, State.emit]
    (repeat' split) <;> refine ⟨_, rfl, ?_⟩
    all_goals constructor <;> rpc_goal <;> flag_simp <;> first | assumption | grind
  | drErr st' =>
    clear inv0
    rpc_simp
    have : freed = false := by simpa using hfreed
    subst this
    cases data with
    | none => exfalso; grind
    | some v =>
      simp only [rStep, RPc.resting, dropTail, Bool.false_eq_true, if_false, State.emit]
      (repeat' split) <;> refine ⟨_, rfl, ?_⟩
      all_goals constructor <;> rpc_goal <;> first | assumption | grind
  | drWaker st' =>
    clear inv0
    rpc_simp
    have : freed = false := by simpa using hfreed
    subst this
    cases txw with
    | none => exfalso; grind
    | some w =>
      cases h2 : has st' (HALF n)
      all_goals refine ⟨_, by simp [rStep, RPc.resting, h2, State.emit]; rfl, ?_⟩
      all_goals constructor <;> rpc_goal <;> first | assumption | grind
  | drFree =>
    clear inv0
    rpc_simp
    have : freed = false := by simpa using hfreed
    subst this
    refine ⟨_, by simp [rStep, RPc.resting, State.release, State.emit]; rfl, ?_⟩
    constructor <;> rpc_goal <;> first | assumption | grind

end Verif.Pulse
