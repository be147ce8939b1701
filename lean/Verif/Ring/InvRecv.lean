import Verif.Ring.Lemmas
/-! # Steps of the receiver of the ring channel keep the invariant -/
namespace Verif.Ring

open Verif.Spsc

variable {k cap : Nat} {τ ε : Type}

set_option maxHeartbeats 4000000 in
/-- The state update of `try_next` and `poll_next`. -/
theorem InvV.took {st : Word k} {d r t f : Bool} {spc : SPc k τ ε} {rpc : RPc k}
    (hs : rpc = .tnRmw ∨ ∃ w, rpc = .pnRmw w) (inv : InvV cap st d r t f spc rpc) :
    (has st (ERR k) = false → InvV cap (take cap st) d r t f spc .idle ∧ ∀ i, InvV cap (take cap st) d r t f spc (.tvRead i)) ∧
    (∀ i, InvV cap (take cap st) d r t f spc (.tvRmw i (shouldWake cap st) (has st (ERR k)))) ∧
    (has st (ERR k) = true → InvV cap (take cap st) d r t f spc .rdErr) ∧
    (has st (ERR k) = false → has st (HALF k) = false → has st (RX k) = false →
      ∀ w, InvV cap (take cap st) d r t f spc (.pnWrite w)) := by
  replace inv : InvV cap st d r t f spc .tnRmw := by
    rcases hs with rfl | ⟨w, rfl⟩
    · exact inv
    · exact ⟨inv.1, inv.2, inv.3, inv.4, inv.5, inv.6, inv.7, inv.8, inv.9, inv.10, inv.11, inv.12, inv.13, inv.14,
        inv.15, inv.16, inv.17, inv.18, inv.19, inv.20, inv.21, inv.22, inv.23, inv.24, inv.25⟩
  clear hs
  have sw := @shouldWake_hasWaker k cap st
  obtain ⟨half, closed, rtx, sundo, sfail, sbad, rundo, rplain, first1, first2, first3, first3', first4, first5, hfreed,
    rStore, hsWk, hrxw, sStore, skind, rwake, htxw, hdata, dOk, sref⟩ := inv
  obtain ⟨f1, f2, f3, f4, f5, f6, f7, f8, f9, f10, f11, f12⟩ := sFacts spc
  rpc_simp
  refine ⟨fun h => ⟨?_, fun i => ?_⟩, fun i => ?_, fun h => ?_, fun h h1 h2 w => ?_⟩
  all_goals constructor <;> rpc_goal <;> flag_simp <;> first | assumption | grind

set_option maxHeartbeats 4000000 in
/-- The second state update of `poll_next`. -/
theorem InvV.took2 {st : Word k} {d r t f : Bool} {spc : SPc k τ ε} {w : Waker}
    (inv : InvV cap st d r t f spc (.pnRmw2 w)) :
    (has st (HALF k) = true → InvV cap (take cap st ||| RX k) d r t f spc (.pnUndo st)) ∧
    (has st (HALF k) = false → has st (ERR k) = false ∧ InvV cap (take cap st ||| RX k) d r t f spc .idle ∧
      (∀ i, InvV cap (take cap st ||| RX k) d r t f spc (.tvRead i)) ∧
      ∀ i, InvV cap (take cap st ||| RX k) d r t f spc (.tvRmw i (shouldWake cap st) (has st (ERR k)))) := by
  have sw := @shouldWake_hasWaker k cap st
  obtain ⟨half, closed, rtx, sundo, sfail, sbad, rundo, rplain, first1, first2, first3, first3', first4, first5, hfreed,
    rStore, hsWk, hrxw, sStore, skind, rwake, htxw, hdata, dOk, sref⟩ := inv
  obtain ⟨f1, f2, f3, f4, f5, f6, f7, f8, f9, f10, f11, f12⟩ := sFacts spc
  rpc_simp
  refine ⟨fun h => ?_, fun h => ⟨by grind, ?_, fun i => ?_, fun i => ?_⟩⟩
  all_goals constructor <;> rpc_goal <;> flag_simp <;> first | assumption | grind

theorem InvV.takeValue_ {s : State k τ ε} {st : Word k}
    (inv1 : has st (ERR k) = false → ∀ i, Inv cap { s with rpc := .tvRead i })
    (inv2 : ∀ i, Inv cap { s with rpc := .tvRmw i (shouldWake cap st) (has st (ERR k)) }) : Inv cap (takeValue cap s st) := by
  unfold takeValue
  split
  · exact inv2 _
  · exact inv1 (by simp_all) _

set_option maxHeartbeats 4000000 in
theorem rStep_inv {s s' : State k τ ε} (inv : Inv cap s) (ap1 : s.rpc.freeing = true → s.spc.leaving = false)
    (h : rStep cap s = some s') : Inv cap s' := by
  have inv0 := inv
  obtain ⟨st, buf, err, rxw, txw, freed, spc, rpc, log⟩ := s
  unfold Inv at inv
  dsimp only at *
  cases rpc with
  | idle => simp [rStep, RPc.resting] at h; exact h ▸ inv0
  | gone => simp [rStep, RPc.resting] at h; exact h ▸ inv0
  | tnRmw =>
    obtain ⟨t1, t2, t3, t4⟩ := inv.took (.inl rfl)
    simp only [rStep, RPc.resting, Bool.false_eq_true, ↓reduceIte] at h
    (repeat' split at h) <;> simp only [Option.some.injEq, reduceCtorEq] at h
    all_goals subst h
    · exact InvV.takeValue_ (fun a => (t1 a).2) t2
    · exact t3 (by assumption)
    · exact (t1 (by simp_all)).1
    · exact (t1 (by simp_all)).1
  | pnRmw w =>
    obtain ⟨t1, t2, t3, t4⟩ := inv.took (.inr ⟨_, rfl⟩)
    simp only [rStep, RPc.resting, Bool.false_eq_true, ↓reduceIte] at h
    (repeat' split at h) <;> simp only [Option.some.injEq, reduceCtorEq] at h
    all_goals subst h
    · exact InvV.takeValue_ (fun a => (t1 a).2) t2
    · exact t3 (by assumption)
    · exact (t1 (by simp_all)).1
    · exact (t1 (by simp_all)).1
    · exact t4 (by simp_all) (by simp_all) (by simp_all) w
  | pnRmw2 w =>
    obtain ⟨t1, t2⟩ := inv.took2
    simp only [rStep, RPc.resting, Bool.false_eq_true, ↓reduceIte] at h
    (repeat' split at h) <;> simp only [Option.some.injEq, reduceCtorEq] at h
    all_goals subst h
    · exact t1 (by assumption)
    · exact t1 (by assumption)
    · exact InvV.takeValue_ (fun _ => (t2 (by simp_all)).2.2.1) (t2 (by simp_all)).2.2.2
    · exact (t2 (by simp_all)).2.1
  | _ =>
    clear inv0
    obtain ⟨half, closed, rtx, sundo, sfail, sbad, rundo, rplain, first1, first2, first3, first3', first4, first5, hfreed,
      rStore, hsWk, hrxw, sStore, skind, rwake, htxw, hdata, dOk, sref⟩ := inv
    obtain ⟨f1, f2, f3, f4, f5, f6, f7, f8, f9, f10, f11, f12⟩ := sFacts spc
    simp only [rStep, RPc.resting, State.emit, State.release, takeValue, dropTail, dropLoop, Bool.false_eq_true, ↓reduceIte] at h
    (repeat' split at h) <;> simp only [Option.some.injEq, reduceCtorEq] at h
    all_goals subst h
    all_goals rpc_simp
    all_goals constructor <;> rpc_goal <;> flag_simp <;> first | assumption | grind

end Verif.Ring
