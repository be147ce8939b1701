import Verif.Ring.Lemmas
/-! # Steps of the sender of the ring channel keep the invariant -/
namespace Verif.Ring

open Verif.Spsc

variable {k cap : Nat} {τ ε : Type}

/-- Program points of the sender with nothing special about them. -/
def sDull : SPc k τ ε → Bool
  | .idle | .tsLoad _ | .owLoad _ | .owClaim _ | .owRead _ _ | .wrWrite _ _ | .wrRmw _ _ | .wrBack _ _ | .errWrite _
  | .icLoad | .pLoad _ _ | .drRmw => true
  | _ => false

/-- Two words with the same flags. -/
structure Flags (a b : Word k) : Prop where
  rx : has a (RX k) = has b (RX k)
  err : has a (ERR k) = has b (ERR k)
  closed : has a (CLOSED k) = has b (CLOSED k)
  half : has a (HALF k) = has b (HALF k)
  waker : hasWaker a = hasWaker b

theorem Flags.refl (a : Word k) : Flags a a := ⟨rfl, rfl, rfl, rfl, rfl⟩

theorem Flags.addLength (a : Word k) : Flags (addLength a) a := by constructor <;> flag_simp

theorem Flags.claimIfFull (a : Word k) : Flags (claimIfFull cap a) a := by constructor <;> flag_simp

/-- Steps between dull program points. -/
theorem InvV.dull {st st' : Word k} {d r t f : Bool} {spc spc' : SPc k τ ε} {rpc : RPc k}
    (inv : InvV cap st d r t f spc rpc) (h : sDull spc = true) (h' : sDull spc' = true) (hf : Flags st' st) :
    InvV cap st' d r t f spc' rpc := by
  have e : sDone spc' = sDone spc ∧ sSt spc' = sSt spc ∧ sWk spc' = sWk spc ∧ sTx spc' = sTx spc ∧
      sStoring spc' = sStoring spc ∧ sKind spc' = false ∧ sWritten spc' = sWritten spc ∧ sUndo spc' = sUndo spc ∧
      sGone spc' = sGone spc ∧ sFail spc' = sFail spc ∧ sBad spc' = false ∧ sRef spc' = false := by
    cases spc <;> simp [sDull] at h <;> cases spc' <;> simp [sDull] at h' <;>
      simp [sDone, sSt, sWk, sTx, sStoring, sKind, sWritten, sUndo, sGone, sFail, sBad, sRef]
  obtain ⟨e1, e2, e3, e4, e5, e6, e7, e8, e9, e10, e11, e12⟩ := e
  obtain ⟨g1, g2, g3, g4, g5⟩ := hf
  obtain ⟨half, closed, rtx, sundo, sfail, sbad, rundo, rplain, first1, first2, first3, first3', first4, first5, hfreed,
    rStore, hsWk, hrxw, sStore, skind, rwake, htxw, hdata, dOk, sref⟩ := inv
  constructor <;> simp only [e1, e2, e3, e4, e5, e6, e7, e8, e9, e10, e11, e12, g1, g2, g3, g4, g5] <;>
    first | assumption | simp

theorem InvV.owMid {s : State k τ ε} {st : Word k} {v : τ}
    (inv : ∀ spc' : SPc k τ ε, sDull spc' = true → InvV cap s.st s.err.isSome s.rxw.isSome s.txw.isSome s.freed spc' s.rpc) :
    Inv cap (owMid cap s st v) := by
  unfold Ring.owMid
  repeat' split
  all_goals exact inv _ rfl

theorem InvV.errTail_ {s : State k τ ε} {st : Word k} (inv1 : has st (CLOSED k) = true → Inv cap { s with spc := .errBack st })
    (inv2 : has st (CLOSED k) = false → Inv cap { s with spc := .gone }) : Inv cap (errTail s st) := by
  unfold errTail
  split
  · exact inv1 (by assumption)
  · exact inv2 (by simp_all)

set_option maxHeartbeats 4000000 in
theorem sStep_inv {s s' : State k τ ε} (inv : Inv cap s) (ap1 : s.spc.freeing = true → s.rpc.leaving = false)
    (h : sStep cap s = some s') : Inv cap s' := by
  have inv0 := inv
  obtain ⟨st, buf, err, rxw, txw, freed, spc, rpc, log⟩ := s
  unfold Inv at inv
  dsimp only at *
  have dull : sDull spc = true → ∀ st' spc', sDull spc' = true → Flags st' st →
      InvV cap st' err.isSome rxw.isSome txw.isSome freed spc' rpc := fun a st' spc' b c => inv.dull a b c
  have fl := Flags.refl st
  obtain ⟨half, closed, rtx, sundo, sfail, sbad, rundo, rplain, first1, first2, first3, first3', first4, first5, hfreed,
    rStore, hsWk, hrxw, sStore, skind, rwake, htxw, hdata, dOk, sref⟩ := inv
  obtain ⟨f1, f2, f3, f4, f5, f6, f7, f8, f9, f10, f11⟩ := rFacts cap rpc
  cases spc with
  | idle => simp [sStep, SPc.resting] at h; exact h ▸ inv0
  | gone => simp [sStep, SPc.resting] at h; exact h ▸ inv0
  | tsLoad v =>
    simp only [sStep, SPc.resting, Bool.false_eq_true, ↓reduceIte, State.emit] at h
    (repeat' split at h) <;> simp only [Option.some.injEq, reduceCtorEq] at h
    all_goals (subst h; exact dull rfl _ _ rfl fl)
  | owLoad v =>
    simp only [sStep, SPc.resting, Bool.false_eq_true, ↓reduceIte] at h
    (repeat' split at h) <;> simp only [Option.some.injEq, reduceCtorEq] at h
    all_goals subst h
    · exact dull rfl _ _ rfl fl
    · exact InvV.owMid fun spc' h' => dull rfl _ _ h' fl
  | owClaim v =>
    simp only [sStep, SPc.resting, Bool.false_eq_true, ↓reduceIte] at h
    (repeat' split at h) <;> simp only [Option.some.injEq, reduceCtorEq] at h
    all_goals (subst h; exact InvV.owMid fun spc' h' => dull rfl _ _ h' (Flags.claimIfFull st))
  | owRead v i =>
    simp only [sStep, SPc.resting, Bool.false_eq_true, ↓reduceIte, State.emit] at h
    (repeat' split at h) <;> simp only [Option.some.injEq, reduceCtorEq] at h
    all_goals (subst h; exact dull rfl _ _ rfl fl)
  | wrWrite v i =>
    simp only [sStep, SPc.resting, Bool.false_eq_true, ↓reduceIte, State.emit] at h
    (repeat' split at h) <;> simp only [Option.some.injEq, reduceCtorEq] at h
    all_goals (subst h; exact dull rfl _ _ rfl fl)
  | wrBack v i =>
    simp only [sStep, SPc.resting, Bool.false_eq_true, ↓reduceIte, State.emit] at h
    (repeat' split at h) <;> simp only [Option.some.injEq, reduceCtorEq] at h
    all_goals (subst h; exact dull rfl _ _ rfl fl)
  | icLoad =>
    simp only [sStep, SPc.resting, Bool.false_eq_true, ↓reduceIte, State.emit] at h
    (repeat' split at h) <;> simp only [Option.some.injEq, reduceCtorEq] at h
    all_goals (subst h; exact dull rfl _ _ rfl fl)
  | wrRmw v i =>
    simp only [sStep, SPc.resting, Bool.false_eq_true, ↓reduceIte, State.emit] at h
    (repeat' split at h) <;> simp only [Option.some.injEq, reduceCtorEq] at h
    all_goals subst h
    · exact dull rfl _ _ rfl (.addLength st)
    · have i1 := dull rfl _ (.idle) rfl (.addLength st)
      exact ⟨i1.1, i1.2, i1.3, i1.4, i1.5, i1.6, i1.7, i1.8, i1.9, i1.10, i1.11, i1.12, i1.13, i1.14,
        i1.15, i1.16, i1.17, i1.18, i1.19, i1.20, i1.21, i1.22, i1.23, i1.24, fun _ => by flag_simp; assumption⟩
    · exact dull rfl _ _ rfl (.addLength st)
  | _ =>
    clear inv0 dull fl
    simp only [sStep, SPc.resting, Bool.false_eq_true, ↓reduceIte, State.emit, State.release, errTail] at h
    (repeat' split at h) <;> simp only [Option.some.injEq, reduceCtorEq] at h
    all_goals subst h
    all_goals spc_simp
    all_goals constructor <;> spc_goal <;> flag_simp <;> first | assumption | grind

end Verif.Ring
