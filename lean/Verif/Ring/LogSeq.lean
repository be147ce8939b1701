import Verif.Ring.LogTx
import Verif.Ring.LogFin
/-! # Waking the sender of a ring channel: calls that do not overlap

With calls that do not overlap, a pending `poll_ready` is woken even if overwriting
sends intervene. Also: nothing is received after the end was reported. -/
namespace Verif.Ring

open Verif.Spsc

variable {k cap : Nat} {τ ε : Type}

/-- The sender waits for room: the buffer is full, or about to be full again. -/
def LogS (cap : Nat) (s : State k τ ε) : Prop :=
  sDone s.spc = false → txWaits s.log = some .ready →
    txSince isTxWake s.log = true ∨ rWaking s.rpc = true ∨ len s.st = cap ∨ (s.spc.slot.isSome = true ∧ len s.st + 1 = cap)

theorem init_logS : LogS cap (init k τ ε) := by
  intro _; simp [init, txWaits]

theorem resting_slot {spc : SPc k τ ε} (h : spc.resting = true) : spc.slot = none := by
  cases spc <;> simp_all [SPc.resting, SPc.slot]

theorem Sequential.sResting {s : State k τ ε} (sq : Sequential s) (h : s.rpc.resting = false) : s.spc.resting = true := by
  rcases sq with q | q
  · exact q
  · rw [h] at q; simp at q

set_option maxHeartbeats 4000000 in
theorem sStep_logS {s s' : State k τ ε} (h1 : 1 < cap) (hcap : cap < 2 ^ k) (inv : Inv cap s) (il : InvL cap s)
    (ld : LogD cap s) (sq : Sequential s) (lg : LogS cap s) (h : sStep cap s = some s') : LogS cap s' := by
  have lg0 := lg
  obtain ⟨st, buf, err, rxw, txw, freed, spc, rpc, log⟩ := s
  have hc := il.1.cur
  have hl := il.1.len
  have sa := il.1.slotat
  have rcl := inv.closed
  have sb := il.1.back
  obtain ⟨-, wake⟩ := ld
  clear inv il
  unfold LogS at lg ⊢
  unfold Sequential at sq
  dsimp only at *
  cases spc with
  | idle => simp [sStep, SPc.resting] at h; subst h; exact lg0
  | gone => simp [sStep, SPc.resting] at h; subst h; exact lg0
  | owClaim v =>
    clear lg0
    have e1 := len_claimIfFull (st := st) (cap := cap) (by omega) hc
    simp only [sDone, SPc.slot, SPc.resting, Bool.false_eq_true, true_implies, Option.isSome_none, Option.isSome_some, false_and, or_false,
      false_or, true_and] at wake lg sq
    have hw : rWaking rpc = false := by cases rpc <;> simp_all [RPc.resting, rWaking]
    simp only [sStep, SPc.resting, owMid, State.emit, Bool.false_eq_true, if_false] at h
    (repeat' split at h) <;> simp only [Option.some.injEq, reduceCtorEq] at h
    all_goals subst h
    all_goals tlog_simp
    all_goals simp only [sDone, SPc.slot, e1]
    all_goals grind [Armed]
  | wrRmw v i =>
    clear lg0
    have sa := sa i rfl
    simp only [sDone, SPc.slot, SPc.resting, Bool.false_eq_true, true_implies, Option.isSome_none, Option.isSome_some, false_and, or_false,
      false_or, true_and] at wake lg sq
    have hw : rWaking rpc = false := by cases rpc <;> simp_all [RPc.resting, rWaking]
    have e1 : rDone rpc = false → len (addLength st) = _ := fun hd => len_addLength (st := st) (by have := sa hd; omega)
    simp only [sStep, SPc.resting, State.emit, Bool.false_eq_true, if_false] at h
    (repeat' split at h) <;> simp only [Option.some.injEq, reduceCtorEq] at h
    all_goals subst h
    all_goals tlog_simp
    all_goals simp only [sDone, SPc.slot]
    all_goals grind [Armed]
  | pRmw κ w wr =>
    clear lg0
    simp only [sDone, SPc.slot, SPc.resting, Bool.false_eq_true, true_implies, Option.isSome_none, Option.isSome_some, false_and, or_false,
      false_or, true_and] at wake lg sq
    simp only [sStep, SPc.resting, State.emit, closedResult, Bool.false_eq_true, if_false] at h
    (repeat' split at h) <;> simp only [Option.some.injEq, reduceCtorEq] at h
    all_goals subst h
    all_goals tlog_simp
    all_goals (try simp only [sDone, SPc.slot, len_setKind])
    all_goals grind [Armed, pollReady]
  | pLoad κ w =>
    clear lg0
    simp only [sDone, SPc.slot, SPc.resting, Bool.false_eq_true, true_implies, Option.isSome_none, Option.isSome_some, false_and, or_false,
      false_or, true_and] at wake lg sq
    simp only [sStep, SPc.resting, State.emit, closedResult, Bool.false_eq_true, if_false] at h
    (repeat' split at h) <;> simp only [Option.some.injEq, reduceCtorEq] at h
    all_goals subst h
    all_goals tlog_simp
    all_goals (try simp only [sDone, SPc.slot])
    all_goals grind [Armed, pollReady]
  | _ =>
    clear lg0
    simp only [sDone, SPc.slot, SPc.resting, Bool.false_eq_true, true_implies, Option.isSome_none, Option.isSome_some, false_and, or_false,
      false_or, true_and, sBack] at wake lg sq sb
    have hw : rWaking rpc = false := by cases rpc <;> simp_all [RPc.resting, rWaking]
    simp only [sStep, SPc.resting, owMid, errTail, closedResult, State.emit, State.release, Bool.false_eq_true, if_false] at h
    (repeat' split at h) <;> simp only [Option.some.injEq, reduceCtorEq] at h
    all_goals subst h
    all_goals tlog_simp
    all_goals (try simp only [sDone, SPc.slot, Bool.true_eq_false, false_implies])
    all_goals first | assumption | grind [Armed]

set_option maxHeartbeats 4000000 in
theorem rStep_logS {s s' : State k τ ε} (hcap : cap < 2 ^ k) (inv : Inv cap s) (il : InvL cap s)
    (ld : LogD cap s) (sq : Sequential s) (lg : LogS cap s) (h : rStep cap s = some s') : LogS cap s' := by
  have lg0 := lg
  have sl : s.rpc.resting = false → s.spc.slot = none := fun hr => resting_slot (sq.sResting hr)
  obtain ⟨st, buf, err, rxw, txw, freed, spc, rpc, log⟩ := s
  have hc := il.1.cur
  have hl := il.1.len
  have half := inv.half
  have rund := inv.rundo
  have rcl := inv.closed
  have fi2 := inv.first2
  obtain ⟨clh, wake⟩ := ld
  have hkw := fun κ => @hasKind_hasWaker k κ st
  clear inv il sq
  unfold LogS at lg ⊢
  dsimp only at *
  cases rpc with
  | idle => simp [rStep, RPc.resting] at h; subst h; exact lg0
  | gone => simp [rStep, RPc.resting] at h; subst h; exact lg0
  | pnUndo st' =>
    have sd := (rund rfl).2.1
    simp only [rStep, RPc.resting, takeValue, State.emit, Bool.false_eq_true, if_false] at h
    (repeat' split at h) <;> simp only [Option.some.injEq, reduceCtorEq] at h
    all_goals subst h
    all_goals grind
  | tvRmw i wk er =>
    clear lg0
    have sl := sl rfl
    obtain ⟨e1, e2, e3⟩ := lc_tvRmw st wk er
    cases wk <;> cases er <;> simp only [Bool.false_eq_true, ↓reduceIte] at h e1 e2 e3 <;>
    simp only [rWaking, rDone, Bool.false_eq_true, Bool.true_eq_false, Bool.or_false, reduceCtorEq, false_or, true_or] at wake half lg <;>
    simp only [rStep, RPc.resting, Bool.false_eq_true, ↓reduceIte, Bool.false_and, Bool.true_and] at h <;>
    (repeat' split at h) <;> simp only [Option.some.injEq, reduceCtorEq] at h
    all_goals subst h
    all_goals tlog_simp
    all_goals simp only [rWaking, e1, sl]
    all_goals grind
  | _ =>
    clear lg0
    have sl := sl rfl
    have e1 := len_take (st := st) (cap := cap) (by omega) hc
    have e2 : len (take cap st ||| RX k) = len (take cap st) := by lc_simp
    have sw : hasKind .ready st = true → len st = cap → shouldWake cap st = true := by
      intro a b; simp [shouldWake, a, b]
    simp only [rWaking, rDone, rSt, Bool.false_eq_true, Bool.true_eq_false, Bool.or_false, reduceCtorEq, false_or, true_or, true_implies] at wake half fi2 rcl lg
    simp only [rStep, RPc.resting, takeValue, dropTail, dropLoop, State.emit, State.release, Bool.false_eq_true, if_false] at h
    (repeat' split at h) <;> simp only [Option.some.injEq, reduceCtorEq] at h
    all_goals subst h
    all_goals tlog_simp
    all_goals (try simp only [rWaking, sl, e2, e1])
    all_goals first | assumption | grind [Armed]

theorem step_logS (h1 : 1 < cap) (hcap : cap < 2 ^ k) (s : State k τ ε) (a : Act τ ε) (s' : State k τ ε) (inv : Inv cap s)
    (il : InvL cap s) (ld : LogD cap s) (sq : Sequential s) (lg : LogS cap s) (h : step cap s a = some s') : LogS cap s' := by
  cases a with
  | sCall op =>
    simp only [step] at h
    split at h <;> simp at h <;> subst h
    · rename_i hi
      obtain ⟨st, buf, err, rxw, txw, freed, spc, rpc, log⟩ := s
      cases spc <;> simp [SPc.isIdle] at hi
      unfold LogS at lg ⊢
      dsimp only at lg
      simp only [sDone, SPc.slot] at lg
      cases op <;> simp only [sCall, State.emit] <;> tlog_simp <;> simp only [sDone, SPc.slot] <;> exact lg
    · exact lg
  | rCall op =>
    simp only [step] at h
    split at h <;> simp at h <;> subst h
    · rename_i hi
      obtain ⟨st, buf, err, rxw, txw, freed, spc, rpc, log⟩ := s
      cases rpc <;> simp [RPc.isIdle] at hi
      unfold LogS at lg ⊢
      dsimp only at lg
      simp only [rWaking] at lg
      cases op <;> simp only [rCall, rWaking] <;> exact lg
    · exact lg
  | sStep => exact sStep_logS h1 hcap inv il ld sq lg h
  | rStep => exact rStep_logS hcap inv il ld sq lg h

/-! ### Nothing is received after the end was reported -/

/-- No value is received after the end. -/
def OkFinV : Event τ ε → List (Event τ ε) → Prop
  | .recv _, p => Event.ended ∉ p ∧ Event.terminated true ∉ p
  | _, _ => True

/-- Relation of the log to the state: values in flight at the end. -/
structure LogH (s : State k τ ε) : Prop where
  held : endSeen s.log → rHold s.rpc = none
  hist : Hist OkFinV s.log

theorem init_logH : LogH (init k τ ε) := by
  constructor <;> simp [init, endSeen, Hist]

theorem step_logH (s : State k τ ε) (a : Act τ ε) (s' : State k τ ε) (le : LogE s) (lg : LogH s)
    (h : step cap s a = some s') : LogH s' := by
  obtain ⟨fin, -⟩ := le
  obtain ⟨st, buf, err, rxw, txw, freed, spc, rpc, log⟩ := s
  obtain ⟨held, hist⟩ := lg
  dsimp only at *
  cases a with
  | sCall op =>
    simp only [step] at h
    split at h <;> simp only [Option.some.injEq] at h <;> subst h
    · cases op <;> simp only [sCall, State.emit] <;> constructor <;> simp only [endSeen, Hist, OkFinV, List.mem_cons, reduceCtorEq, false_or, true_and] <;> assumption
    · exact ⟨held, hist⟩
  | rCall op =>
    simp only [step] at h
    split at h <;> simp only [Option.some.injEq] at h <;> subst h
    · cases op <;> exact ⟨fun _ => rfl, hist⟩
    · exact ⟨held, hist⟩
  | sStep =>
    simp only [step] at h
    cases spc <;>
    · simp only [sStep, SPc.resting, owMid, errTail, closedResult, State.emit, State.release, Bool.false_eq_true, if_false, if_true] at h
      (repeat' split at h) <;> simp only [Option.some.injEq, reduceCtorEq] at h <;> subst h <;>
      constructor <;> (try simp only [endSeen, Hist, OkFinV, List.mem_cons, reduceCtorEq, false_or, true_and]) <;> assumption
  | rStep =>
    simp only [step] at h
    cases rpc <;>
    · simp only [rStep, RPc.resting, takeValue, dropTail, dropLoop, State.emit, State.release, Bool.false_eq_true, if_false, if_true] at h
      (repeat' split at h) <;> simp only [Option.some.injEq, reduceCtorEq] at h <;> subst h <;>
      constructor <;> (try simp only [endSeen, Hist, OkFinV, List.mem_cons, reduceCtorEq, false_or, true_and]) <;>
        first | assumption | grind [rHold, endSeen]

end Verif.Ring
