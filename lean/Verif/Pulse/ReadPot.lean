import Verif.Pulse.Read
import Verif.Ring.FeedPot
/-! # How much work the task that reads a pulse channel has left -/
namespace Verif.Pulse.Read
open Verif.Spsc
open Verif.Exec.Str (pulseRecv fresh pulseWake fresh_nil fresh_one fresh_two)
open Verif.Ring.Feed (Less)

variable {n : Nat}

/-- The part of the receiver. -/
def rHi : RPc n → Nat
  | .idle | .pnRmw _ | .pnWrite _ | .pnRmw2 _ | .rdErr => 2
  | .reErr => 3
  | .pnUndo st => if cnt st ≠ 0 then 4 else 2
  | .drRmw | .drErr _ | .drWaker _ => 1
  | _ => 0

/-- What is left to read. -/
def hi (c : State n Nat) : Nat := 4 * cnt c.st + c.err.isSome.toNat + rHi c.rpc

/-- The accesses up to the next `Poll::Pending` or the next item. -/
def rLo : RPc n → Nat
  | .idle => 8
  | .pnRmw _ => 7
  | .pnWrite _ => 6
  | .pnRmw2 _ => 5
  | .pnUndo _ | .drRmw => 4
  | .reErr | .drErr _ => 3
  | .drWaker _ => 2
  | .rdErr | .drFree => 1
  | _ => 0

theorem rLo_le (pc : RPc n) : rLo pc ≤ 8 := by cases pc <;> simp [rLo]

/-- One access of the receiving task. -/
theorem recv_pot {t : Nat} {c c' : State n Nat} {r : Exec.Chan.Res} (ho : other c.rpc = false) (hg : c.rpc ≠ .gone) (h : pulseRecv t c = some (c', r)) :
    Less (hi c) (hi c') (rLo c.rpc) (rLo c'.rpc) r ((fresh c.log c'.log).findSome? pulseWake) := by
  by_cases hidle : c.rpc = .idle
  · simp only [pulseRecv, hidle, Option.some.injEq, Prod.mk.injEq] at h
    obtain ⟨rfl, rfl⟩ := h
    exact .inr (.inl ⟨by simp only [hi, rCall, rHi, hidle], by simp [rCall, rLo, hidle], by simp [rCall, fresh_nil]⟩)
  unfold pulseRecv at h
  split at h
  · rename_i e; exact absurd e hidle
  split at h
  · simp at h
  rename_i c1 hs
  obtain ⟨st, err, rxw, txw, freed, spc, rpc, log⟩ := c
  simp only [rStep] at hs
  dsimp only at *
  split at hs
  · rename_i hres; cases rpc <;> simp [RPc.resting] at hres hidle hg
  rename_i hres
  clear hres
  split at hs
  · simp at hs
  cases rpc <;> simp only [other, Bool.true_eq_false] at ho
  all_goals simp only [gotCount, dropTail, State.emit, State.release] at hs
  all_goals (repeat' (split at hs))
  all_goals first
    | (simp at hs; done)
    | skip
  all_goals simp only [Option.some.injEq] at hs
  all_goals (repeat' (split at hs))
  all_goals subst hs
  all_goals simp only [fresh_nil, fresh_one, fresh_two, List.head?_cons, List.head?_nil, Option.some.injEq, Prod.mk.injEq] at h
  all_goals obtain ⟨rfl, rfl⟩ := h
  all_goals simp only [rCall, fresh_nil, fresh_one, fresh_two, Less, hi, rHi, rLo, List.findSome?, pulseWake, cnt_takeWord, cnt_RX, cnt_ERR, cnt_CLOSED, cnt_HALF, Option.isSome_some, Option.isSome_none, Bool.toNat_true, Bool.toNat_false, Bool.false_eq_true, ↓reduceIte]
  all_goals try simp_all
  all_goals first
    | exact .inl (Nat.lt_succ_self _)
    | omega

/-- The receiver does nothing for the sender. -/
theorem recv_kept {t : Nat} {c c' : State n Nat} {r : Exec.Chan.Res} (h : pulseRecv t c = some (c', r)) :
    c'.spc = c.spc ∧ (SenderLeft c.log → SenderLeft c'.log) := by
  by_cases hidle : c.rpc = .idle
  · simp only [pulseRecv, hidle, Option.some.injEq, Prod.mk.injEq] at h
    obtain ⟨rfl, rfl⟩ := h
    exact ⟨rfl, id⟩
  unfold pulseRecv at h
  split at h
  · rename_i e; exact absurd e hidle
  split at h
  · simp at h
  rename_i c1 hs
  have key : c1.spc = c.spc ∧ (SenderLeft c.log → SenderLeft c1.log) := by
    obtain ⟨st, err, rxw, txw, freed, spc, rpc, log⟩ := c
    simp only [rStep] at hs
    dsimp only at *
    split at hs
    · simp only [Option.some.injEq] at hs; subst hs; exact ⟨rfl, id⟩
    rename_i hres
    clear hres
    split at hs
    · simp at hs
    cases rpc
    all_goals simp only [gotCount, dropTail, State.emit, State.release] at hs
    all_goals (repeat' (split at hs))
    all_goals first
      | (simp at hs; done)
      | skip
    all_goals simp only [Option.some.injEq] at hs
    all_goals (repeat' (split at hs))
    all_goals subst hs
    all_goals first
      | exact ⟨rfl, id⟩
      | exact ⟨rfl, left_cons⟩
      | exact ⟨rfl, fun h => left_cons (left_cons h)⟩
      | exact ⟨rfl, fun h => left_cons (left_cons (left_cons h))⟩
  repeat' (split at h)
  all_goals simp only [Option.some.injEq, Prod.mk.injEq] at h
  all_goals obtain ⟨rfl, rfl⟩ := h
  all_goals exact key

end Verif.Pulse.Read
