import Verif.Exec.ChanLemmas
import Verif.Ring.FeedPot
/-! # How much work the task that awaits a oneshot channel has left -/
namespace Verif.Exec.Chan
open Verif.Spsc
open Verif.Oneshot (RPc SPc Event State.emit State.release)
open Verif.Ring.Feed (Less)

/-- What is left to do. -/
def rHi : RPc → Nat
  | .idle | .poRmw _ | .poWrite _ | .poRmw2 _ | .poUndo _ | .read => 2
  | .drRmw | .drData _ | .drWaker _ => 1
  | _ => 0

/-- The accesses up to the next `Poll::Pending` or the end of the poll. -/
def rLo : RPc → Nat
  | .idle => 8
  | .poRmw _ => 7
  | .poWrite _ => 6
  | .poRmw2 _ => 5
  | .poUndo _ | .drRmw => 4
  | .read | .drData _ => 3
  | .drWaker _ => 2
  | .drFree => 1
  | _ => 0

theorem rLo_le (pc : RPc) : rLo pc ≤ 8 := by cases pc <;> simp [rLo]

theorem two (l : List (Event Nat)) : l.length + 1 + 1 - l.length = 2 := by omega

/-- One access of the task. -/
theorem recv_pot {t : Nat} {c c' : Ch} {r : Res} (ho : other c.rpc = false) (hg : c.rpc ≠ .gone) (h : recvStep t c = some (c', r)) :
    Less (rHi c.rpc) (rHi c'.rpc) (rLo c.rpc) (rLo c'.rpc) r (woken c c') := by
  by_cases hidle : c.rpc = .idle
  · simp only [recvStep, hidle, Option.some.injEq, Prod.mk.injEq] at h
    obtain ⟨rfl, rfl⟩ := h
    exact .inr (.inl ⟨by simp only [Oneshot.rCall, rHi, hidle], by simp [Oneshot.rCall, rLo, hidle], by simp [woken, Oneshot.rCall]⟩)
  unfold recvStep at h
  split at h
  · rename_i e; exact absurd e hidle
  split at h
  · simp at h
  rename_i c1 hs
  obtain ⟨st, data, rxw, txw, freed, spc, rpc, log⟩ := c
  simp only [Oneshot.rStep] at hs
  dsimp only at *
  split at hs
  · rename_i hres; cases rpc <;> simp [RPc.resting] at hres hidle hg
  rename_i hres
  clear hres
  split at hs
  · simp at hs
  cases rpc <;> simp only [other, Bool.true_eq_false] at ho
  all_goals first
    | exact absurd rfl hidle
    | exact absurd rfl hg
    | skip
  all_goals simp only [Oneshot.dropTail, State.emit, State.release] at hs
  all_goals (repeat' (split at hs))
  all_goals first
    | (simp at hs; done)
    | skip
  all_goals simp only [Option.some.injEq] at hs
  all_goals (repeat' (split at hs))
  all_goals subst hs
  all_goals simp only [Option.some.injEq, Prod.mk.injEq] at h
  all_goals obtain ⟨rfl, rfl⟩ := h
  all_goals simp [Oneshot.rCall, Less, rHi, rLo, woken, two]

theorem left_cons (e : Event Nat) {p : List (Event Nat)} (h : Oneshot.SenderLeft p) : Oneshot.SenderLeft (e :: p) := by
  rcases h with h | h
  · left
    cases e <;> simp_all [Oneshot.sends]
  · exact .inr (List.mem_cons_of_mem _ h)

/-- The receiver does nothing for the sender. -/
theorem recv_kept {t : Nat} {c c' : Ch} {r : Res} (h : recvStep t c = some (c', r)) :
    c'.spc = c.spc ∧ (Oneshot.SenderLeft c.log → Oneshot.SenderLeft c'.log) := by
  by_cases hidle : c.rpc = .idle
  · simp only [recvStep, hidle, Option.some.injEq, Prod.mk.injEq] at h
    obtain ⟨rfl, rfl⟩ := h
    exact ⟨rfl, id⟩
  unfold recvStep at h
  split at h
  · rename_i e; exact absurd e hidle
  split at h
  · simp at h
  rename_i c1 hs
  have key : c1.spc = c.spc ∧ (Oneshot.SenderLeft c.log → Oneshot.SenderLeft c1.log) := by
    obtain ⟨st, data, rxw, txw, freed, spc, rpc, log⟩ := c
    simp only [Oneshot.rStep] at hs
    dsimp only at *
    split at hs
    · simp only [Option.some.injEq] at hs; subst hs; exact ⟨rfl, id⟩
    rename_i hres
    clear hres
    split at hs
    · simp at hs
    cases rpc
    all_goals simp only [Oneshot.dropTail, State.emit, State.release] at hs
    all_goals (repeat' (split at hs))
    all_goals first
      | (simp at hs; done)
      | skip
    all_goals simp only [Option.some.injEq] at hs
    all_goals (repeat' (split at hs))
    all_goals subst hs
    all_goals first
      | exact ⟨rfl, id⟩
      | exact ⟨rfl, left_cons _⟩
      | exact ⟨rfl, fun h => left_cons _ (left_cons _ h)⟩
      | exact ⟨rfl, fun h => left_cons _ (left_cons _ (left_cons _ h))⟩
  repeat' (split at h)
  all_goals simp only [Option.some.injEq, Prod.mk.injEq] at h
  all_goals obtain ⟨rfl, rfl⟩ := h
  all_goals exact key

end Verif.Exec.Chan
