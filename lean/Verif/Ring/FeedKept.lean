import Verif.Ring.FeedPot
/-! # The receiver of a ring channel does nothing for the sender -/
namespace Verif.Ring.Feed
open Verif.Exec.Chan (Res)
open Verif.Exec.Str (ringRecv)

variable {k cap : Nat}

theorem left_cons {e : Event Nat Nat} {l : List (Event Nat Nat)} (h : Ring.SenderLeft l) : Ring.SenderLeft (e :: l) := by
  rcases h with h | h
  · cases e <;> first | exact .inl h | exact .inl (by simp [errs])
  · exact .inr (List.mem_cons_of_mem _ h)

/-- The receiver does nothing for the sender. -/
theorem recv_kept {t : Nat} {c c' : State k Nat Nat} {r : Res} (h : ringRecv cap t c = some (c', r)) :
    c'.spc = c.spc ∧ (Ring.SenderLeft c.log → SenderLeft c'.log) := by
  by_cases hidle : c.rpc = .idle
  · simp only [ringRecv, hidle, Option.some.injEq, Prod.mk.injEq] at h
    obtain ⟨rfl, rfl⟩ := h
    exact ⟨rfl, id⟩
  unfold ringRecv at h
  split at h
  · rename_i e; exact absurd e hidle
  split at h
  · simp at h
  rename_i c1 hs
  have key : c1.spc = c.spc ∧ (Ring.SenderLeft c.log → SenderLeft c1.log) := by
    obtain ⟨st, buf, err, rxw, txw, freed, spc, rpc, log⟩ := c
    simp only [rStep] at hs
    dsimp only at *
    split at hs
    · simp only [Option.some.injEq] at hs; subst hs; exact ⟨rfl, id⟩
    rename_i hres
    clear hres
    split at hs
    · simp at hs
    cases rpc
    all_goals simp only [takeValue, dropLoop, dropTail, State.emit, State.release] at hs
    all_goals (repeat' (split at hs))
    all_goals first
      | (simp at hs; done)
      | skip
    all_goals simp only [Option.some.injEq] at hs
    all_goals (repeat' (split at hs))
    all_goals subst hs
    all_goals first
      | exact ⟨rfl, id⟩
      | exact ⟨rfl, left_cons⟩
      | exact ⟨rfl, fun h => left_cons (left_cons h)⟩
      | exact ⟨rfl, fun h => left_cons (left_cons (left_cons h))⟩
  repeat' (split at h)
  all_goals simp only [Option.some.injEq, Prod.mk.injEq] at h
  all_goals obtain ⟨rfl, rfl⟩ := h
  all_goals exact key

end Verif.Ring.Feed
