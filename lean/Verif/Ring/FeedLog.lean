import Verif.Ring.Feed
/-! # The log of a ring whose sender never overwrites -/
namespace Verif.Ring.Feed
open Verif.Exec.Str (Merge)

/-- What the receiver has got and what it holds is the beginning of what was sent. -/
theorem got_prefix : ∀ {l : List (Event Nat Nat)}, Hist OkVal l → Event.claimTx ∉ l →
    overwritten l = [] ∧ (abs l).tx = none ∧
      ∃ r, received l ++ (abs l).rx.toList ++ r = pushed l ∧ (Event.claimAll ∉ l → r = (abs l).pend)
  | [], _, _ => by simp [overwritten, abs, received, pushed]
  | e :: p, h, hn => by
    simp only [List.mem_cons, not_or] at hn
    obtain ⟨i1, i2, r, i3, i4⟩ := got_prefix h.2 hn.2
    have ok := h.1
    cases e
    case push v =>
      refine ⟨i1, i2, r ++ [v], ?_, ?_⟩
      · simp only [received, pushed, abs, ← i3, List.append_assoc]
      · intro hc; simp only [List.mem_cons, not_or] at hc; simp only [abs, i4 hc.2]
    case claimRx =>
      obtain ⟨ok1, ok2⟩ := ok
      have e := i4 ok2
      rw [ok1] at i3
      subst e
      refine ⟨i1, i2, (abs p).pend.tail, ?_, fun _ => rfl⟩
      simp only [received, pushed, abs, ← i3, Option.toList_none, List.append_nil, List.append_assoc]
      congr 1
      cases (abs p).pend <;> simp
    case recv v =>
      have ok : (abs p).rx = some v := ok
      rw [ok] at i3
      refine ⟨i1, i2, r, ?_, ?_⟩
      · simp only [received, pushed, abs, ← i3, Option.toList_some, Option.toList_none, List.append_nil]
      · intro hc; simp only [List.mem_cons, not_or] at hc; exact i4 hc.2
    case claimTx => simp at hn
    case overwrote v =>
      have ok : (abs p).tx = some v := ok
      rw [i2] at ok; simp at ok
    case claimAll =>
      exact ⟨i1, i2, r, i3, by simp⟩
    all_goals
      refine ⟨i1, i2, r, i3, fun hc => ?_⟩
      simp only [List.mem_cons, not_or] at hc
      exact i4 hc.2

theorem merge_nil {sent got : List Nat} (h : Merge sent got []) : got = sent := by
  obtain ⟨r, rfl, rfl, h⟩ := h
  have h := (List.map_eq_nil_iff.1 h.symm)
  rw [List.filter_eq_nil_iff] at h
  rw [List.filter_eq_self.2]
  intro a ha
  have := h a ha
  simpa using this

end Verif.Ring.Feed
