import Verif.Oneshot.Lemmas
/-! # Schedules of the oneshot channel keep the invariant -/
namespace Verif.Oneshot

open Verif.Spsc

variable {α : Type}

theorem sCall_inv {s : State α} (inv : Inv s) (h : s.spc.isIdle = true) (op : SOp α) : Inv (sCall s op) := by
  obtain ⟨st, data, rxw, txw, freed, spc, rpc, log⟩ := s
  cases spc <;> simp [SPc.isIdle] at h
  unfold Inv at inv
  cases op <;>
  · obtain ⟨half, closed, rtx, sundo, sfail, sbad, rundo, rplain, first1, first2, first3, first3', first4, first5, hfreed,
      rStore, hsWk, hrxw, sStore, htxw, hdata, dOk⟩ := inv
    constructor <;> simp only [sCall, State.emit] at * <;> spc_simp <;> grind

theorem rCall_inv {s : State α} (inv : Inv s) (h : s.rpc.isIdle = true) (op : ROp) : Inv (rCall s op) := by
  obtain ⟨st, data, rxw, txw, freed, spc, rpc, log⟩ := s
  cases rpc <;> simp [RPc.isIdle] at h
  unfold Inv at inv
  cases op <;>
  · obtain ⟨half, closed, rtx, sundo, sfail, sbad, rundo, rplain, first1, first2, first3, first3', first4, first5, hfreed,
      rStore, hsWk, hrxw, sStore, htxw, hdata, dOk⟩ := inv
    constructor <;> simp only [rCall, State.emit] at * <;> rpc_simp <;> grind

/-- Steps keep the invariant unless the object is released under the feet of the
other end. -/
theorem step_inv {s : State α} (inv : Inv s) (ap : Apart s) (a : Act α) :
    ∃ s', step s a = some s' ∧ Inv s' := by
  cases a with
  | sCall op =>
    by_cases h : s.spc.isIdle = true
    · exact ⟨_, if_pos h, sCall_inv inv h op⟩
    · exact ⟨s, by simp [step, h], inv⟩
  | rCall op =>
    by_cases h : s.rpc.isIdle = true
    · exact ⟨_, if_pos h, rCall_inv inv h op⟩
    · exact ⟨s, by simp [step, h], inv⟩
  | sStep => exact sStep_inv inv ap.sender
  | rStep => exact rStep_inv inv ap.receiver

theorem run_inv {s : State α} (inv : Inv s) {acts : List (Act α)} (ap : Always Apart s acts) :
    ∃ s', run s acts = some s' ∧ Inv s' := by
  induction acts generalizing s with
  | nil => exact ⟨s, rfl, inv⟩
  | cons a as ih =>
    obtain ⟨s', h1, h2⟩ := step_inv inv ap.1 a
    obtain ⟨s'', h3, h4⟩ := ih h2 (ap.2 s' h1)
    exact ⟨s'', by simp [run, h1, h3], h4⟩

/-- The object was released while one end was still leaving. -/
def Doomed (s : State α) : Prop :=
  s.freed = true ∧ ((sGone s.spc = true ∧ s.rpc.leaving = true) ∨ (rGone s.rpc = true ∧ s.spc.leaving = true))

/-- Nothing happens any more, or undefined behaviour. -/
theorem Doomed.step {s s' : State α} (d : Doomed s) {a : Act α} (h : step s a = some s') : s' = s := by
  obtain ⟨st, data, rxw, txw, freed, spc, rpc, log⟩ := s
  obtain ⟨d1, d2⟩ := d
  dsimp only at d1 d2
  subst d1
  cases a
  · cases spc <;> simp_all [Verif.Oneshot.step, SPc.isIdle, sGone, SPc.leaving]
  · cases spc <;> simp_all [Verif.Oneshot.step, sStep, SPc.resting, sGone, SPc.leaving]
  · cases rpc <;> simp_all [Verif.Oneshot.step, RPc.isIdle, rGone, RPc.leaving]
  · cases rpc <;> simp_all [Verif.Oneshot.step, rStep, RPc.resting, rGone, RPc.leaving]

/-- Every step keeps the invariant or dooms the state. -/
theorem step_good {s s' : State α} (inv : Inv s) {a : Act α} (h : step s a = some s') : Inv s' ∨ Doomed s' := by
  cases a with
  | sCall op =>
    simp only [step] at h
    split at h <;> simp at h <;> subst h
    · exact .inl (sCall_inv inv (by assumption) op)
    · exact .inl inv
  | rCall op =>
    simp only [step] at h
    split at h <;> simp at h <;> subst h
    · exact .inl (rCall_inv inv (by assumption) op)
    · exact .inl inv
  | sStep =>
    by_cases ap : s.spc.freeing = true → s.rpc.leaving = false
    · obtain ⟨s'', h1, h2⟩ := sStep_inv inv ap
      simp only [step, h1, Option.some.injEq] at h
      exact .inl (h ▸ h2)
    · right
      simp only [Classical.not_imp, Bool.not_eq_false] at ap
      obtain ⟨st, data, rxw, txw, freed, spc, rpc, log⟩ := s
      cases spc <;> simp [SPc.freeing] at ap <;> cases freed <;> simp [step, sStep, SPc.resting, State.release, State.emit] at h <;>
        subst h <;> exact ⟨rfl, .inl ⟨rfl, ap⟩⟩
  | rStep =>
    by_cases ap : s.rpc.freeing = true → s.spc.leaving = false
    · obtain ⟨s'', h1, h2⟩ := rStep_inv inv ap
      simp only [step, h1, Option.some.injEq] at h
      exact .inl (h ▸ h2)
    · right
      simp only [Classical.not_imp, Bool.not_eq_false] at ap
      obtain ⟨st, data, rxw, txw, freed, spc, rpc, log⟩ := s
      cases rpc <;> simp [RPc.freeing] at ap <;> cases freed <;> simp [step, rStep, RPc.resting, State.release, State.emit] at h <;>
        subst h <;> exact ⟨rfl, .inr ⟨rfl, ap⟩⟩

/-- Induction over schedules without undefined behaviour. -/
theorem run_ind {P : State α → Prop} (hP : ∀ s a s', Inv s → P s → step s a = some s' → P s')
    {s s' : State α} {acts : List (Act α)} (g : Inv s ∨ Doomed s) (p : P s) (h : run s acts = some s') :
    (Inv s' ∨ Doomed s') ∧ P s' := by
  induction acts generalizing s with
  | nil => simp [run] at h; subst h; exact ⟨g, p⟩
  | cons a as ih =>
    simp only [run] at h
    split at h
    · simp at h
    · rename_i s1 h1
      rcases g with inv | d
      · exact ih (step_good inv h1) (hP _ _ _ inv p h1) h
      · obtain rfl := d.step h1
        exact ih (.inr d) p h

end Verif.Oneshot
