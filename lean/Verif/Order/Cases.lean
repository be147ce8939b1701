import Verif.Order.Machine
/-! # The shapes of a step of a machine -/
namespace Verif.Order

/-- The shapes of a step. -/
theorem pstep_cases {S W A : Type} {M : Machine S W A} {p p' : PState S W} {t k : Nat} (hs : M.pstep p (.step t k) = some p') :
    p' = p ∨
    (∃ l a v s', M.acc t p.s = some (.load l a) ∧ p.seen t l ≤ k ∧ (p.hist l)[k]? = some v ∧ M.step t (M.setWord p.s l v) = some s' ∧
      p' = ⟨M.setWord s' l (M.word p.s l), p.hist, upd p.seen t (upd (p.seen t) l k), p.tr ++ [⟨t, l, .load a k⟩]⟩) ∨
    (∃ l b s', M.acc t p.s = some (.rmw l b) ∧ M.step t p.s = some s' ∧
      p' = ⟨s', upd p.hist l (p.hist l ++ [M.word s' l]), upd p.seen t (upd (p.seen t) l (p.hist l).length),
        p.tr ++ [⟨t, l, .rmw b.acq b.rel⟩]⟩) ∨
    (∃ l b, M.acc t p.s = some (.store l b)) ∨
    (∃ l k s', M.acc t p.s = some (.other l k) ∧ M.step t p.s = some s' ∧ p' = ⟨s', p.hist, p.seen, p.tr ++ [⟨t, l, k⟩]⟩) := by
  simp only [Machine.pstep] at hs
  match ha : M.acc t p.s with
  | none => simp only [ha, Machine.go, Option.some.injEq] at hs; exact .inl hs.symm
  | some (.load l a) =>
    simp only [ha, Machine.go] at hs
    split at hs
    · rename_i hk
      split at hs
      · exact .inl (Option.some.inj hs).symm
      · rename_i v hv
        split at hs
        · cases hs
        · rename_i s' hst
          exact .inr (.inl ⟨l, a, v, s', rfl, hk, hv, hst, (Option.some.inj hs).symm⟩)
    · exact .inl (Option.some.inj hs).symm
  | some (.rmw l b) =>
    simp only [ha, Machine.go] at hs
    split at hs
    · cases hs
    · rename_i s' hst
      exact .inr (.inr (.inl ⟨l, b, s', rfl, hst, (Option.some.inj hs).symm⟩))
  | some (.store l b) => exact .inr (.inr (.inr (.inl ⟨l, b, rfl⟩)))
  | some (.other l k) =>
    simp only [ha, Machine.go] at hs
    split at hs
    · cases hs
    · rename_i s' hst
      exact .inr (.inr (.inr (.inr ⟨l, k, s', rfl, hst, (Option.some.inj hs).symm⟩)))

end Verif.Order
