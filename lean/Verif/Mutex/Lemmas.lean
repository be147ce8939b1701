import Verif.Mutex.Spec
/-! # Invariants of the mutex: lock and nodes -/
namespace Verif.Mutex

/-- In `unlock`, before the lock is released. -/
def Pc.unl : Pc → Nat
  | .ulLoad | .ulDrain _ | .ulCut _ _ | .ulHead | .ulScan _ | .ulRead _ | .ulStore _ => 1
  | _ => 0

/-- How often a client holds the lock. -/
def own (c : Client) : Nat := c.guards + c.pc.unl

/-- It took the lock in a poll and has to take its node. -/
def Pc.taking : Pc → Bool
  | .p1take _ | .p1read _ => true
  | _ => false

/-- The lock has at most one owner. -/
structure InvO (s : State) : Prop where
  own : ∃ o : Option Nat, s.locked = o.isSome ∧ ∀ p, own (s.client p) = if o = some p then 1 else 0
  tk : ∀ p, (s.client p).pc.taking = true → (s.client p).guards = 1

theorem init_invO : InvO init := ⟨⟨none, rfl, fun p => rfl⟩, by simp [init, Pc.taking]⟩

theorem InvO.uniq {s : State} (i : InvO s) {p q : Nat} (hp : Mutex.own (s.client p) ≠ 0) (hq : Mutex.own (s.client q) ≠ 0) : p = q := by
  obtain ⟨⟨o, -, h⟩, -⟩ := i
  have h1 := h p
  have h2 := h q
  grind

theorem InvO.le {s : State} (i : InvO s) (p : Nat) : Mutex.own (s.client p) ≤ 1 := by
  obtain ⟨⟨o, -, h⟩, -⟩ := i
  have h1 := h p
  grind

theorem InvO.locked {s : State} (i : InvO s) : s.locked = true ↔ ∃ p, Mutex.own (s.client p) = 1 := by
  obtain ⟨⟨o, e, h⟩, -⟩ := i
  cases o with
  | none => simp [e, h]
  | some p => simp [e, h]

theorem InvO.unlocked {s : State} (i : InvO s) (h : s.locked = false) (p : Nat) : Mutex.own (s.client p) = 0 := by
  obtain ⟨⟨o, e, h'⟩, -⟩ := i
  cases o with
  | none => simp [h']
  | some p => simp [e] at h

/-- `upd` at a point. -/
theorem upd_apply {α : Type} (f : Nat → α) (i : Nat) (x : α) (j : Nat) : upd f i x j = if j = i then x else f j := rfl

theorem invO_same {s s' : State} (i : InvO s) (p : Nat) {c : Client} (h1 : s'.locked = s.locked)
    (h2 : s'.client = upd s.client p c) (h3 : own c = own (s.client p)) (h4 : c.pc.taking = true → c.guards = 1) : InvO s' := by
  obtain ⟨⟨o, e, h⟩, hu⟩ := i
  refine ⟨⟨o, h1.trans e, fun q => ?_⟩, fun q => ?_⟩ <;> rw [h2, upd_apply] <;> split
  · subst q; rw [h3, h]
  · exact h q
  · exact h4
  · exact hu q

theorem invO_acq {s s' : State} (i : InvO s) (p : Nat) {c : Client} (h0 : s.locked = false) (h1 : s'.locked = true)
    (h2 : s'.client = upd s.client p c) (h3 : own c = own (s.client p) + 1) (h4 : c.pc.taking = true → c.guards = 1) : InvO s' := by
  obtain ⟨⟨o, e, h⟩, hu⟩ := i
  have : o = none := by cases o <;> simp_all
  subst this
  refine ⟨⟨some p, by simpa using h1, fun q => ?_⟩, fun q => ?_⟩ <;> rw [h2, upd_apply] <;> split
  · subst q; rw [h3, h]; simp
  · rw [h]; grind
  · exact h4
  · exact hu q

theorem invO_rel {s s' : State} (i : InvO s) (p : Nat) {c : Client} (h1 : s'.locked = false)
    (h2 : s'.client = upd s.client p c) (h3 : own c + 1 = own (s.client p)) (h4 : c.pc.taking = true → c.guards = 1) : InvO s' := by
  obtain ⟨⟨o, e, h⟩, hu⟩ := i
  have hp := h p
  have : o = some p := by grind
  subst this
  refine ⟨⟨none, by simpa using h1, fun q => ?_⟩, fun q => ?_⟩ <;> rw [h2, upd_apply] <;> split
  · subst q; simp at hp ⊢; omega
  · rw [h]; grind
  · exact h4
  · exact hu q

theorem call_invO {s : State} (i : InvO s) (p : Nat) (op : Op) : InvO (call s p op) := by
  unfold call
  simp only
  split
  · exact i
  · rename_i hi
    simp only [Classical.not_not] at hi
    cases op <;> simp only <;> (repeat' split) <;>
      first
      | exact i
      | exact invO_same i p rfl rfl (by simp only [own, hi, Pc.unl]; try omega) (by simp [Pc.taking, hi])

/-- Case analysis of a step: `hs : pstep s p = some s'` and `hpc` is the program point. -/
macro "step_cases" : tactic => `(tactic| (
  try simp only [State.goto, State.setC, State.emit, State.setN, acquire, acquirePoll, swapTaken, dropWaker] at $(Lean.mkIdent `hs):ident
  (repeat' split at $(Lean.mkIdent `hs):ident)))

theorem pstep_invO {s s' : State} (i : InvO s) {p : Nat} (hs : pstep s p = some s') : InvO s' := by
  have hu := i.tk p
  have hun : s.locked = false → own (s.client p) = 0 := fun e => i.unlocked e p
  unfold pstep at hs
  simp only at hs
  cases hpc : (s.client p).pc <;> simp only [hpc] at hs <;> simp only [hpc, Pc.taking] at hu <;>
    step_cases <;>
    simp only [Option.some.injEq, reduceCtorEq] at hs <;> (try subst hs) <;>
    first
    | exact i
    | exact invO_same i p rfl rfl (by simp only [own, hpc, Pc.unl]; done) (by simp [Pc.taking, hu])
    | exact invO_acq i p (by simp_all) rfl rfl (by simp only [own, hpc, Pc.unl] <;> omega)
          (by simp [Pc.taking] <;> (have := hun (by simp_all); simp only [own, hpc, Pc.unl] at this; omega))
    | exact invO_rel i p rfl rfl (by simp only [own, hpc, Pc.unl]; done) (by simp [Pc.taking, hu])

end Verif.Mutex
