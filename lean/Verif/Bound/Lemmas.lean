import Verif.Bound.Spec
/-! # Potentials -/
namespace Verif.Bound
open Verif.Atomic.Refine

variable {S A W : Type}

/-- A potential that every own access uses up, and that only excused steps raise. -/
theorem within_of_potential (P : Prog S A) (I : S → Prop) (φ : S → Nat)
    (hI : ∀ s a s', I s → P.step s a = some s' → I s')
    (h0 : ∀ s, I s → P.busy s = true → 0 < φ s)
    (h1 : ∀ s a s', I s → P.busy s = true → P.step s a = some s' →
      φ s' + (if P.own s a then 1 else 0) ≤ φ s + P.excuse s a s') :
    ∀ s, I s → P.Within s (φ s) := by
  intro s hs as s' hr hn
  induction as generalizing s with
  | nil =>
    refine ⟨[], [], s, rfl, rfl, ?_⟩
    cases hb : P.busy s with
    | false => rfl
    | true =>
      have := h0 s hs hb
      simp only [Prog.excuses, Prog.accesses] at hn
      omega
  | cons a as ih =>
    cases hb : P.busy s with
    | false => exact ⟨[], a :: as, s, rfl, rfl, hb⟩
    | true =>
      cases hst : P.step s a with
      | none => simp [Prog.run, hst] at hr
      | some s₁ =>
        simp only [Prog.run, hst] at hr
        simp only [Prog.excuses, Prog.accesses, hst] at hn
        have h := h1 s a s₁ hs hb hst
        obtain ⟨bs, cs, s₂, e1, e2, e3⟩ := ih s₁ (hI s a s₁ hs hst) hr (by omega)
        exact ⟨a :: bs, cs, s₂, by rw [e1]; rfl, by simp only [Prog.run, hst]; exact e2, e3⟩

theorem Prog.Within.mono {P : Prog S A} {s : S} {n m : Nat} (h : P.Within s n) (hnm : n ≤ m) : P.Within s m :=
  fun as s' hr hn => h as s' hr (by omega)

/-- The cost of the next access, when an update costs `u`. -/
def cost (M : Machine S A W) (a₀ : A) (u : Nat) (s : S) : Nat := if (M.update s a₀).isSome then u else 1

/-- What the model has to satisfy for the context `c` with next access `a₀`; `rank u s` bounds
the cost of the rest of the call. -/
structure Ctx (M : Machine S A W) (c : Nat) (a₀ : A) (own : A → Bool) (busy : S → Bool) (I : S → Prop)
    (rank : Nat → S → Nat) : Prop where
  own : ∀ a, own a = true ↔ a = a₀
  ctx : ∀ s, M.ctx s a₀ = c
  total : ∀ s a f w, M.update s a = some f → f w ≠ none
  inv : ∀ s a s', I s → M.step s a = some s' → I s'
  pos : ∀ u s, I s → busy s = true → cost M a₀ u s ≤ rank u s
  dec : ∀ u s s', I s → busy s = true → M.step s a₀ = some s' → rank u s' + cost M a₀ u s ≤ rank u s
  mine : ∀ s a, busy s = true → a ≠ a₀ → M.ctx s a = c → M.step s a = some s ∧ M.update s a = none
  other : ∀ s a s', M.ctx s a ≠ c → M.step s a = some s' →
    (∀ u, rank u s' ≤ rank u s) ∧ (M.update s' a₀).isSome = (M.update s a₀).isSome

variable {M : Machine S A W} {c : Nat} {a₀ : A} {own : A → Bool} {busy : S → Bool} {I : S → Prop} {rank : Nat → S → Nat}

/-- Updates in critical sections. -/
theorem Ctx.sections (h : Ctx M c a₀ own busy I rank) {s : S} (hs : I s) : (sections M.step own busy).Within s (rank 1 s) := by
  have c1 : ∀ s, cost M a₀ 1 s = 1 := fun s => by unfold cost; split <;> rfl
  refine within_of_potential _ I (rank 1) h.inv (fun s hs hb => ?_) (fun s a s' hs hb hst => ?_) s hs
  · have := h.pos 1 s hs hb
    rw [c1] at this
    exact this
  · simp only [Bound.sections] at *
    by_cases ha : own a = true
    · rw [(h.own a).1 ha] at hst
      have := h.dec 1 s s' hs hb hst
      rw [c1] at this
      simp only [ha, if_true]
      omega
    · simp only [ha]
      by_cases hc : M.ctx s a = c
      · have := (h.mine s a hb (fun e => ha ((h.own a).2 e)) hc).1
        rw [this] at hst
        cases hst
        simp
      · have := (h.other s a s' hc hst).1 1
        simpa using this

/-- The context has read the word, and it has not changed since. -/
def fresh [DecidableEq W] (M : Machine S A W) (c : Nat) (a₀ : A) (x : Fine S W) : Nat :=
  if (M.update x.s a₀).isSome = true ∧ x.old c = some (M.cell x.s a₀) then 1 else 0

theorem fresh_le [DecidableEq W] (x : Fine S W) : fresh M c a₀ x ≤ 1 := by unfold fresh; split <;> omega

theorem setOld_self (old : Nat → Option W) (c : Nat) (o : Option W) : setOld old c o c = o := by simp [setOld]
theorem setOld_ne (old : Nat → Option W) {c d : Nat} (h : d ≠ c) (o : Option W) : setOld old c o d = old d := by simp [setOld, h]

/-- Compare-exchange loops. -/
theorem Ctx.loops [DecidableEq W] (hM : M.Lawful) (h : Ctx M c a₀ own busy I rank) {x : Fine S W} (hx : I x.s) :
    (loops M a₀ own busy).Within x (rank 2 x.s) := by
  refine Prog.Within.mono (within_of_potential _ (fun x => I x.s) (fun x => rank 2 x.s - fresh M c a₀ x)
    (fun x a y hx hst => ?_) (fun x hx hb => ?_) (fun x a y hx hb hst => ?_) x hx) (by omega)
  · rcases fineStep_sim hM x a with ⟨old, e⟩ | e
    · have : some y = some ⟨x.s, old⟩ := hst.symm.trans e
      cases this
      exact hx
    · have hst' : fineStep M x a = some y := hst
      rw [hst'] at e
      exact h.inv x.s _ y.s hx e.symm
  · have := h.pos 2 x.s hx hb
    unfold cost at this
    unfold fresh
    split at this <;> split <;> simp_all <;> omega
  · simp only [Bound.loops] at *
    have hpos := h.pos 2 x.s hx hb
    have hfy := fresh_le (M := M) (c := c) (a₀ := a₀) y
    have hfx := fresh_le (M := M) (c := c) (a₀ := a₀) x
    cases a with
    | hold a o =>
      simp only [Bool.false_eq_true, if_false, Nat.add_zero]
      simp only [fineStep] at hst
      have key : y.s = x.s ∧ (y.old c = x.old c ∨ x.old c = none) := by
        cases hu : M.update x.s a with
        | none => simp only [hu, Option.some.injEq] at hst; subst hst; simp
        | some f =>
          simp only [hu] at hst
          split at hst
          · rename_i ho _
            cases hst
            refine ⟨rfl, ?_⟩
            by_cases hc : c = M.ctx x.s a
            · right; rw [hc]; exact ho
            · left; exact setOld_ne _ hc _
          · cases hst; simp
      have : fresh M c a₀ x ≤ fresh M c a₀ y := by
        unfold fresh
        rw [key.1]
        rcases key.2 with e | e <;> rw [e] <;> simp
      rw [key.1]
      omega
    | go a sp =>
      simp only
      by_cases ha : own a = true
      · have e := (h.own a).1 ha
        subst e
        simp only [ha, if_true]
        simp only [fineStep] at hst
        cases hu : M.update x.s a with
        | none =>
          simp only [hu] at hst
          have hc : cost M a 2 x.s = 1 := by simp [cost, hu]
          have hf : fresh M c a x = 0 := by simp [fresh, hu]
          cases hs : M.step x.s a with
          | none => simp [hs] at hst
          | some s' =>
            simp only [hs, Option.some.injEq] at hst
            subst hst
            have := h.dec 2 x.s s' hx hb hs
            simp only
            omega
        | some f =>
          have hc : cost M a 2 x.s = 2 := by simp [cost, hu]
          have htot := h.total x.s a f
          simp only [hu] at hst
          by_cases hl : M.live x.s a = true
          · simp only [hl, if_true, h.ctx] at hst
            have hread : ∀ y, afterRead M x a f (M.cell x.s a) = some y → rank 2 y.s - fresh M c a y + 1 ≤ rank 2 x.s := by
              intro y hy
              unfold afterRead at hy
              cases hw : f (M.cell x.s a) with
              | none => exact absurd hw (htot _ hu)
              | some w =>
                simp only [hw, Option.some.injEq, h.ctx] at hy
                subst hy
                have : fresh M c a ⟨x.s, setOld x.old c (some (M.cell x.s a))⟩ = 1 := by
                  simp [fresh, hu, setOld_self]
                rw [this]
                simp only
                omega
            cases ho : x.old c with
            | none =>
              simp only [ho] at hst
              have := hread y hst
              have hf : fresh M c a x = 0 := by simp [fresh, ho]
              split <;> omega
            | some o =>
              simp only [ho] at hst
              cases hw : f o with
              | none => exact absurd hw (htot _ hu)
              | some w =>
                simp only [hw] at hst
                by_cases hcell : M.cell x.s a = o
                · by_cases hsp : sp = true
                  · subst hsp
                    rw [if_neg (by simp)] at hst
                    have := hread y hst
                    simp only [if_true]
                    omega
                  · rw [if_pos ⟨hcell, by simpa using hsp⟩] at hst
                    have hstep : M.step x.s a = M.after (M.store x.s a w) a o := by
                      rw [hM x.s a f hu, Machine.atomicStep, if_pos hl, hcell, hw]
                    cases haf : M.after (M.store x.s a w) a o with
                    | none => simp [haf] at hst
                    | some s' =>
                      simp only [haf, Option.some.injEq] at hst
                      have := h.dec 2 x.s s' hx hb (hstep.trans haf)
                      subst hst
                      simp only
                      split <;> omega
                · rw [if_neg (by simp [hcell])] at hst
                  have := hread y hst
                  have hf : fresh M c a x = 0 := by
                    simp only [fresh, ho, Option.some.injEq]
                    rw [if_neg]
                    exact fun hh => hcell hh.2.symm
                  split <;> omega
          · simp [hl] at hst
      · simp only [ha, Bool.false_eq_true, if_false, Nat.add_zero]
        have hne : a ≠ a₀ := fun e => ha ((h.own a).2 e)
        by_cases hc : M.ctx x.s a = c
        · obtain ⟨e1, e2⟩ := h.mine x.s a hb hne hc
          simp only [fineStep, e2, e1, Option.some.injEq] at hst
          subst hst
          exact Nat.le_add_right _ _
        · -- another context
          have hold : y.old c = x.old c := by
            have hcc : c ≠ M.ctx x.s a := fun e => hc e.symm
            have hread : ∀ f o y, afterRead M x a f o = some y → y.old c = x.old c := by
              intro f o y hy
              unfold afterRead at hy
              split at hy
              · cases hy; exact setOld_ne _ hcc _
              · split at hy
                · cases hy
                · cases hy; exact setOld_ne _ hcc _
            simp only [fineStep] at hst
            split at hst
            · split at hst
              · cases hst
              · cases hst; rfl
            · split at hst
              · split at hst
                · exact hread _ _ y hst
                · split at hst
                  · cases hst; rfl
                  · split at hst
                    · split at hst
                      · cases hst
                      · cases hst; exact setOld_ne _ hcc _
                    · exact hread _ _ y hst
              · cases hst
          have hs : (rank 2 y.s ≤ rank 2 x.s) ∧ (M.update y.s a₀).isSome = (M.update x.s a₀).isSome := by
            rcases fineStep_sim hM x (.go a sp) with ⟨old, e⟩ | e
            · rw [hst] at e
              cases e
              exact ⟨Nat.le_refl _, rfl⟩
            · rw [hst] at e
              have := h.other x.s a y.s hc e.symm
              exact ⟨this.1 2, this.2⟩
          by_cases hcell : M.cell x.s a₀ = M.cell y.s a₀
          · have : fresh M c a₀ y = fresh M c a₀ x := by unfold fresh; rw [hs.2, hold, hcell]
            simp only [hcell, or_true, if_true]
            omega
          · simp only [hcell, or_false, h.ctx]
            have hold0 : x.old c = none → fresh M c a₀ x = 0 := fun e => by simp [fresh, e]
            have hold1 : x.old c = none → fresh M c a₀ y = 0 := fun e => by simp [fresh, hold, e]
            have hp2 : fresh M c a₀ x ≤ rank 2 x.s := by
              unfold fresh
              unfold cost at hpos
              split <;> simp_all <;> omega
            split
            · rename_i e
              rw [hold0 e, hold1 e]
              omega
            · omega

end Verif.Bound
