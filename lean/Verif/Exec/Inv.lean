import Verif.Exec.Lemmas
/-! # The invariant of futures run by software threads -/
namespace Verif.Exec
open Verif.Soft (upd Frame InvA InvI)

/-- All invariants. -/
structure Good (count : Nat) (s : State) : Prop where
  a : InvA count s.soft
  o : NoOther s.soft
  i : Inv count s

theorem init_good (count : Nat) {prio : Nat → Nat} (hp : ∀ t, prio t < 27) (fired : Nat → Nat → Bool) : Good count (init prio fired) :=
  ⟨Soft.init_invA count hp, by simp [NoOther, init, Soft.init], init_inv count prio fired⟩

theorem noOther_push {s : Soft.State} (o : NoOther s) {t : Nat} : NoOther { s with stack := .req t .load :: s.stack } := by
  intro f hf
  rcases List.mem_cons.1 hf with rfl | hf
  · exact ⟨by simp, by simp⟩
  · exact o f hf

theorem advance_other (count : Nat) (r : Soft.Row) (thr : Nat) (cell bit : Soft.U32) :
    (∀ u q, Soft.advance count r thr cell bit ≠ .clear u q) ∧ (∀ u c, Soft.advance count r thr cell bit ≠ .plain u c) := by
  unfold Soft.advance
  split
  · exact ⟨by simp, by simp⟩
  · split <;> exact ⟨by simp, by simp⟩

theorem frameStep_other {count : Nat} {s s' : Soft.State} {f : Frame} {rest : List Frame} (o : NoOther s) (hst : s.stack = f :: rest)
    (h : Soft.frameStep count s rest f = some s') : NoOther s' := by
  have hr : ∀ g ∈ rest, (∀ u q, g ≠ .clear u q) ∧ (∀ u c, g ≠ .plain u c) := fun g hg => o g (by rw [hst]; simp [hg])
  have top : ∀ g : Frame, ((∀ u q, g ≠ .clear u q) ∧ (∀ u c, g ≠ .plain u c)) → ∀ x ∈ g :: rest, (∀ u q, x ≠ .clear u q) ∧ (∀ u c, x ≠ .plain u c) := by
    intro g hg x hx
    rcases List.mem_cons.1 hx with rfl | hx
    · exact hg
    · exact hr x hx
  cases f with
  | req thr pc =>
    cases pc <;> simp only [Soft.frameStep] at h
    · simp only [Option.some.injEq] at h; subst h; exact top _ ⟨by simp, by simp⟩
    · split at h
      · simp only [Option.some.injEq] at h; subst h
        unfold NoOther
        dsimp only
        split
        · exact top _ ⟨by simp, by simp⟩
        · exact hr
      · simp at h
    · simp only [Option.some.injEq] at h; subst h
      unfold NoOther
      dsimp only
      split
      · exact top _ ⟨by simp, by simp⟩
      · exact hr
  | start =>
    simp only [Soft.frameStep] at h
    split at h <;> (simp only [Option.some.injEq] at h; subst h)
    · exact hr
    · exact top _ ⟨by simp, by simp⟩
  | row r pc =>
    cases pc <;> simp only [Soft.frameStep] at h
    · split at h
      · split at h
        · split at h
          · simp only [Option.some.injEq] at h; subst h
            unfold NoOther
            dsimp only
            split <;> exact top _ ⟨by simp, by simp⟩
          · simp at h
        · simp only [Option.some.injEq] at h; subst h; exact top _ ⟨by simp, by simp⟩
      · simp at h
    · split at h
      · split at h
        · simp only [Option.some.injEq] at h; subst h; exact top _ ⟨by simp, by simp⟩
        · simp at h
      · simp only [Option.some.injEq] at h; subst h; exact top _ (advance_other ..)
    · split at h <;> (simp only [Option.some.injEq] at h; subst h)
      · exact top _ ⟨by simp, by simp⟩
      · exact top _ (advance_other ..)
    · simp only [Option.some.injEq] at h
      subst h
      unfold NoOther
      dsimp only
      split
      · exact hr
      · split <;> exact top _ ⟨by simp, by simp⟩
  | clear thr q => exact absurd rfl ((o _ (by rw [hst]; simp)).1 thr q)
  | plain thr c => exact absurd rfl ((o _ (by rw [hst]; simp)).2 thr c)

/-- A wake of thread `t` while the other parts stay. -/
theorem inv_push {count : Nat} {s : State} (i : Inv count s) (g : Frame) :
    Inv count { s with soft := { s.soft with stack := g :: s.soft.stack } } := by
  obtain ⟨i1, i2, i3, i4, i5, i6, i7, i8⟩ := i
  refine ⟨i1, ?_, i3, i4, i5, i6, i7, ?_⟩
  · intro k hk hl hd
    rcases i2 k hk hl hd with h | h | h
    · exact .inl h
    · exact .inr (.inl h)
    · exact .inr (.inr (due_push h))
  · intro t ht
    obtain ⟨f, hf, h⟩ := i8 t ht
    exact ⟨f, by simp [hf], h⟩

/-- A new task that is not started, or whose thread is due. -/
theorem inv_new {count : Nat} {s : State} (i : Inv count s) {thr len : Nat} {live : Bool} (ht : thr < count)
    (hl : live = true → Due s.soft thr) : Inv count (s.push thr len live) := by
  obtain ⟨i1, i2, i3, i4, i5, i6, i7, i8⟩ := i
  have new : (s.push thr len live).task s.made = ⟨thr, len, 0, live, false⟩ := by simp [State.push, upd]
  have old : ∀ k, k ≠ s.made → (s.push thr len live).task k = s.task k := by intro k hk; simp [State.push, upd, hk]
  have lt : ∀ k, k < s.made + 1 → k ≠ s.made → k < s.made := by intro k h1 h2; omega
  refine ⟨?_, ?_, ?_, ?_, ?_, ?_, i7, i8⟩
  · intro k hk
    by_cases e : k = s.made
    · subst e; rw [new]; exact ht
    · rw [old k e]; exact i1 k (lt k hk e)
  · intro k hk
    by_cases e : k = s.made
    · subst e; rw [new]; intro h1 h2
      exact .inr (.inr (hl h1))
    · rw [old k e]; exact i2 k (lt k hk e)
  · intro k hk
    by_cases e : k = s.made
    · subst e; rw [new]; exact ⟨Nat.zero_le _, fun i hi => absurd hi (Nat.not_lt_zero i)⟩
    · rw [old k e]; exact i3 k (lt k hk e)
  · intro k hk
    by_cases e : k = s.made
    · subst e; rw [new]; intro h; simp at h
    · rw [old k e]; exact i4 k (lt k hk e)
  · intro k i t h
    obtain ⟨h1, h2⟩ := i5 k i t h
    refine ⟨Nat.lt_succ_of_lt h1, ?_⟩
    rw [old k (by omega)]; exact h2
  · intro t k h
    obtain ⟨h1, h2⟩ := i6 t k h
    refine ⟨Nat.lt_succ_of_lt h1, ?_⟩
    rw [old k (by omega)]; exact h2

theorem inv_fire {count : Nat} {s : State} (i : Inv count s) {k i₀ : Nat} (h : s.waker k i₀ = none) :
    Inv count { s with fired := upd2 s.fired k i₀ true } := by
  obtain ⟨i1, i2, i3, i4, i5, i6, i7, i8⟩ := i
  refine ⟨i1, ?_, ?_, i4, i5, i6, i7, i8⟩
  · intro q hq hl hd
    rcases i2 q hq hl hd with ⟨a, b, c⟩ | hh
    · left
      refine ⟨a, ?_, c⟩
      have : ¬ (q = k ∧ (s.task q).pos = i₀) := by
        rintro ⟨rfl, rfl⟩
        rw [h] at c; simp at c
      simp only [upd2, this, ↓reduceIte]; exact b
    · exact .inr hh
  · intro q hq
    refine ⟨(i3 q hq).1, ?_⟩
    intro j hj
    simp only [upd2]
    split
    · rfl
    · exact (i3 q hq).2 j hj

theorem inv_wake {count : Nat} {s : State} (i : Inv count s) {k i₀ t : Nat} (h : s.waker k i₀ = some t) :
    Inv count { s with fired := upd2 s.fired k i₀ true, waker := upd2 s.waker k i₀ none, soft := { s.soft with stack := .req t .load :: s.soft.stack } } := by
  obtain ⟨hk0, ht0⟩ := i.wak k i₀ t h
  obtain ⟨i1, i2, i3, i4, i5, i6, i7, i8⟩ := inv_push i (.req t .load)
  refine ⟨i1, ?_, ?_, i4, ?_, i6, i7, i8⟩
  · intro q hq hl hd
    by_cases e : q = k ∧ (s.task q).pos = i₀
    · obtain ⟨rfl, rfl⟩ := e
      refine .inr (.inr ?_)
      dsimp only
      rw [← ht0]
      exact due_pend
    · rcases i2 q hq hl hd with ⟨a, b, c⟩ | hh
      · left
        refine ⟨a, ?_, ?_⟩
        · simp only [upd2, e, ↓reduceIte]; exact b
        · simp only [upd2, e, ↓reduceIte]; exact c
      · exact .inr hh
  · intro q hq
    refine ⟨(i3 q hq).1, ?_⟩
    intro j hj
    simp only [upd2]
    split
    · rfl
    · exact (i3 q hq).2 j hj
  · intro q j u hu
    simp only [upd2] at hu
    split at hu
    · simp at hu
    · exact i5 q j u hu

theorem step_good {count : Nat} (hc : count ≤ 32) {s s' : State} {a : Act} (g : Good count s) (h : step count s a = some s') : Good count s' := by
  obtain ⟨ia, io, i⟩ := g
  cases a with
  | step =>
    simp only [step] at h
    cases hs : Soft.step count s.soft .step with
    | none => rw [hs] at h; simp at h
    | some soft =>
      rw [hs] at h
      have ia' := Soft.step_invA hc ia hs
      simp only [Soft.step] at hs
      cases hst : s.soft.stack with
      | nil =>
        rw [hst] at hs h
        simp only [Option.some.injEq] at hs
        subst hs
        simp only [entering, Option.some.injEq] at h
        subst h
        exact ⟨ia, io, i⟩
      | cons f rest =>
        rw [hst] at hs h
        simp only at hs
        have io' := frameStep_other io hst hs
        have hnc := (io f (by rw [hst]; simp)).1
        obtain ⟨i1, i2, i3, i4, i5, i6, i7, i8⟩ := i
        -- a body that is in the stack stays there
        have bod : ∀ t, s.queue t ≠ [] → ∃ f ∈ soft.stack, inside [f] = some t := by
          intro t ht
          obtain ⟨x, hx, hin⟩ := i8 t ht
          rw [hst] at hx
          rcases List.mem_cons.1 hx with rfl | hx
          · exact ⟨x, by rw [frameStep_inside hs hin]; simp, hin⟩
          · rcases Soft.frameStep_stack hs with e | ⟨y, e⟩
            · exact ⟨x, by rw [e]; exact hx, hin⟩
            · exact ⟨x, by rw [e]; simp [hx], hin⟩
        rw [entering_cons] at h
        cases he : entering [f] with
        | none =>
          rw [he] at h
          simp only [Option.some.injEq] at h
          subst h
          refine ⟨ia', io', i1, ?_, i3, i4, i5, i6, i7, bod⟩
          intro k hk hl hd
          rcases i2 k hk hl hd with h | h | h
          · exact .inl h
          · exact .inr (.inl h)
          · rcases frameStep_due hc ia (i1 k hk) hst hs hnc h with h | h
            · exact .inr (.inr h)
            · rw [he] at h; simp at h
        | some t =>
          rw [he] at h
          simp only [Option.some.injEq] at h
          subst h
          have hbody : ∃ f ∈ soft.stack, inside [f] = some t := by
            cases f with
            | row r pc =>
              cases pc with
              | call thr cell bit c =>
                cases c with
                | store p =>
                  simp only [entering, Option.some.injEq] at he
                  subst he
                  simp only [Soft.frameStep, Soft.callStep, Option.some.injEq] at hs
                  subst hs
                  exact ⟨_, List.mem_cons_self .., rfl⟩
                | _ => simp [entering] at he
              | _ => simp [entering] at he
            | _ => simp [entering] at he
          refine ⟨ia', io', i1, ?_, i3, i4, i5, ?_, ?_, ?_⟩
          · intro k hk hl hd
            by_cases e : (s.task k).thr = t
            · refine .inr (.inl ?_)
              simp only [upd, e, ↓reduceIte]
              exact chain_mem.2 ⟨hk, e, hd⟩
            · rcases i2 k hk hl hd with h | h | h
              · exact .inl h
              · refine .inr (.inl ?_)
                simp only [upd, e, ↓reduceIte]; exact h
              · rcases frameStep_due hc ia (i1 k hk) hst hs hnc h with h | h
                · exact .inr (.inr h)
                · rw [he] at h; simp only [Option.some.injEq] at h; exact absurd h.symm e
          · intro u k hk
            simp only [upd] at hk
            split at hk
            · rename_i e
              subst e
              exact chain_mem.1 hk
            · exact i6 u k hk
          · intro u
            simp only [upd]
            split
            · exact chain_nodup s t
            · exact i7 u
          · intro u hu
            simp only [upd] at hu
            split at hu
            · rename_i e; subst e; exact hbody
            · exact bod u hu
  | poll =>
    simp only [step] at h
    cases hin : inside s.soft.stack with
    | none => rw [hin] at h; simp only [Option.some.injEq] at h; subst h; exact ⟨ia, io, i⟩
    | some t =>
      rw [hin] at h
      simp only at h
      cases hq : s.queue t with
      | nil => rw [hq] at h; simp only [Option.some.injEq] at h; subst h; exact ⟨ia, io, i⟩
      | cons k ks =>
        rw [hq] at h
        simp only at h
        obtain ⟨i1, i2, i3, i4, i5, i6, i7, i8⟩ := i
        obtain ⟨hk, hkt, hkd⟩ := i6 t k (by rw [hq]; simp)
        have hnd := i7 t
        rw [hq, List.nodup_cons] at hnd
        rw [if_neg (by rw [hkd]; simp)] at h
        have ne_t : ∀ q, q < s.made → q ≠ k → q ∈ s.queue (s.task q).thr → q ∈ upd s.queue t ks (s.task q).thr := by
          intro q hqm hqk hmem
          simp only [upd]
          split
          · rename_i e
            rw [e, hq] at hmem
            rcases List.mem_cons.1 hmem with h | h
            · exact absurd h hqk
            · exact h
          · exact hmem
        have que' : ∀ u q, q ∈ upd s.queue t ks u → q ∈ s.queue u ∧ q ≠ k := by
          intro u q hx
          simp only [upd] at hx
          split at hx
          · rename_i e
            rw [e, hq]
            exact ⟨by simp [hx], fun e => hnd.1 (e ▸ hx)⟩
          · rename_i e
            refine ⟨hx, fun e' => e ?_⟩
            rw [e'] at hx
            have := (i6 u k hx).2.1
            rw [hkt] at this; exact this.symm
        have nod' : ∀ u, (upd s.queue t ks u).Nodup := by
          intro u
          simp only [upd]
          split
          · exact hnd.2
          · exact i7 u
        have bod' : ∀ u, upd s.queue t ks u ≠ [] → ∃ f ∈ s.soft.stack, inside [f] = some u := by
          intro u hu
          simp only [upd] at hu
          split at hu
          · rename_i e
            rw [e]
            exact i8 t (by rw [hq]; simp)
          · exact i8 u hu
        by_cases hlen : (s.task k).pos = (s.task k).len
        · rw [if_pos hlen] at h
          simp only [Option.some.injEq] at h
          subst h
          have new : ∀ q, q ≠ k → upd s.task k { s.task k with live := true, done := true } q = s.task q := by intro q hq; simp [upd, hq]
          refine ⟨ia, io, ?_, ?_, ?_, ?_, ?_, ?_, nod', bod'⟩
          · intro q hq
            by_cases e : q = k
            · subst e; simp only [upd, ↓reduceIte]; exact i1 q hq
            · dsimp only; rw [new q e]; exact i1 q hq
          · intro q hqm
            by_cases e : q = k
            · subst e; simp [upd]
            · dsimp only; rw [new q e]
              intro hl hd
              rcases i2 q hqm hl hd with h | h | h
              · exact .inl h
              · exact .inr (.inl (ne_t q hqm e h))
              · exact .inr (.inr h)
          · intro q hq
            by_cases e : q = k
            · subst e; simp only [upd, ↓reduceIte]; exact i3 q hq
            · dsimp only; rw [new q e]; exact i3 q hq
          · intro q hq
            by_cases e : q = k
            · subst e; simp only [upd, ↓reduceIte]; exact fun _ => hlen
            · dsimp only; rw [new q e]; exact i4 q hq
          · intro q j u hu
            obtain ⟨x, y⟩ := i5 q j u hu
            refine ⟨x, ?_⟩
            by_cases e : q = k
            · subst e; simp only [upd, ↓reduceIte]; exact y
            · dsimp only; rw [new q e]; exact y
          · intro u q hmem
            obtain ⟨x, y⟩ := que' u q hmem
            dsimp only; rw [new q y]; exact i6 u q x
        · rw [if_neg hlen] at h
          by_cases hf : s.fired k (s.task k).pos = true
          · rw [if_pos hf] at h
            simp only [Option.some.injEq] at h
            subst h
            have new : ∀ q, q ≠ k → upd s.task k { s.task k with live := true, pos := (s.task k).pos + 1 } q = s.task q := by intro q hq; simp [upd, hq]
            refine ⟨ia, io, ?_, ?_, ?_, ?_, ?_, ?_, i7, i8⟩
            · intro q hq
              by_cases e : q = k
              · subst e; simp only [upd, ↓reduceIte]; exact i1 q hq
              · dsimp only; rw [new q e]; exact i1 q hq
            · intro q hqm
              by_cases e : q = k
              · subst e; simp only [upd, ↓reduceIte]
                intro _ _
                exact .inr (.inl (by rw [hkt, hq]; simp))
              · dsimp only; rw [new q e]; exact i2 q hqm
            · intro q hqm
              by_cases e : q = k
              · subst e; simp only [upd, ↓reduceIte]
                have := i3 q hqm
                refine ⟨by omega, ?_⟩
                intro j hj
                by_cases e : j = (s.task q).pos
                · rw [e]; exact hf
                · exact this.2 j (by omega)
              · dsimp only; rw [new q e]; exact i3 q hqm
            · intro q hqm
              by_cases e : q = k
              · subst e; simp only [upd, ↓reduceIte]
                rw [hkd]; simp
              · dsimp only; rw [new q e]; exact i4 q hqm
            · intro q j u hu
              obtain ⟨x, y⟩ := i5 q j u hu
              refine ⟨x, ?_⟩
              by_cases e : q = k
              · subst e; simp only [upd, ↓reduceIte]; exact y
              · dsimp only; rw [new q e]; exact y
            · intro u q hmem
              obtain ⟨x, y⟩ := i6 u q hmem
              refine ⟨x, ?_⟩
              by_cases e : q = k
              · subst e; simp only [upd, ↓reduceIte]; exact y
              · dsimp only; rw [new q e]; exact y
          · rw [if_neg hf] at h
            simp only [Option.some.injEq] at h
            subst h
            have new : ∀ q, q ≠ k → upd s.task k { s.task k with live := true } q = s.task q := by intro q hq; simp [upd, hq]
            refine ⟨ia, io, ?_, ?_, ?_, ?_, ?_, ?_, nod', bod'⟩
            · intro q hq
              by_cases e : q = k
              · subst e; simp only [upd, ↓reduceIte]; exact i1 q hq
              · dsimp only; rw [new q e]; exact i1 q hq
            · intro q hqm
              by_cases e : q = k
              · subst e; simp only [upd, ↓reduceIte]
                intro _ _
                left
                refine ⟨?_, by simpa using hf, by simp [upd2]⟩
                have := (i3 q hqm).1
                omega
              · dsimp only; rw [new q e]
                intro hl hd
                rcases i2 q hqm hl hd with h | h | h
                · left
                  refine ⟨h.1, h.2.1, ?_⟩
                  simp only [upd2, e, false_and, ↓reduceIte]
                  exact h.2.2
                · exact .inr (.inl (ne_t q hqm e h))
                · exact .inr (.inr h)
            · intro q hqm
              by_cases e : q = k
              · subst e; simp only [upd, ↓reduceIte]; exact i3 q hqm
              · dsimp only; rw [new q e]; exact i3 q hqm
            · intro q hqm
              by_cases e : q = k
              · subst e; simp only [upd, ↓reduceIte]; exact i4 q hqm
              · dsimp only; rw [new q e]; exact i4 q hqm
            · intro q j u hu
              have hx : q < s.made ∧ u = (s.task q).thr := by
                simp only [upd2] at hu
                split at hu
                · rename_i e
                  obtain ⟨rfl, rfl⟩ := e
                  simp only [Option.some.injEq] at hu
                  exact ⟨hk, hu.symm⟩
                · exact i5 q j u hu
              refine ⟨hx.1, ?_⟩
              by_cases e : q = k
              · subst e; simp only [upd, ↓reduceIte]; exact hx.2
              · dsimp only; rw [new q e]; exact hx.2
            · intro u q hmem
              obtain ⟨x, y⟩ := que' u q hmem
              dsimp only; rw [new q y]; exact i6 u q x
  | ret =>
    simp only [step] at h
    cases hin : inside s.soft.stack with
    | none => rw [hin] at h; simp only [Option.some.injEq] at h; subst h; exact ⟨ia, io, i⟩
    | some t =>
      rw [hin] at h
      simp only at h
      split at h
      · rename_i hq
        have hs : Soft.step count s.soft .ret = some { s.soft with stack := Soft.ret s.soft.stack } := rfl
        have ia' := Soft.step_invA hc ia hs
        rw [hs] at h
        simp only [Option.some.injEq] at h
        subst h
        obtain ⟨r, cell, bit, p, rest, e1, e2⟩ := ret_eq hin
        obtain ⟨i1, i2, i3, i4, i5, i6, i7, i8⟩ := i
        refine ⟨ia', ?_, i1, ?_, i3, i4, i5, i6, i7, ?_⟩
        · intro f hf
          dsimp only at hf
          rw [e2] at hf
          rcases List.mem_cons.1 hf with rfl | hf
          · exact ⟨by simp, by simp⟩
          · exact io f (by rw [e1]; simp [hf])
        · intro k hk hl hd
          rcases i2 k hk hl hd with h | h | h | ⟨f, hf, hlead⟩
          · exact .inl h
          · exact .inr (.inl h)
          · exact .inr (.inr (.inl h))
          · refine .inr (.inr (.inr ?_))
            dsimp only
            rw [e1] at hf
            rw [e2]
            rcases List.mem_cons.1 hf with rfl | hf
            · exact absurd hlead id
            · exact ⟨f, by simp [hf], hlead⟩
        · intro u hu
          dsimp only at hu ⊢
          obtain ⟨f, hf, hx⟩ := i8 u hu
          rw [e1] at hf
          rw [e2]
          rcases List.mem_cons.1 hf with rfl | hf
          · simp only [inside, Option.some.injEq] at hx
            subst hx
            exact absurd hq hu
          · exact ⟨f, by simp [hf], hx⟩
      · simp only [Option.some.injEq] at h; subst h; exact ⟨ia, io, i⟩
  | signal k j =>
    simp only [step] at h
    cases hw : s.waker k j with
    | none =>
      rw [hw] at h
      simp only [Option.some.injEq] at h
      subst h
      exact ⟨ia, io, inv_fire i hw⟩
    | some t =>
      rw [hw] at h
      obtain ⟨hk, ht⟩ := i.wak k j t hw
      have htc : t < count := by rw [ht]; exact i.thr k hk
      have hs := pend_eq (s := s.soft) htc
      have ia' := Soft.step_invA hc ia hs
      simp only [hs, Option.some.injEq] at h
      subst h
      exact ⟨ia', noOther_push io, inv_wake i hw⟩
  | add thr len =>
    simp only [step, Option.some.injEq] at h
    split at h
    · rename_i ht
      subst h
      exact ⟨ia, io, inv_new i ht (by simp)⟩
    · subst h; exact ⟨ia, io, i⟩
  | exec thr len =>
    simp only [step] at h
    split at h
    · rename_i ht
      have hs := pend_eq (s := s.soft) ht
      have ia' := Soft.step_invA hc ia hs
      simp only [hs, Option.some.injEq] at h
      subst h
      exact ⟨ia', noOther_push io, inv_new (inv_push i (.req thr .load)) ht fun _ => due_pend⟩
    · simp only [Option.some.injEq] at h; subst h; exact ⟨ia, io, i⟩

/-- Nothing faults. -/
theorem step_some {count : Nat} (hc : count ≤ 32) {s : State} (a : Act) (g : Good count s) : ∃ s', step count s a = some s' := by
  obtain ⟨ia, io, i⟩ := g
  cases a with
  | step =>
    have : ∃ m, Soft.step count s.soft .step = some m := by
      simp only [Soft.step]
      split
      · exact ⟨_, rfl⟩
      · rename_i f rest hst; exact Soft.frameStep_some hc ia hst
    obtain ⟨m, hm⟩ := this
    simp only [step, hm]
    split <;> exact ⟨_, rfl⟩
  | poll =>
    simp only [step]
    split
    · exact ⟨_, rfl⟩
    · rename_i t ht
      split
      · exact ⟨_, rfl⟩
      · rename_i k ks hq
        have := (i.que t k (by rw [hq]; simp)).2.2
        rw [this]
        simp only [Bool.false_eq_true, ↓reduceIte]
        split
        · exact ⟨_, rfl⟩
        · split <;> exact ⟨_, rfl⟩
  | ret =>
    simp only [step]
    split
    · exact ⟨_, rfl⟩
    · split <;> exact ⟨_, rfl⟩
  | signal k j =>
    simp only [step]
    split
    · exact ⟨_, rfl⟩
    · exact ⟨_, rfl⟩
  | add thr len => exact ⟨_, rfl⟩
  | exec thr len =>
    simp only [step]
    split <;> exact ⟨_, rfl⟩

/-- The part of the software threads makes at most one of its own steps. -/
theorem step_invI {count : Nat} (hc : count ≤ 32) {s s' : State} {a : Act} (g : Good count s) (w : InvI count s.soft) (hn : NoSame s a)
    (h : step count s a = some s') : InvI count s'.soft := by
  have ia := g.a
  cases a with
  | step =>
    simp only [step] at h
    cases hs : Soft.step count s.soft .step with
    | none => rw [hs] at h; simp at h
    | some soft =>
      have w' := Soft.step_invI (a := .step) hc trivial trivial ia w hs
      rw [hs] at h
      simp only at h
      split at h <;> (simp only [Option.some.injEq] at h; subst h; exact w')
  | poll =>
    simp only [step] at h
    split at h
    · simp only [Option.some.injEq] at h; subst h; exact w
    · split at h
      · simp only [Option.some.injEq] at h; subst h; exact w
      · split at h
        · simp at h
        · split at h
          · simp only [Option.some.injEq] at h; subst h; exact w
          · split at h <;> (simp only [Option.some.injEq] at h; subst h; exact w)
  | ret =>
    simp only [step] at h
    split at h
    · simp only [Option.some.injEq] at h; subst h; exact w
    · split at h
      · cases hs : Soft.step count s.soft .ret with
        | none => rw [hs] at h; simp at h
        | some soft =>
          have w' := Soft.step_invI (a := .ret) hc trivial trivial ia w hs
          rw [hs] at h
          simp only [Option.some.injEq] at h; subst h; exact w'
      · simp only [Option.some.injEq] at h; subst h; exact w
  | signal k j =>
    simp only [step] at h
    cases hw : s.waker k j with
    | none => rw [hw] at h; simp only [Option.some.injEq] at h; subst h; exact w
    | some t =>
      rw [hw] at h
      simp only at h
      have hn' : Soft.NoSame s.soft (.pend t) := hn t hw
      cases hs : Soft.step count s.soft (.pend t) with
      | none => rw [hs] at h; simp at h
      | some soft =>
        have w' := Soft.step_invI (a := .pend t) hc trivial hn' ia w hs
        rw [hs] at h
        simp only [Option.some.injEq] at h; subst h; exact w'
  | add thr len =>
    simp only [step, Option.some.injEq] at h
    split at h <;> (subst h; exact w)
  | exec thr len =>
    simp only [step] at h
    split at h
    · have hn' : Soft.NoSame s.soft (.pend thr) := hn thr rfl
      cases hs : Soft.step count s.soft (.pend thr) with
      | none => rw [hs] at h; simp at h
      | some soft =>
        have w' := Soft.step_invI (a := .pend thr) hc trivial hn' ia w hs
        rw [hs] at h
        simp only [Option.some.injEq] at h; subst h; exact w'
    · simp only [Option.some.injEq] at h; subst h; exact w

theorem run_good {count : Nat} (hc : count ≤ 32) : ∀ {acts : List Act} {s s' : State}, Good count s → run count s acts = some s' → Good count s'
  | [], s, s', g, h => by simp only [run, Option.some.injEq] at h; exact h ▸ g
  | a :: as, s, s', g, h => by
    simp only [run] at h
    split at h
    · simp at h
    · rename_i m hm; exact run_good hc (step_good hc g hm) h

theorem run_some {count : Nat} (hc : count ≤ 32) : ∀ {acts : List Act} {s : State}, Good count s → ∃ s', run count s acts = some s'
  | [], s, _ => ⟨s, rfl⟩
  | a :: as, s, g => by
    obtain ⟨m, hm⟩ := step_some hc a g
    simp only [run, hm]
    exact run_some hc (step_good hc g hm)

theorem run_invI {count : Nat} (hc : count ≤ 32) : ∀ {acts : List Act} {s s' : State}, Always count NoSame s acts → Good count s → InvI count s.soft →
    run count s acts = some s' → InvI count s'.soft
  | [], s, s', _, _, w, h => by simp only [run, Option.some.injEq] at h; exact h ▸ w
  | a :: as, s, s', n, g, w, h => by
    simp only [run] at h
    split at h
    · simp at h
    · rename_i m hm; exact run_invI hc (n.2 m hm) (step_good hc g hm) (step_invI hc g w n.1 hm) h

/-- The only thread of a pool is pending and nothing but requests is in progress. -/
structure Dead (s : State) : Prop where
  prio : s.soft.prio 0 = 5
  bit : (s.soft.mem 22).getLsbD 0 = true
  req : ∀ f ∈ s.soft.stack, f = .req 0 .load ∨ f = .req 0 (.cell 5)
  done : ∀ k, (s.task k).done = false

theorem step_dead {s s' : State} {a : Act} (d : Dead s) (h : step 1 s a = some s') : Dead s' := by
  obtain ⟨d1, d2, d3, d4⟩ := d
  have hin : inside s.soft.stack = none := by
    cases hst : s.soft.stack with
    | nil => rfl
    | cons f rest =>
      rcases d3 f (by rw [hst]; simp) with rfl | rfl <;> rfl
  have hen : entering s.soft.stack = none := by
    cases hst : s.soft.stack with
    | nil => rfl
    | cons f rest =>
      rcases d3 f (by rw [hst]; simp) with rfl | rfl <;> rfl
  have pend : ∀ t, t < 1 → ∀ f ∈ Frame.req t .load :: s.soft.stack, f = .req 0 .load ∨ f = .req 0 (.cell 5) := by
    intro t ht f hf
    rcases List.mem_cons.1 hf with rfl | hf
    · left; rw [show t = 0 by omega]
    · exact d3 f hf
  cases a with
  | step =>
    simp only [step, hen] at h
    cases hst : s.soft.stack with
    | nil =>
      simp only [Soft.step, hst, Option.some.injEq] at h
      subst h
      exact ⟨d1, d2, d3, d4⟩
    | cons f rest =>
      have hrest : ∀ g ∈ rest, g = .req 0 .load ∨ g = .req 0 (.cell 5) := fun g hg => d3 g (by rw [hst]; simp [hg])
      rcases d3 f (by rw [hst]; simp) with rfl | rfl
      · simp only [Soft.step, hst, Soft.frameStep, Option.some.injEq] at h
        subst h
        refine ⟨d1, d2, ?_, d4⟩
        intro g hg
        rcases List.mem_cons.1 hg with rfl | hg
        · right; rw [d1]
        · exact hrest g hg
      · have hne : ¬ (s.soft.mem 22 &&& 1#32 = 0) := by
          intro e
          have := congrArg (fun x => x.getLsbD 0) e
          simp only [BitVec.getLsbD_and, d2] at this
          simp at this
        simp only [Soft.step, hst, Soft.frameStep, show Soft.cellIdx 1 0 5 = 22 from rfl, show Soft.pendingBit 0 = 1#32 from rfl,
          show (22 < Soft.pendingSize 1) from by decide, ↓reduceIte, hne, Option.some.injEq] at h
        subst h
        refine ⟨d1, ?_, hrest, d4⟩
        simp [upd]
  | poll => simp only [step, hin, Option.some.injEq] at h; subst h; exact ⟨d1, d2, d3, d4⟩
  | ret => simp only [step, hin, Option.some.injEq] at h; subst h; exact ⟨d1, d2, d3, d4⟩
  | signal k j =>
    simp only [step] at h
    split at h
    · simp only [Option.some.injEq] at h; subst h; exact ⟨d1, d2, d3, d4⟩
    · rename_i t ht
      simp only [Soft.step, Option.some.injEq] at h
      subst h
      by_cases e : t < 1
      · rw [if_pos e]
        exact ⟨d1, d2, pend t e, d4⟩
      · rw [if_neg e]
        exact ⟨d1, d2, d3, d4⟩
  | add thr len =>
    simp only [step, Option.some.injEq] at h
    split at h
    · subst h
      refine ⟨d1, d2, d3, ?_⟩
      intro k
      simp only [State.push, upd]
      split
      · rfl
      · exact d4 k
    · subst h; exact ⟨d1, d2, d3, d4⟩
  | exec thr len =>
    simp only [step] at h
    split at h
    · rename_i ht
      simp only [Soft.step, ht, ↓reduceIte, Option.some.injEq] at h
      subst h
      refine ⟨d1, d2, pend thr ht, ?_⟩
      intro k
      simp only [State.push, upd]
      split
      · rfl
      · exact d4 k
    · simp only [Option.some.injEq] at h; subst h; exact ⟨d1, d2, d3, d4⟩

theorem run_dead : ∀ {acts : List Act} {s s' : State}, Dead s → run 1 s acts = some s' → Dead s'
  | [], s, s', d, h => by simp only [run, Option.some.injEq] at h; exact h ▸ d
  | a :: as, s, s', d, h => by
    simp only [run] at h
    split at h
    · simp at h
    · rename_i m hm; exact run_dead (step_dead d hm) h

end Verif.Exec
