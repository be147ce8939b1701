import Verif.Regs.Lemmas
/-! # The invariant of register tokens is kept by every action -/
namespace Verif.Regs

variable {α : Type}

theorem idle_iff {s : State α} {c : Nat} : s.idle c = true ↔ ∀ p ∈ s.pend, p.ctx ≠ c := by
  simp [State.idle, List.all_eq_true]

theorem free_iff {s : State α} {c : Nat} {t : Tok} :
    s.free c t = true ↔ (c, t) ∈ s.toks ∧ (t.tag = .c ∨ ∀ b ∈ s.bors, b.2 ≠ t) := by
  simp [State.free, List.all_eq_true]

theorem uses_iff {s : State α} {c : Nat} {t : Tok} :
    s.uses c t = true ↔ (c, t) ∈ s.toks ∨ (c, t) ∈ s.bors := by
  simp [State.uses]

theorem whole_iff {fam : Family} {s : State α} {c v : Nat} {tag : Tag} :
    s.whole fam c v tag = true ↔
      ∀ f ∈ parts fam v, (c, (⟨tag, v, f⟩ : Tok)) ∈ s.toks ∧
        (tag = .c ∨ ∀ b ∈ s.bors, b.2 ≠ (⟨tag, v, f⟩ : Tok)) := by
  simp only [State.whole, List.all_eq_true, free_iff]

/-- A context with a token and not inside a call: nobody is inside a call. -/
theorem Inv.quiet {fam : Family} {m : α} {s : State α} (h : Inv fam m s) {c : Nat} {t : Tok}
    (hi : s.idle c = true) (hu : (c, t) ∈ s.toks ∨ (c, t) ∈ s.bors) : s.pend = [] := by
  apply List.eq_nil_iff_forall_not_mem.2
  intro p hp
  exact (idle_iff.1 hi p hp) (h.toks.alone (h.pend p hp).2 hu).symm

theorem Inv.ofQuiet {fam : Family} {m : α} {s : State α} (ht : TInv fam s.toks s.bors)
    (hp : s.pend = []) (hm : s.mem = replay m s.log) : Inv fam m s :=
  ⟨ht, by simp [hp], hm⟩

theorem Inv.quietWhole {fam : Family} {m : α} {s : State α} (h : Inv fam m s) {c v : Nat} {tag : Tag}
    (hi : s.idle c = true) (hw : s.whole fam c v tag = true) : s.pend = [] := by
  obtain ⟨f0, hf0⟩ := List.exists_mem_of_ne_nil _ (parts_ne fam v)
  exact h.quiet hi (.inl (whole_iff.1 hw f0 hf0).1)

theorem split {fam : Family} (hd : Distinct fam) {s : State α} {c v : Nat} {tag : Tag}
    (hw : s.whole fam c v tag = true) :
    s.toks.Perm (wholeToks fam c v tag ++ removeAll s.toks (wholeToks fam c v tag)) := by
  refine removeAll_perm _ _ (wholeToks_nodup hd c v tag) fun t ht => ?_
  obtain ⟨f, hf, rfl⟩ := mem_wholeToks.1 ht
  exact (whole_iff.1 hw f hf).1

/-- Replacing a whole token by another whole token. -/
theorem TInv.replace {fam : Family} (hd : Distinct fam) {s : State α} (h : TInv fam s.toks s.bors)
    {c v w : Nat} {tag dst : Tag} (hw : s.whole fam c v tag = true) (hc : tag ≠ .c ∨ dst = .c) :
    TInv fam (wholeToks fam c w dst ++ removeAll s.toks (wholeToks fam c v tag)) s.bors := by
  have h2 := h.perm (split hd hw)
  by_cases ht : tag = .c
  · subst ht
    rcases hc with hc | rfl
    · exact absurd rfl hc
    · exact (h2.sub (.inl rfl)).wholeCopy h2.no_affine
  · have hb : ∀ f ∈ parts fam v, ∀ x ∈ s.bors, x.2 ≠ ⟨tag, v, f⟩ := fun f hf x hx =>
      ((whole_iff.1 hw f hf).2.resolve_left ht) x hx
    obtain ⟨h3, h4⟩ := h2.rest_nil ht hb
    rw [h3, h4, List.append_nil]
    exact TInv.whole hd c w dst

theorem inv_step {fam : Family} (hd : Distinct fam) (hf : HasFields fam) {m : α} {s : State α}
    (h : Inv fam m s) (a : Act α) : Inv fam m (step fam s a) := by
  cases a with
  | give c d t =>
    simp only [step]
    split
    · rename_i hg
      simp only [Bool.and_eq_true, free_iff] at hg
      exact Inv.ofQuiet (h.toks.move hg.2.1) (h.quiet hg.1 (.inl hg.2.1)) h.mem
    · exact h
  | lend c d t =>
    simp only [step]
    split
    · rename_i hg
      simp only [Bool.and_eq_true, uses_iff] at hg
      refine Inv.ofQuiet ⟨?_, h.toks.apart, ?_, ?_⟩ (h.quiet hg.1 hg.2) h.mem
      · rintro x (hx | hx)
        · exact h.toks.fld x (.inl hx)
        · rcases List.mem_cons.1 hx with rfl | hx
          · exact h.toks.fld (c, t) hg.2
          · exact h.toks.fld x (.inr hx)
      · intro x hx hxc y hy
        rcases hy with hy | hy
        · exact h.toks.excl x hx hxc y (.inl hy)
        · rcases List.mem_cons.1 hy with rfl | hy
          · exact h.toks.excl x hx hxc (c, t) hg.2
          · exact h.toks.excl x hx hxc y (.inr hy)
      · intro y hy hyc
        rcases List.mem_cons.1 hy with rfl | hy
        · rcases hg.2 with h1 | h1
          · exact ⟨c, h1⟩
          · exact h.toks.lent (c, t) h1 hyc
        · exact h.toks.lent y hy hyc
    · exact h
  | unlend d t =>
    simp only [step]
    split
    · have hs : ∀ y, y ∈ s.bors.erase (d, t) → y ∈ s.bors := fun y hy => List.mem_of_mem_erase hy
      refine ⟨⟨fun x hx => h.toks.fld x (hx.imp_right (hs x)), h.toks.apart,
        fun x hx hc y hy => h.toks.excl x hx hc y (hy.imp_right (hs y)),
        fun y hy hc => h.toks.lent y (hs y hy) hc⟩, ?_, h.mem⟩
      intro p hp
      exact ⟨(h.pend p hp).1, fun f hf => ⟨((h.pend p hp).2 f hf).1, fun b hb =>
        ((h.pend p hp).2 f hf).2 b (hs b hb)⟩⟩
    · exact h
  | drop c t =>
    simp only [step]
    split
    · rename_i hg
      simp only [Bool.and_eq_true, free_iff] at hg
      exact Inv.ofQuiet (h.toks.erase _ hg.2.2) (h.quiet hg.1 (.inl hg.2.1)) h.mem
    · exact h
  | convert c v src dst =>
    simp only [step]
    split
    · rename_i hg
      simp only [Bool.and_eq_true, Bool.or_eq_true, decide_eq_true_eq] at hg
      exact Inv.ofQuiet (h.toks.replace hd hg.1.2 hg.2) (h.quietWhole hg.1.1 hg.1.2) h.mem
    · exact h
  | fieldCopy c t =>
    simp only [step]
    split
    · rename_i hg
      simp only [Bool.and_eq_true, free_iff] at hg
      refine Inv.ofQuiet ?_ (h.quiet hg.1.1 (.inl hg.1.2.1)) h.mem
      refine (h.toks.erase (c, t) hg.1.2.2).consCopy c _ rfl (h.toks.fld (c, t) (.inl hg.1.2.1)) ?_
      intro x hx hxc
      have hx2 := List.mem_of_mem_erase hx
      have he := h.toks.excl x hx2 hxc (c, t) (.inl hg.1.2.1)
      refine ⟨he.1, ?_⟩
      by_cases ht : t.tag = .c
      · exact he.2 ht
      · intro hfe
        have hp : s.toks.Perm ((c, t) :: s.toks.erase (c, t)) := List.perm_cons_erase hg.1.2.1
        have ha := (h.toks.perm hp).apart
        exact (List.pairwise_cons.1 ha).1 x hx ht hxc he.1 hfe
    · exact h
  | copy c t =>
    simp only [step]
    split
    · rename_i hg
      simp only [Bool.and_eq_true, uses_iff, decide_eq_true_eq] at hg
      refine Inv.ofQuiet (h.toks.consCopy c t hg.2 (h.toks.fld (c, t) hg.1.2) ?_)
        (h.quiet hg.1.1 hg.1.2) h.mem
      intro x hx hxc
      have he := h.toks.excl x hx hxc (c, t) hg.1.2
      exact ⟨he.1, he.2 hg.2⟩
    · exact h
  | variant c v w tag =>
    simp only [step]
    split
    · rename_i hg
      simp only [Bool.and_eq_true] at hg
      refine Inv.ofQuiet (h.toks.replace hd hg.2 ?_) (h.quietWhole hg.1 hg.2) h.mem
      by_cases ht : tag = .c
      · exact .inr ht
      · exact .inl ht
    · exact h
  | forge c v tag =>
    simp only [step]
    split
    · rename_i hg
      simp only [Bool.and_eq_true, decide_eq_true_eq] at hg
      exact absurd hg.2 (hf v)
    · exact h
  | storeUnsync c v x =>
    simp only [step]
    split
    · rename_i hg
      simp only [Bool.and_eq_true] at hg
      exact Inv.ofQuiet h.toks (h.quietWhole hg.1 hg.2) rfl
    · exact h
  | modifyBegin c v g =>
    simp only [step]
    split
    · rename_i hg
      simp only [Bool.and_eq_true] at hg
      refine ⟨h.toks, ?_, h.mem⟩
      intro p hp
      rcases List.mem_cons.1 hp with rfl | hp
      · refine ⟨rfl, fun f hf => ?_⟩
        have := whole_iff.1 hg.2 f hf
        exact ⟨this.1, this.2.resolve_left (by simp)⟩
      · exact h.pend p hp
    · exact h
  | modifyEnd c =>
    simp only [step]
    split
    · rename_i p hp
      have hpm := List.mem_of_find?_eq_some hp
      have hpc : p.ctx = c := by simpa using List.find?_some hp
      refine Inv.ofQuiet h.toks ?_ ?_
      · apply List.filter_eq_nil_iff.2
        intro q hq
        obtain ⟨f0, hf0⟩ := List.exists_mem_of_ne_nil _ (parts_ne fam q.var)
        have := h.toks.alone (h.pend p hpm).2 (.inl ((h.pend q hq).2 f0 hf0).1)
        simp [this, hpc]
      · show p.g p.old = p.g (replay m s.log)
        rw [(h.pend p hpm).1, h.mem]
    · exact h
  | atomic c t g =>
    simp only [step]
    split
    · rename_i hg
      simp only [Bool.and_eq_true, uses_iff] at hg
      refine Inv.ofQuiet h.toks (h.quiet hg.1.1 hg.1.2) ?_
      show g s.mem = g (replay m s.log)
      rw [h.mem]
    · exact h
  | fieldStore c t x =>
    simp only [step]
    split
    · rename_i hg
      simp only [Bool.and_eq_true, uses_iff] at hg
      exact Inv.ofQuiet h.toks (h.quiet hg.1 hg.2) rfl
    · exact h

theorem inv_init {fam : Family} (hd : Distinct fam) (m : α) (v : Nat) : Inv fam m (init fam m [v]) := by
  refine Inv.ofQuiet ?_ rfl rfl
  simp only [init, List.flatMap_cons, List.flatMap_nil, List.append_nil]
  exact TInv.whole hd 0 v .s

theorem inv_run {fam : Family} (hd : Distinct fam) (hf : HasFields fam) {m : α} :
    ∀ (acts : List (Act α)) (s : State α), Inv fam m s → Inv fam m (run fam s acts)
  | [], _, h => h
  | a :: acts, s, h => inv_run hd hf acts (step fam s a) (inv_step hd hf h a)

end Verif.Regs
