import Verif.Regs.Invariant
/-! # C64: register tokens prevent lost updates -/
namespace Verif.Regs

variable {α : Type}

/-- The full claim: whatever variants the index lists and whatever the variants' fields are, every
finished update of the register works on the content the update before it left. -/
def NoLostUpdate : Prop :=
  ∀ (fam : Family) (vs : List Nat), Distinct fam → ∀ (m : Nat) (acts : List (Act Nat)),
    (run fam (init fam m vs) acts).mem = replay m (run fam (init fam m vs) acts).log

/-- C64 (missing: registers without fields, and several variants of one address in the index,
where the claim is false): if the index lists one variant of the register, and all variants have
fields, then after every sequence of moves, borrows, conversions, copies and accesses of any
number of contexts, the content is the result of all finished updates one after the other. -/
theorem C64_partial {fam : Family} (hd : Distinct fam) (hf : HasFields fam) (m : α) (v : Nat)
    (acts : List (Act α)) :
    (run fam (init fam m [v]) acts).mem = replay m (run fam (init fam m [v]) acts).log :=
  (inv_run hd hf acts _ (inv_init hd m v)).mem

/-- While an unsynchronized update is in progress, no other context can access the register. -/
theorem C64_exclusive {fam : Family} (hd : Distinct fam) (hf : HasFields fam) (m : α) (v : Nat)
    (acts : List (Act α)) (p : Pend α) (hp : p ∈ (run fam (init fam m [v]) acts).pend) (d : Nat)
    (ha : CanAccess (run fam (init fam m [v]) acts) d) : d = p.ctx := by
  have h := inv_run hd hf acts _ (inv_init hd m v)
  obtain ⟨t, ht⟩ := ha
  exact h.toks.alone (h.pend p hp).2 ht

/-- The unsynchronized operations can be called by one context at most. -/
theorem C64_one_unsync {fam : Family} (hd : Distinct fam) (hf : HasFields fam) (m : α) (v : Nat)
    (acts : List (Act α)) (c d : Nat) (hc : CanUnsync fam (run fam (init fam m [v]) acts) c)
    (hdd : CanUnsync fam (run fam (init fam m [v]) acts) d) : c = d := by
  have h := inv_run hd hf acts _ (inv_init hd m v)
  obtain ⟨v1, h1⟩ := hc
  obtain ⟨v2, h2⟩ := hdd
  obtain ⟨f0, hf0⟩ := List.exists_mem_of_ne_nil _ (parts_ne fam v1)
  obtain ⟨f1, hf1⟩ := List.exists_mem_of_ne_nil _ (parts_ne fam v2)
  have hv : v2 = v1 := (h.toks.excl _ (h1 f0 hf0) (by simp) _ (.inl (h2 f1 hf1))).1
  subst hv
  have := h.toks.unique (h1 f0 hf0) (h2 f0 hf0) (by simp) (by simp) rfl
  exact congrArg Prod.fst this

/-- Nor while an unsynchronized store is made. -/
theorem C64_store_exclusive {fam : Family} (hd : Distinct fam) (hf : HasFields fam) (m : α) (v : Nat)
    (acts : List (Act α)) (c w : Nat) (x : α)
    (hs : (step fam (run fam (init fam m [v]) acts) (.storeUnsync c w x)).log ≠ (run fam (init fam m [v]) acts).log)
    (d : Nat) (ha : CanAccess (run fam (init fam m [v]) acts) d) : d = c := by
  have h := inv_run hd hf acts _ (inv_init hd m v)
  obtain ⟨t, ht⟩ := ha
  simp only [step] at hs
  split at hs
  · rename_i hg
    simp only [Bool.and_eq_true] at hg
    refine h.toks.alone (v := w) (fun f hf => ?_) ht
    have := whole_iff.1 hg.2 f hf
    exact ⟨this.1, this.2.resolve_left (by simp)⟩
  · exact absurd rfl hs

/-- A register of two variants: variant 0 has fields 0 and 1, variant 1 and higher field 0. -/
def exFam : Family := fun v => if v = 0 then [0, 1] else [0]

/-- Context 0 splits the synchronized token between itself and context 1, both update, then the
token is put together again, made unsynchronized and used for an update by context 2. -/
def exActs : List (Act Nat) :=
  [.give 0 1 ⟨.s, 0, 1⟩, .atomic 0 ⟨.s, 0, 0⟩ (· + 1), .atomic 1 ⟨.s, 0, 1⟩ (· * 3), .give 1 0 ⟨.s, 0, 1⟩,
   .variant 0 0 1 .s, .convert 0 1 .s .u, .give 0 2 ⟨.u, 1, 0⟩, .modifyBegin 2 1 (· + 5),
   .atomic 0 ⟨.s, 0, 0⟩ (· + 100)]

theorem exFam_distinct : Distinct exFam := by
  intro v
  unfold exFam
  split <;> decide

theorem exFam_fields : HasFields exFam := by
  intro v
  unfold exFam
  split <;> decide

example : (run exFam (init exFam 4 [0]) exActs).pend.map (fun p => (p.ctx, p.old)) = [(2, 15)] ∧
    (run exFam (init exFam 4 [0]) (exActs ++ [.modifyEnd 2])).mem = 20 := by decide +kernel

example : (run exFam (init exFam 4 [0]) (exActs ++ [.modifyEnd 2])).mem =
    replay 4 (run exFam (init exFam 4 [0]) (exActs ++ [.modifyEnd 2])).log :=
  C64_partial exFam_distinct exFam_fields 4 0 _

example : (step exFam (run exFam (init exFam 4 [0]) (exActs ++ [.modifyEnd 2])) (.storeUnsync 2 1 9)).log ≠
    (run exFam (init exFam 4 [0]) (exActs ++ [.modifyEnd 2])).log := fun h =>
  absurd (congrArg List.length h) (by decide +kernel)

example : CanAccess (run exFam (init exFam 4 [0]) exActs) 2 := ⟨⟨.u, 1, 0⟩, .inl (by decide +kernel)⟩

example : CanUnsync exFam (run exFam (init exFam 4 [0]) exActs) 2 := ⟨1, by decide +kernel⟩

/-- The claim is false for a register without fields: its token can be written out in safe code,
so two contexts can hold unsynchronized tokens, and one update is lost. -/
theorem C64_false : ¬ NoLostUpdate := by
  intro h
  have := h (fun _ => []) [0] (fun _ => List.nodup_nil) 0
    [.convert 0 0 .s .u, .forge 1 0 .u, .modifyBegin 0 0 (· + 1), .modifyBegin 1 0 (· + 10),
     .modifyEnd 1, .modifyEnd 0]
  revert this
  decide +kernel

/-- The claim is false if the index lists two variants of one address, also when all have fields. -/
theorem C64_false_variants : ¬ ∀ (fam : Family) (vs : List Nat), Distinct fam → HasFields fam →
    ∀ (m : Nat) (acts : List (Act Nat)),
      (run fam (init fam m vs) acts).mem = replay m (run fam (init fam m vs) acts).log := by
  intro h
  have := h exFam [0, 1] exFam_distinct exFam_fields 0
    [.convert 0 0 .s .u, .convert 0 1 .s .u, .give 0 1 ⟨.u, 1, 0⟩, .modifyBegin 0 0 (· + 1),
     .modifyBegin 1 1 (· + 10), .modifyEnd 1, .modifyEnd 0]
  revert this
  decide +kernel

end Verif.Regs
