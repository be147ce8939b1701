import Verif.Periph.Traits
/-! # Lemmas about whole peripherals -/
namespace Verif.Periph

open CfgCond (Cond Key)

variable {K : Type}

theorem zipIdx_pairwise {α β : Type} {k : α → β} {l : List α} (h : (l.map k).Nodup) (n : Nat) :
    (l.zipIdx n).Pairwise fun a b => k a.1 ≠ k b.1 := by
  induction l generalizing n with
  | nil => simp
  | cons a l ih =>
    simp only [List.map_cons, List.nodup_cons, List.mem_map, not_exists, not_and] at h
    simp only [List.zipIdx_cons, List.pairwise_cons]
    exact ⟨fun b hb e => h.1 b.1 (List.fst_mem_of_mem_zipIdx hb) e.symm, ih h.2 _⟩

theorem pairwise_of_nodup {α β : Type} {k : α → β} {l : List α} (h : (l.map k).Nodup) :
    l.Pairwise fun a b => k a ≠ k b := by
  unfold List.Nodup at h
  rwa [List.pairwise_map] at h

/-- Turns of the loops are about different registers. -/
theorem slots_pairwise {ps : List (PBlock K)} (h : Distinct ps) : (pslots ps).Pairwise fun a b => a.ent ≠ b.ent := by
  unfold pslots
  rw [List.pairwise_flatMap]
  refine ⟨fun b hb => ?_, (pairwise_of_nodup h.1).imp ?_⟩
  · rw [List.pairwise_flatMap]
    obtain ⟨hr, hv⟩ := h.2 b hb
    refine ⟨fun r hr' => ?_, (pairwise_of_nodup hr).imp ?_⟩
    · rw [List.pairwise_map]
      refine (zipIdx_pairwise (hv r hr').1 0).imp ?_
      intro x y hne e
      exact hne (by simpa [PSlot.ent] using e)
    · intro r r' hne x hx y hy e
      obtain ⟨v, _, rfl⟩ := List.mem_map.1 hx
      obtain ⟨v', _, rfl⟩ := List.mem_map.1 hy
      exact hne (by simp only [PSlot.ent, Ent.mk.injEq] at e; exact e.2.1)
  · intro b b' hne x hx y hy e
    obtain ⟨r, _, hx⟩ := List.mem_flatMap.1 hx
    obtain ⟨r', _, hy⟩ := List.mem_flatMap.1 hy
    obtain ⟨v, _, rfl⟩ := List.mem_map.1 hx
    obtain ⟨v', _, rfl⟩ := List.mem_map.1 hy
    exact hne (by simp only [PSlot.ent, Ent.mk.injEq] at e; exact e.1)

theorem slots_nodup {ps : List (PBlock K)} (h : Distinct ps) : ((pslots ps).map PSlot.ent).Nodup := by
  unfold List.Nodup
  rw [List.pairwise_map]
  exact slots_pairwise h

theorem slot_fields_nodup {ps : List (PBlock K)} (h : Distinct ps) {s : PSlot K} (hs : s ∈ pslots ps) :
    (s.var.fields.map (·.ident)).Nodup := by
  obtain ⟨b, hb, r, hr, _, _, _, _, hv⟩ := mem_pslots hs
  exact ((h.2 b hb).2 r hr).2 _ (List.fst_mem_of_mem_zipIdx hv)

def SName.ent : SName → Ent
  | .reg e => e
  | .fld e _ => e

theorem structFields_ent (s : PSlot K) : ∀ f ∈ s.structFields, f.2.1.ent = s.ent := by
  intro f hf
  unfold PSlot.structFields at hf
  split at hf
  · obtain ⟨g, _, rfl⟩ := List.mem_map.1 hf; rfl
  · by_cases h : s.i = 0
    · rw [if_pos h, List.mem_singleton] at hf; subst hf; rfl
    · rw [if_neg h] at hf; simp at hf

/-- The struct has no field twice. -/
theorem struct_nodup {ps : List (PBlock K)} (h : Distinct ps) :
    (((pslots ps).flatMap PSlot.structFields).map fun f => f.2.1).Nodup := by
  unfold List.Nodup
  rw [List.pairwise_map, List.pairwise_flatMap]
  refine ⟨fun s hs => ?_, (slots_pairwise h).imp ?_⟩
  · unfold PSlot.structFields
    split
    · rw [List.pairwise_map]
      refine (pairwise_of_nodup (slot_fields_nodup h hs)).imp ?_
      intro a b hne e
      exact hne (by simpa using e)
    · split <;> simp
  · intro a b hne x hx y hy e
    rw [← structFields_ent a x hx, ← structFields_ent b y hy, e] at hne
    exact hne rfl

theorem compiled_nodup {ps : List (PBlock K)} (h : Distinct ps) (σ : K → Bool) :
    ((compiled σ ((pslots ps).flatMap PSlot.structFields)).map (·.1)).Nodup := by
  have := struct_nodup h
  unfold compiled
  rw [List.map_map]
  exact List.Nodup.sublist ((List.filter_sublist).map _) this

variable [DecidableEq K]

/-- What `pgen` returns. -/
theorem pgen_some {ord : List (List K × List Tr) → List (List K × List Tr)} {ps : List (PBlock K)} {gp : PGen K}
    (h : pgen ord ps = some gp) :
    (∀ s ∈ pslots ps, s.ok = true) ∧ (∀ s ∈ pslots ps, s.var.opt = true → (CfgCond.transpose ord s.bounds).isSome = true) ∧
    (CfgCond.transpose ord ((pslots ps).flatMap PSlot.periphBounds)).isSome = true ∧
    gp.decls = (pslots ps).flatMap (PSlot.decls ord) ++
      (variants ord ((pslots ps).flatMap PSlot.periphBounds)).map (fun v => ⟨[v.1], .periph, v.2, none⟩) ∧
    gp.fields = (pslots ps).flatMap PSlot.structFields := by
  unfold pgen at h
  dsimp only at h
  split at h
  · rename_i hc
    simp only [Bool.and_eq_true, List.all_eq_true] at hc
    simp only [Option.some.injEq] at h
    subst h
    refine ⟨hc.1.1, fun s hs ho => ?_, hc.2, rfl, rfl⟩
    have := hc.1.2 s hs
    rw [ho] at this
    simpa using this
  · cases h

theorem mgen_some {ord : List (List K × List (SName × Expr)) → List (List K × List (SName × Expr))}
    {ms : List (MBlock K)} {gm : MGen K} (h : mgen ord ms = some gm) :
    (∀ s ∈ mslots ms, s.ok = true) ∧ (CfgCond.transpose ord ((mslots ms).flatMap MSlot.items)).isSome = true ∧
    gm.impls = ⟨⟨[], false⟩, .periph, none⟩ :: (mslots ms).flatMap MSlot.impls ∧
    gm.macros = variants ord ((mslots ms).flatMap MSlot.items) := by
  unfold mgen at h
  dsimp only at h
  split at h
  · rename_i hc
    simp only [Bool.and_eq_true, List.all_eq_true] at hc
    simp only [Option.some.injEq] at h
    subst h
    exact ⟨hc.1, hc.2, rfl, rfl⟩
  · cases h

omit [DecidableEq K] in
/-- All items of the macro correspond to the fields of the struct. -/
theorem all_fits {ps : List (PBlock K)} {ms : List (MBlock K)} (hc : Conf ps ms) (hp : Parsed ps)
    (ok : ∀ s ∈ pslots ps, s.ok = true) :
    All2 (Fits ((mslots ms).flatMap MSlot.impls)) ((pslots ps).flatMap PSlot.structFields)
      ((mslots ms).flatMap MSlot.items) := by
  refine All2.flatMap (fun p m h => ?_) (slots_conf hc).mem
  obtain ⟨hpm, h1, h2⟩ := h
  exact (slot_fits hpm (slot_good hp h1) (ok p h1)).mono fun f x hx =>
    hx.mono fun i hi => List.mem_flatMap.2 ⟨m, h2, hi⟩

omit [DecidableEq K] in
theorem items_good {ps : List (PBlock K)} {ms : List (MBlock K)} (hc : Conf ps ms) (hp : Parsed ps) {c : Cond K}
    {t : SName × Expr} (h : (c, t) ∈ (mslots ms).flatMap MSlot.items) : Good c := by
  obtain ⟨m, hm, h⟩ := List.mem_flatMap.1 h
  obtain ⟨p, hpm, hcf⟩ := (slots_conf hc).right hm
  have g := slot_good hp hpm
  unfold MSlot.items at h
  rcases List.mem_append.1 h with h | h
  · split at h
    · obtain ⟨f, hf, e⟩ := List.mem_map.1 h
      have hpath : m.var.path ≠ none := fun h => by rw [(hcf.var.absent h).2.2.2] at hf; simp at hf
      obtain ⟨f', hf', e'⟩ := (hcf.var.present hpath).2.2.right hf
      simp only [Prod.mk.injEq] at e
      rw [← e.1, hcf.feat, e'.feat]
      exact both_good g.feat (g.field f' hf')
    · simp at h
  · split at h
    · simp only [List.mem_singleton, Prod.mk.injEq] at h
      rw [h.1, hcf.feat]
      exact parse_good g.feat
    · simp at h

omit [DecidableEq K] in
theorem bounds_good {p : PSlot K} (g : SlotGood p) {c : Cond K} {t : Tr} (h : (c, t) ∈ p.bounds) : Good c := by
  unfold PSlot.bounds at h
  obtain ⟨f, hf, e⟩ := List.mem_map.1 h
  simp only [Prod.mk.injEq] at e
  rw [← e.1]
  exact both_good g.feat (g.field f hf)

omit [DecidableEq K] in
theorem periphBounds_good {ps : List (PBlock K)} (hp : Parsed ps) {c : Cond K} {t : Tr}
    (h : (c, t) ∈ (pslots ps).flatMap PSlot.periphBounds) : Good c := by
  obtain ⟨p, hpm, h⟩ := List.mem_flatMap.1 h
  have g := slot_good hp hpm
  unfold PSlot.periphBounds at h
  repeat' split at h
  · simp only [List.mem_singleton, Prod.mk.injEq] at h
    rw [h.1]; exact parse_good g.feat
  · exact bounds_good g h
  · rcases List.mem_cons.1 h with h | h
    · simp only [Prod.mk.injEq] at h
      rw [h.1]; exact parse_good g.feat
    · exact bounds_good g h

omit [DecidableEq K] in
/-- Every active bound of the peripheral trait is met. -/
theorem has_periph_bound {p : PSlot K} {m : MSlot K} (c : SlotConf p m) (g : SlotGood p) (ok : p.ok = true) {σ : K → Bool}
    {cd : Cond K} {t : Tr} (h : (cd, t) ∈ p.periphBounds) (ha : cd.meant σ = true) : Has σ m.impls t := by
  have gi : p.feat.inverse = false := (parse_good g.feat).1.1
  have hb : m.var.path ≠ none → (cd, t) ∈ p.bounds → Has σ m.impls t := by
    intro hp h
    unfold PSlot.bounds at h
    obtain ⟨f, hf, e⟩ := List.mem_map.1 h
    simp only [Prod.mk.injEq] at e
    rw [← e.2]
    refine has_bound c hp hf ?_
    rw [CfgCond.C56_attrs σ _ rfl, e.1]
    exact ha
  unfold PSlot.periphBounds at h
  split at h
  · rename_i ho
    simp only [List.mem_singleton, Prod.mk.injEq] at h
    obtain ⟨rfl, rfl⟩ := h
    have hact : p.feat.active σ = true := by rw [CfgCond.C56_attrs σ _ gi]; exact ha
    cases hpath : m.var.path with
    | none =>
      exact ⟨⟨m.feat, .regOpt m.ent, some .unit⟩, List.mem_append_right _ (by simp [MSlot.regImpls, hpath]),
        by simpa [Impl.on, c.feat] using hact, by simp [c.ent]⟩
    | some q =>
      have hp : m.var.path ≠ none := by simp [hpath]
      obtain ⟨h1, h2, -⟩ := c.var.present hp
      have hs : p.var.shared = false := by
        cases hs : p.var.shared with
        | false => rfl
        | true => have := ok_shared ok hs; rw [ho] at this; cases this
      exact (has_opt c hp (h2.trans ho) (h1.trans hs) hact).1.has
  · rename_i ho
    have hp : m.var.path ≠ none := fun h => ho (c.var.absent h).1
    obtain ⟨h1, h2, -⟩ := c.var.present hp
    split at h
    · exact hb hp h
    · rename_i hs
      rcases List.mem_cons.1 h with h | h
      · simp only [Prod.mk.injEq] at h
        obtain ⟨rfl, rfl⟩ := h
        refine has_reg c hp (fun h => absurd (h1 ▸ h) hs) ?_
        rw [CfgCond.C56_attrs σ _ gi]; exact ha
      · exact hb hp h

omit [DecidableEq K] in
/-- A mapping turn is without error if the turn of the peripheral is, and the variants are all
present or all absent. -/
theorem mslot_ok {p : PSlot K} {m : MSlot K} (c : SlotConf p m) (ok : p.ok = true)
    (hin : m.var ∈ m.vars)
    (h : (∀ v ∈ m.vars, v.path ≠ none) ∨ (∀ v ∈ m.vars, v.path = none)) : m.ok = true := by
  simp only [PSlot.ok, Bool.and_eq_true] at ok
  obtain ⟨⟨⟨o1, o2⟩, o3⟩, o4⟩ := ok
  have hlen := c.vars.length
  unfold MSlot.ok
  cases hpath : m.var.path with
  | none =>
    obtain ⟨-, h2, h3, -⟩ := c.var.absent hpath
    simp [h2, h3]
  | some q =>
    obtain ⟨h1, h2, -⟩ := c.var.present (by simp [hpath])
    have hall : ∀ v ∈ m.vars, v.path ≠ none := by
      rcases h with h | h
      · exact h
      · have := h _ hin; rw [hpath] at this; cases this
    rw [h1, h2, ← hlen]
    simp only [Bool.and_eq_true]
    refine ⟨⟨⟨o1, o2⟩, ?_⟩, ?_⟩
    · simp only [Bool.or_eq_true, List.all_eq_true] at o3 ⊢
      rcases o3 with o3 | o3
      · exact .inl o3
      · refine .inr fun v hv => .inr ?_
        obtain ⟨v', hv', hc⟩ := c.vars.right hv
        rw [(hc.present (hall v hv)).2.1]
        exact o3 v' hv'
    · simp only [Option.isNone_some, Bool.false_or, Bool.or_eq_true, List.all_eq_true] at o4 ⊢
      rcases o4 with o4 | o4
      · exact .inl o4
      · refine .inr fun v hv => ?_
        obtain ⟨v', hv', hc, hi⟩ := (c.vars.zipIdx 0).right hv
        have := o4 v' hv'
        simp only [beq_iff_eq] at this
        rcases this with e | e
        · exact .inl (by simp [← hi, e, c.i])
        · refine .inr ?_
          have hp := hall v.1 (List.fst_mem_of_mem_zipIdx hv)
          simp only [Bool.and_eq_true]
          refine ⟨by rw [hc.ident]; exact e, ?_⟩
          cases h : v.1.path <;> simp_all

end Verif.Periph
