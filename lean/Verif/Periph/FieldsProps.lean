import Verif.Periph.FieldsLemmas
/-! # C70: fields and variants of a mapped register -/
namespace Verif.Periph

open CfgCond (Cond)

variable {K V : Type}

theorem names_eq {fs : List (PField K)} {gs : List (MField K)} (h : All2 ConfField fs gs) (on : Cond K → Bool) :
    (gs.filter fun g => on g.feat).map (fun g => FName.name (Macros.unkeywordize g.ident)) =
      (fs.filter fun f => on f.feat).map fun f => FName.name (Macros.unkeywordize f.ident) := by
  induction h with
  | nil => rfl
  | cons a _ ih =>
    simp only [List.filter_cons, a.feat]
    split
    · simp [ih, a.ident]
    · exact ih

theorem paths_eq (gs : List (MField K)) :
    (gs.map fun f => (FName.name (Macros.unkeywordize f.ident), f.path.map fun p => FName.name (Macros.unkeywordize p))).filterMap
      (·.2) = (gs.filterMap (·.path)).map fun p => FName.name (Macros.unkeywordize p) := by
  rw [List.filterMap_map, List.map_filterMap]
  congr 1

/-- The hypotheses of C70 give matching structs. -/
theorem match_of {fs : List (PField K)} {gs : List (MField K)} (h : All2 ConfField fs gs) (on : Cond K → Bool)
    {R : List String} (hR : ((gs.filter fun g => on g.feat).filterMap (·.path)).Perm R)
    (ndR : (R.map Macros.unkeywordize).Nodup) (ndU : (fs.map fun f => Macros.unkeywordize f.ident).Nodup)
    (hne : R ≠ [] ∨ fs = []) : Match (fieldsTokens on gs) (regFieldsTokens on gs) (mapFields on fs) (regFields R) := by
  by_cases hr : R = []
  · have hf : fs = [] := by simpa [hr] using hne
    subst hf
    cases h
    subst hr
    exact ⟨by simp [fieldsTokens, mapFields], by simp [mapFields], by simp [fieldsTokens],
      by simp [regFieldsTokens, regFields], by simp [regFields], by simp [regFieldsTokens],
      by simp [fieldsTokens]⟩
  · have hany : gs.any (·.path.isSome) = true := by
      cases hq : (gs.filter fun g => on g.feat).filterMap (·.path) with
      | nil => rw [hq] at hR; exact absurd hR.symm.eq_nil hr
      | cons a l =>
        have : a ∈ (gs.filter fun g => on g.feat).filterMap (·.path) := by rw [hq]; simp
        obtain ⟨g, hg, e⟩ := List.mem_filterMap.1 this
        rw [List.any_eq_true]
        exact ⟨g, (List.mem_filter.1 hg).1, by simp [e]⟩
    have hfs : fs.isEmpty = false := by
      cases h with
      | nil => simp at hany
      | cons _ _ => rfl
    have hre : R.isEmpty = false := by cases R <;> simp_all
    have et : fieldsTokens on gs = (gs.filter fun f => on f.feat).map fun f =>
        (FName.name (Macros.unkeywordize f.ident), f.path.map fun p => FName.name (Macros.unkeywordize p)) := by
      simp [fieldsTokens, hany]
    have er : regFieldsTokens on gs = ((gs.filter fun g => on g.feat).filterMap (·.path)).map fun p =>
        FName.name (Macros.unkeywordize p) := by
      simp only [regFieldsTokens, hany, if_true]
      rw [List.map_filterMap]
    have eu : mapFields on fs = (fs.filter fun f => on f.feat).map fun f => FName.name (Macros.unkeywordize f.ident) := by
      simp [mapFields, hfs]
    have ef : regFields R = R.map fun p => FName.name (Macros.unkeywordize p) := by simp [regFields, hre]
    have inj : ∀ l : List String, (l.map Macros.unkeywordize).Nodup →
        (l.map fun p => FName.name (Macros.unkeywordize p)).Nodup := by
      intro l hl
      unfold List.Nodup at *
      rw [List.pairwise_map] at *
      exact hl.imp fun h e => h (by simpa using e)
    have hp := hR.map fun p => FName.name (Macros.unkeywordize p)
    refine ⟨?_, ?_, ?_, ?_, ?_, ?_, ?_⟩
    · rw [et, eu, List.map_map, ← names_eq h on]; exact .refl _
    · rw [eu]
      refine List.Nodup.sublist ((List.filter_sublist).map _) (l₂ := fs.map fun f => FName.name (Macros.unkeywordize f.ident)) ?_
      have := inj (fs.map (·.ident)) (by simpa [Function.comp_def] using ndU)
      simpa [Function.comp_def] using this
    · rw [et, paths_eq]
      exact hp.nodup_iff.2 (inj R ndR)
    · rw [er, ef]; exact hp
    · rw [ef]; exact inj R ndR
    · intro v hv
      right
      rw [er] at hv
      obtain ⟨q, hq, rfl⟩ := List.mem_map.1 hv
      obtain ⟨g, hg, e⟩ := List.mem_filterMap.1 hq
      exact ⟨FName.name (Macros.unkeywordize g.ident), by rw [et]; exact List.mem_map.2 ⟨g, hg, by simp [e]⟩⟩
    · intro u v huv
      rw [et] at huv
      obtain ⟨g, hg, e⟩ := List.mem_map.1 huv
      simp only [Prod.mk.injEq] at e
      cases hpath : g.path with
      | none => rw [hpath] at e; simp at e
      | some q =>
        rw [hpath] at e
        simp only [Option.map_some, Option.some.injEq] at e
        refine ⟨?_, by rw [← e.2]; simp⟩
        rw [er, ← e.2]
        exact List.mem_map.2 ⟨q, List.mem_filterMap.2 ⟨g, hg, hpath⟩, rfl⟩

/-- If the mapping of a register lists each field of the register exactly once (and the
register has fields or the generic register has none), `from_fields` and `into_fields` are
accepted by the compiler in every configuration and are inverses of each other, and the
accessor methods of the register give the fields that `into_fields` gives. -/
theorem C70_fields_partial {fs : List (PField K)} {gs : List (MField K)} (h : All2 ConfField fs gs) (on : Cond K → Bool)
    {R : List String} (hR : ((gs.filter fun g => on g.feat).filterMap (·.path)).Perm R)
    (ndR : (R.map Macros.unkeywordize).Nodup) (ndU : (fs.map fun f => Macros.unkeywordize f.ident).Nodup)
    (hne : R ≠ [] ∨ fs = []) :
    (∀ m : Rec V, m.map (·.1) = mapFields on fs → (.marker ∈ mapFields on fs → lookup m .marker = some none) →
      (∀ g ∈ gs, on g.feat = true → g.path = none → lookup m (.name (Macros.unkeywordize g.ident)) = some none) →
      ∃ r, fromFields (fieldsTokens on gs) (regFieldsTokens on gs) (mapFields on fs) (regFields R) m = some r ∧
        r.map (·.1) = regFields R ∧
        intoFields (fieldsTokens on gs) (regFieldsTokens on gs) (mapFields on fs) (regFields R) r = some m) ∧
    (∀ r : Rec V, r.map (·.1) = regFields R → (.marker ∈ regFields R → lookup r .marker = some none) →
      ∃ m, intoFields (fieldsTokens on gs) (regFieldsTokens on gs) (mapFields on fs) (regFields R) r = some m ∧
        m.map (·.1) = mapFields on fs ∧
        fromFields (fieldsTokens on gs) (regFieldsTokens on gs) (mapFields on fs) (regFields R) m = some r ∧
        ∀ g ∈ gs, on g.feat = true → lookup m (.name (Macros.unkeywordize g.ident)) =
          match accessor g with
          | none => some none
          | some a => lookup r a) := by
  have M := match_of h on hR ndR ndU hne
  have tok : ∀ g ∈ gs, on g.feat = true → (FName.name (Macros.unkeywordize g.ident), accessor g) ∈ fieldsTokens on gs := by
    intro g hg ho
    exact List.mem_append_left _ (List.mem_map.2 ⟨g, List.mem_filter.2 ⟨hg, ho⟩, rfl⟩)
  refine ⟨fun m hm hmk hn => ?_, fun r hr hmk => ?_⟩
  · obtain ⟨r, e1, e2, -⟩ := from_eq M m
    refine ⟨r, e1, e2, from_into M m hm ?_ e1⟩
    intro u hu
    have hu' := hu
    unfold fieldsTokens at hu
    rcases List.mem_append.1 hu with hu | hu
    · obtain ⟨g, hg, e⟩ := List.mem_map.1 hu
      obtain ⟨hg, ho⟩ := List.mem_filter.1 hg
      simp only [Prod.mk.injEq, Option.map_eq_none_iff] at e
      rw [← e.1]
      exact hn g hg ho e.2
    · split at hu
      · simp at hu
      · simp only [List.mem_singleton, Prod.mk.injEq] at hu
        rw [hu.1] at hu' ⊢
        exact hmk (M.u.mem_iff.1 (List.mem_map.2 ⟨_, hu', rfl⟩))
  · obtain ⟨m, e1, e2, e3, e4⟩ := into_eq M r hr
    refine ⟨m, e1, e2, into_from M r hr hmk e1, ?_⟩
    intro g hg ho
    have ht := tok g hg ho
    cases ha : accessor g with
    | none => rw [ha] at ht; exact e4 _ ht
    | some a =>
      rw [ha] at ht
      obtain ⟨x, hx⟩ := lookup_mem (l := r) (n := a) (by rw [hr]; exact M.r.mem_iff.1 (M.used _ a ht).1)
      simp only
      rw [e3 _ a ht, hx]; rfl

/-- A register `in` with fields `in` and `b`, mapped to `f` and `g` in the other order, and an
absent optional field. -/
example : let fs : List (PField Nat) := [⟨CfgCond.parse [], "f", false⟩, ⟨CfgCond.parse [], "x", true⟩, ⟨CfgCond.parse [], "g", false⟩]
    let gs : List (MField Nat) := [⟨CfgCond.parse [], "f", some "b", false⟩, ⟨CfgCond.parse [], "x", none, false⟩,
      ⟨CfgCond.parse [], "g", some "in", false⟩]
    All2 ConfField fs gs ∧ ((gs.filter fun _ => true).filterMap (·.path)).Perm ["in", "b"] ∧
    intoFields (fieldsTokens (fun _ => true) gs) (regFieldsTokens (fun _ => true) gs) (mapFields (fun _ => true) fs)
      (regFields ["in", "b"]) [(.name "in_", some 7), (.name "b", some 8)] =
      some [(.name "f", some 8), (.name "x", none), (.name "g", some 7)] ∧
    fromFields (fieldsTokens (fun _ => true) gs) (regFieldsTokens (fun _ => true) gs) (mapFields (fun _ => true) fs)
      (regFields ["in", "b"]) [(.name "f", some 8), (.name "x", none), (.name "g", some 7)] =
      some [(.name "in_", some 7), (.name "b", some 8)] := by
  refine ⟨?_, by decide, by decide +kernel, by decide +kernel⟩
  refine .cons ⟨rfl, rfl, ?_, rfl⟩ (.cons ⟨rfl, rfl, ?_, rfl⟩ (.cons ⟨rfl, rfl, ?_, rfl⟩ .nil)) <;> simp

/-- A register without fields, mapped to a generic register whose fields are all optional: the
generated code is rejected, because it names a field `_marker` that the struct of the
optional fields does not have. -/
theorem C70_false_marker :
    let fs : List (PField Nat) := [⟨CfgCond.parse [], "f", true⟩]
    let gs : List (MField Nat) := [⟨CfgCond.parse [], "f", none, false⟩]
    All2 ConfField fs gs ∧ (gs.filterMap (·.path)) = [] ∧
    (∀ m : Rec Nat, fromFields (fieldsTokens (fun _ => true) gs) (regFieldsTokens (fun _ => true) gs)
      (mapFields (fun _ => true) fs) (regFields []) m = none) ∧
    ∀ r : Rec Nat, intoFields (fieldsTokens (fun _ => true) gs) (regFieldsTokens (fun _ => true) gs)
      (mapFields (fun _ => true) fs) (regFields []) r = none := by
  refine ⟨.cons ⟨rfl, rfl, fun _ => rfl, rfl⟩ .nil, rfl, fun m => ?_, fun r => ?_⟩
  · unfold fromFields
    have : patOk ((fieldsTokens (fun _ : Cond Nat => true) [⟨CfgCond.parse [], "f", none, false⟩]).map (·.1))
      ((fieldsTokens (fun _ : Cond Nat => true) [⟨CfgCond.parse [], "f", none, false⟩]).filterMap (·.2))
      (mapFields (fun _ : Cond Nat => true) [⟨CfgCond.parse [], "f", true⟩]) = false := by decide +kernel
    simp [this]
  · unfold intoFields
    have : patOk ((fieldsTokens (fun _ : Cond Nat => true) [⟨CfgCond.parse [], "f", none, false⟩]).map (·.1)) []
      (mapFields (fun _ : Cond Nat => true) [⟨CfgCond.parse [], "f", true⟩]) = false := by decide +kernel
    simp [this]

/-- The macro calls the conversion that `reg!` defines. The method `into_{variant}` of a mapped
register does so exactly if neither the block nor the register has the name of a keyword. -/
theorem C70_conv_partial (b r : String) : macroConv b r = definedConv b r ∧
    (calledConv b r = definedConv b r ↔ b ∉ Macros.keywords ∧ r ∉ Macros.keywords) := by
  refine ⟨rfl, ?_⟩
  unfold calledConv definedConv Macros.unkeywordize
  constructor
  · intro h
    have := congrArg String.length h
    simp only [String.length_append] at this
    refine ⟨fun hb => ?_, fun hr => ?_⟩
    · rw [if_pos hb] at this
      split at this <;> simp only [String.length_append] at this <;>
        (have h1 : ("_" : String).length = 1 := rfl) <;> omega
    · rw [if_pos hr] at this
      split at this <;> simp only [String.length_append] at this <;>
        (have h1 : ("_" : String).length = 1 := rfl) <;> omega
  · rintro ⟨hb, hr⟩
    rw [if_neg hb, if_neg hr]

example : "tim1" ∉ Macros.keywords ∧ "ccmr1_input" ∉ Macros.keywords := by decide

/-- A register named `in`, like the one of the GPIO of some chips. -/
theorem C70_false_keyword : calledConv "gpio" "in" = "into_gpio_in_" ∧ definedConv "gpio" "in" = "into_gpio_in" := by
  decide +kernel

end Verif.Periph
