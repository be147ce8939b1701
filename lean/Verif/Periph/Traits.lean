import Verif.Periph.Lemmas
/-! # The implementations meet the requirements of the traits -/
namespace Verif.Periph

open CfgCond (Cond Key)

variable {K : Type}

/-! ## Exactly one trait of a name -/

theorem filter_flatMap_nil {α β : Type} {f : α → List β} {q : β → Bool} {l : List α}
    (h : ∀ b ∈ l, (f b).filter q = []) : (l.flatMap f).filter q = [] := by
  induction l with
  | nil => rfl
  | cons b l ih =>
    simp only [List.flatMap_cons, List.filter_append, h b (by simp), List.nil_append]
    exact ih fun c hc => h c (by simp [hc])

theorem filter_flatMap_one {α β γ : Type} {f : α → List β} {key : α → γ} {q : β → Bool} {l : List α} {a : α}
    (nd : (l.map key).Nodup) (ha : a ∈ l) (h : ∀ b ∈ l, key b ≠ key a → (f b).filter q = []) :
    (l.flatMap f).filter q = (f a).filter q := by
  induction l with
  | nil => simp at ha
  | cons b l ih =>
    simp only [List.map_cons, List.nodup_cons, List.mem_map, not_exists, not_and] at nd
    simp only [List.flatMap_cons, List.filter_append]
    rcases List.mem_cons.1 ha with rfl | ha'
    · rw [filter_flatMap_nil (l := l), List.append_nil]
      exact fun c hc => h c (by simp [hc]) fun e => nd.1 c hc e
    · rw [h b (by simp) fun e => nd.1 a ha' e.symm, List.nil_append]
      exact ih nd.2 ha' fun c hc => h c (by simp [hc])

/-- The register a trait belongs to. -/
def Tr.ent? : Tr → Option Ent
  | .periph => none
  | .reg e => some e
  | .regOpt e => some e
  | .regExt e => some e
  | .fld e _ => some e
  | .fldOpt e _ => some e
  | .fldExt e _ => some e

/-- The field a trait belongs to. -/
def Tr.fld? : Tr → Option String
  | .fld _ f => some f
  | .fldOpt _ f => some f
  | .fldExt _ f => some f
  | _ => none

theorem fieldDecls_tr (s : PSlot K) (f : PField K) : ∀ d ∈ s.fieldDecls f,
    d.tr.ent? = some s.ent ∧ d.tr.fld? = some f.ident := by
  intro d hd
  unfold PSlot.fieldDecls at hd
  dsimp only at hd
  repeat' split at hd
  all_goals (simp only [List.mem_cons, List.not_mem_nil, or_false] at hd)
  all_goals (first | (rcases hd with rfl | rfl | rfl <;> exact ⟨rfl, rfl⟩) | (subst hd; exact ⟨rfl, rfl⟩))

variable [DecidableEq K]

theorem regDecls_tr (ord : List (List K × List Tr) → List (List K × List Tr)) (s : PSlot K) : ∀ d ∈ s.regDecls ord,
    d.tr.ent? = some s.ent ∧ d.tr.fld? = none := by
  intro d hd
  unfold PSlot.regDecls at hd
  dsimp only at hd
  repeat' split at hd
  · simp only [List.cons_append, List.nil_append, List.mem_cons, List.mem_map] at hd
    rcases hd with rfl | rfl | ⟨v, _, rfl⟩ <;> exact ⟨rfl, rfl⟩
  · simp only [List.mem_singleton] at hd; subst hd; exact ⟨rfl, rfl⟩
  · simp only [List.mem_singleton] at hd; subst hd; exact ⟨rfl, rfl⟩

/-- All traits of a turn of the loops. -/
def PSlot.decls (ord : List (List K × List Tr) → List (List K × List Tr)) (s : PSlot K) : List (Decl K) :=
  s.var.fields.flatMap s.fieldDecls ++ s.regDecls ord

theorem decls_ent (ord : List (List K × List Tr) → List (List K × List Tr)) (s : PSlot K) :
    ∀ d ∈ s.decls ord, d.tr.ent? = some s.ent := by
  intro d hd
  rcases List.mem_append.1 hd with h | h
  · obtain ⟨f, _, hf⟩ := List.mem_flatMap.1 h
    exact (fieldDecls_tr s f d hf).1
  · exact (regDecls_tr ord s d h).1

/-- The traits named `t` in a turn, and in all. -/
theorem filter_slot (ord : List (List K × List Tr) → List (List K × List Tr)) {ss : List (PSlot K)}
    {tail : List (Decl K)} (ht : ∀ d ∈ tail, d.tr = .periph) (nd : (ss.map PSlot.ent).Nodup) {s : PSlot K} (hs : s ∈ ss)
    (σ : K → Bool) {t : Tr} (e : t.ent? = some s.ent) :
    ((ss.flatMap (PSlot.decls ord)) ++ tail).filter (fun d => d.on σ && decide (d.tr = t)) =
      (s.decls ord).filter (fun d => d.on σ && decide (d.tr = t)) := by
  rw [List.filter_append]
  have : tail.filter (fun d => d.on σ && decide (d.tr = t)) = [] := by
    rw [List.filter_eq_nil_iff]
    intro d hd
    rw [ht d hd]
    simp only [Bool.and_eq_true, decide_eq_true_eq, not_and]
    rintro - rfl
    simp [Tr.ent?] at e
  rw [this, List.append_nil]
  refine filter_flatMap_one nd hs fun b _ hb => ?_
  rw [List.filter_eq_nil_iff]
  intro d hd
  simp only [Bool.and_eq_true, decide_eq_true_eq, not_and]
  rintro - rfl
  rw [decls_ent ord b d hd] at e
  exact hb (by simpa using e)

theorem filter_field (ord : List (List K × List Tr) → List (List K × List Tr)) {s : PSlot K}
    (nd : (s.var.fields.map (·.ident)).Nodup) {f : PField K} (hf : f ∈ s.var.fields) (σ : K → Bool) {t : Tr}
    (e : t.fld? = some f.ident) :
    (s.decls ord).filter (fun d => d.on σ && decide (d.tr = t)) =
      (s.fieldDecls f).filter (fun d => d.on σ && decide (d.tr = t)) := by
  unfold PSlot.decls
  rw [List.filter_append]
  have : (s.regDecls ord).filter (fun d => d.on σ && decide (d.tr = t)) = [] := by
    rw [List.filter_eq_nil_iff]
    intro d hd
    simp only [Bool.and_eq_true, decide_eq_true_eq, not_and]
    rintro - rfl
    rw [(regDecls_tr ord s d hd).2] at e
    simp at e
  rw [this, List.append_nil]
  refine filter_flatMap_one nd hf fun b _ hb => ?_
  rw [List.filter_eq_nil_iff]
  intro d hd
  simp only [Bool.and_eq_true, decide_eq_true_eq, not_and]
  rintro - rfl
  rw [(fieldDecls_tr s b d hd).2] at e
  exact hb (by simpa using e)

theorem filter_reg (ord : List (List K × List Tr) → List (List K × List Tr)) {s : PSlot K} (σ : K → Bool) {t : Tr}
    (e : t.fld? = none) :
    (s.decls ord).filter (fun d => d.on σ && decide (d.tr = t)) =
      (s.regDecls ord).filter (fun d => d.on σ && decide (d.tr = t)) := by
  unfold PSlot.decls
  rw [List.filter_append]
  have : (s.var.fields.flatMap s.fieldDecls).filter (fun d => d.on σ && decide (d.tr = t)) = [] := by
    rw [List.filter_eq_nil_iff]
    intro d hd
    simp only [Bool.and_eq_true, decide_eq_true_eq, not_and]
    rintro - rfl
    obtain ⟨f, _, hf⟩ := List.mem_flatMap.1 hd
    rw [(fieldDecls_tr s f d hf).2] at e
    simp at e
  rw [this, List.nil_append]

/-! ## What is implemented -/

section has
omit [DecidableEq K]

variable {p : PSlot K} {m : MSlot K} (c : SlotConf p m) (g : SlotGood p) (ok : p.ok = true) {σ : K → Bool}

include c in
/-- An active bound of a present register is implemented. -/
theorem has_bound (hp : m.var.path ≠ none) {f : PField K} (hf : f ∈ p.var.fields)
    (ha : (both p.feat f.feat).active σ = true) :
    Has σ m.impls (if f.opt then .fldOpt p.ent f.ident else .fld p.ent f.ident) := by
  obtain ⟨-, -, h3⟩ := c.var.present hp
  obtain ⟨f', mf, hc⟩ := h3.left hf
  have e1 : ∀ i ∈ m.fieldImpls f', i ∈ m.impls := fun i hi => List.mem_append_left _ (List.mem_flatMap.2 ⟨f', mf, hi⟩)
  have hm := hc.mark
  cases hpath : f'.path with
  | none =>
    refine ⟨_, e1 ⟨both m.feat f'.feat, .fldOpt m.ent f'.ident, some .unit⟩ (by simp [MSlot.fieldImpls, hpath]), ?_, ?_⟩
    · simpa [Impl.on, c.feat, hc.feat] using ha
    · simp [hc.absent hpath, c.ent, hc.ident]
  | some q =>
    rw [hpath] at hm
    by_cases ho : f.opt = true
    · refine ⟨_, e1 ⟨both m.feat f'.feat, .fldOpt m.ent f'.ident, some (.fld m.path (m.var.path.getD "") q)⟩
        (by simp [MSlot.fieldImpls, hpath, hm, ho]), ?_, ?_⟩
      · simpa [Impl.on, c.feat, hc.feat] using ha
      · simp [ho, c.ent, hc.ident]
    · refine ⟨_, e1 ⟨both m.feat f'.feat, .fld m.ent f'.ident, some (.fld m.path (m.var.path.getD "") q)⟩
        (by simp [MSlot.fieldImpls, hpath, hm, ho]), ?_, ?_⟩
      · simpa [Impl.on, c.feat, hc.feat] using ha
      · simp [ho, c.ent, hc.ident]

include c in
/-- A present register has its trait, if it is not shared or one of its fields is present. -/
theorem has_reg (hp : m.var.path ≠ none) (hs : m.var.shared = true → ∃ f ∈ m.var.fields, f.path ≠ none)
    (ha : p.feat.active σ = true) : Has σ m.impls (.reg p.ent) := by
  have hp' : m.var.path.isNone = false := by cases h : m.var.path <;> simp_all
  have e1 : ∀ i ∈ m.regImpls, i ∈ m.impls := fun i hi => List.mem_append_right _ hi
  by_cases h : m.var.shared = true
  · obtain ⟨f, hf, hpath⟩ := hs h
    refine ⟨⟨m.feat, .reg m.ent, some m.regTy⟩, e1 _ ?_, by simpa [Impl.on, c.feat] using ha, by simp [c.ent]⟩
    have : m.var.fields.any (·.path.isSome) = true := by
      rw [List.any_eq_true]; exact ⟨f, hf, by cases h : f.path <;> simp_all⟩
    simp [MSlot.regImpls, hp', h, this]
  · by_cases ho : m.var.opt = true
    · exact ⟨⟨m.feat, .reg m.ent, none⟩, e1 _ (by simp [MSlot.regImpls, hp', h, ho]), by simpa [Impl.on, c.feat] using ha,
        by simp [c.ent]⟩
    · exact ⟨⟨m.feat, .reg m.ent, some m.regTy⟩, e1 _ (by simp [MSlot.regImpls, hp', h, ho]),
        by simpa [Impl.on, c.feat] using ha, by simp [c.ent]⟩

include c in
theorem has_opt (hp : m.var.path ≠ none) (ho : m.var.opt = true) (hs : m.var.shared = false)
    (ha : p.feat.active σ = true) :
    HasTy σ m.impls (.regOpt p.ent) m.regTy ∧ HasTy σ m.impls (.regExt p.ent) m.regTy := by
  have hp' : m.var.path.isNone = false := by cases h : m.var.path <;> simp_all
  have e1 : ∀ i ∈ m.regImpls, i ∈ m.impls := fun i hi => List.mem_append_right _ hi
  exact ⟨⟨⟨m.feat, .regOpt m.ent, some m.regTy⟩, e1 _ (by simp [MSlot.regImpls, hp', hs, ho]),
      by simpa [Impl.on, c.feat] using ha, by simp [c.ent], rfl⟩,
    ⟨⟨m.feat, .regExt m.ent, some m.regTy⟩, e1 _ (by simp [MSlot.regImpls, hp', hs, ho]),
      by simpa [Impl.on, c.feat] using ha, by simp [c.ent], rfl⟩⟩

theorem HasTy.has {I : List (Impl K)} {t : Tr} {ty : Ty} (h : HasTy σ I t ty) : Has σ I t :=
  let ⟨i, a, b, c, _⟩ := h; ⟨i, a, b, c⟩

theorem Has.mono {I J : List (Impl K)} (hm : ∀ i ∈ I, i ∈ J) {t : Tr} (h : Has σ I t) : Has σ J t :=
  let ⟨i, a, b⟩ := h; ⟨i, hm i a, b⟩

theorem HasTy.mono {I J : List (Impl K)} (hm : ∀ i ∈ I, i ∈ J) {t : Tr} {ty : Ty} (h : HasTy σ I t ty) : HasTy σ J t ty :=
  let ⟨i, a, b⟩ := h; ⟨i, hm i a, b⟩

end has

/-! ## Implementations are accepted -/

/-- `transpose` in a clear configuration: exactly one variant, with the active items. -/
theorem variants_clear {T : Type} {ord : List (List K × List T) → List (List K × List T)} (ho : ∀ m, (ord m).Perm m)
    {items : List (Cond K × T)} (hd : (CfgCond.transpose ord items).isSome = true)
    (w : ∀ c t, (c, t) ∈ items → c.Wf) {σ : K → Bool} (hc : Clear σ items) :
    ∃ r : Cond K × List T, (variants ord items).filter (fun v => v.1.active σ) = [r] ∧
      r.2.Perm (CfgCond.wanted σ items) ∧ CfgCond.chosen σ (variants ord items) = [r.2] := by
  obtain ⟨res, h⟩ := Option.isSome_iff_exists.1 hd
  obtain ⟨v, h1, h2⟩ := CfgCond.C56_partial ho h (fun c t hm => ⟨w c t hm, hc.1 c t hm⟩) σ hc.2.1 hc.2.2
  have e : variants ord items = res := by simp [variants, h]
  rw [e]
  have h1' := h1
  unfold CfgCond.chosen at h1'
  cases hf : res.filter (fun v => v.1.active σ) with
  | nil => rw [hf] at h1'; simp at h1'
  | cons a l =>
    rw [hf] at h1'
    simp only [List.map_cons, List.cons.injEq, List.map_eq_nil_iff] at h1'
    obtain ⟨e1, e2⟩ := h1'
    subst e2
    exact ⟨a, rfl, by rw [e1]; exact h2, by rw [h1, e1]⟩

omit [DecidableEq K] in
theorem mem_wanted {T : Type} {σ : K → Bool} {items : List (Cond K × T)} {t : T} (h : t ∈ CfgCond.wanted σ items) :
    ∃ c, (c, t) ∈ items ∧ c.meant σ = true := by
  unfold CfgCond.wanted at h
  obtain ⟨⟨c, t'⟩, h1, h2⟩ := List.mem_map.1 h
  obtain ⟨h3, h4⟩ := List.mem_filter.1 h1
  simp only at h2
  subst h2
  exact ⟨c, h3, h4⟩

/-- Everything about one turn that the proof of acceptance needs. -/
structure Ctx (ord : List (List K × List Tr) → List (List K × List Tr)) (σ : K → Bool) (decls : List (Decl K))
    (impls : List (Impl K)) (p : PSlot K) (m : MSlot K) : Prop where
  conf : SlotConf p m
  good : SlotGood p
  ok : p.ok = true
  nd : (p.var.fields.map (·.ident)).Nodup
  dec : ∀ t : Tr, t.ent? = some p.ent → decls.filter (fun d => d.on σ && decide (d.tr = t)) =
    (p.decls ord).filter (fun d => d.on σ && decide (d.tr = t))
  imp : ∀ i ∈ m.impls, i ∈ impls
  per : Has σ impls .periph
  ho : ∀ m, (ord m).Perm m
  tr : p.var.opt = true → (CfgCond.transpose ord p.bounds).isSome = true
  clear : p.var.opt = true → Clear σ p.bounds

variable {ord : List (List K × List Tr) → List (List K × List Tr)} {σ : K → Bool} {decls : List (Decl K)}
  {impls : List (Impl K)} {p : PSlot K} {m : MSlot K}

theorem field_accepted (x : Ctx ord σ decls impls p m) {f' : MField K} (hf' : f' ∈ m.var.fields) {i : Impl K}
    (hi : i ∈ m.fieldImpls f') (ha : i.on σ = true) : Accepted σ decls impls i := by
  have hp : m.var.path ≠ none := fun h => by rw [(x.conf.var.absent h).2.2.2] at hf'; simp at hf'
  obtain ⟨h1, h2, h3⟩ := x.conf.var.present hp
  obtain ⟨f, hf, hc⟩ := h3.right hf'
  have hic : i.cond = both m.feat f'.feat := by
    unfold MSlot.fieldImpls at hi
    dsimp only at hi
    repeat' split at hi
    all_goals (simp only [List.mem_cons, List.not_mem_nil, or_false] at hi)
    all_goals (first | (rcases hi with rfl | rfl | rfl <;> rfl) | (subst hi; rfl))
  have hact : (both p.feat f.feat).active σ = true := by
    have := ha
    unfold Impl.on at this
    rwa [hic, x.conf.feat, hc.feat] at this
  have hfa : p.feat.active σ = true := both_active σ (parse_good x.good.feat).1.1 hact
  have hreg : f'.path ≠ none → Has σ impls (.reg p.ent) := fun hpath =>
    (has_reg x.conf hp (fun _ => ⟨f', hf', hpath⟩) hfa).mono x.imp
  have hreg' : p.var.shared = false → Has σ impls (.reg p.ent) := fun hs =>
    (has_reg x.conf hp (fun h => by rw [h1, hs] at h; cases h) hfa).mono x.imp
  have hext : p.var.opt = true → p.var.shared = false → Has σ impls (.regExt p.ent) := fun a b =>
    (has_opt x.conf hp (h2 ▸ a) (h1 ▸ b) hfa).2.has.mono x.imp
  have hon : ∀ t n s, (⟨[both p.feat f.feat], t, n, s⟩ : Decl K).on σ = true := fun t n s => by
    simp [Decl.on, hact]
  have e1 : ∀ i ∈ m.fieldImpls f', i ∈ impls := fun i hi =>
    x.imp i (List.mem_append_left _ (List.mem_flatMap.2 ⟨f', hf', hi⟩))
  have hme := x.conf.ent
  have hm := hc.mark
  cases hpath : f'.path with
  | none =>
    have ho := hc.absent hpath
    simp only [MSlot.fieldImpls, hpath, List.mem_singleton] at hi
    subst hi
    unfold Accepted
    rw [x.dec _ (by simp [Tr.ent?, hme]), filter_field ord x.nd hf σ (by simp [Tr.fld?, hc.ident])]
    simp only [PSlot.fieldDecls, ho, if_true, hme, hc.ident]
    by_cases hs : p.var.shared = true
    · simp only [hs, if_true, List.filter_cons, hon, Bool.true_and, decide_true, reduceCtorEq, decide_false,
        Bool.false_eq_true, if_false, List.filter_nil]
      exact ⟨_, rfl, by simp, by simp⟩
    · have hs' : p.var.shared = false := by simpa using hs
      by_cases hro : p.var.opt = true
      · simp only [hs', hro, if_true, List.filter_cons, hon, Bool.true_and, decide_true, reduceCtorEq, decide_false,
          Bool.false_eq_true, if_false, List.filter_nil]
        refine ⟨_, rfl, ?_, by simp⟩
        simp only [List.mem_cons, List.not_mem_nil, or_false, forall_eq_or_imp, forall_eq]
        exact ⟨hreg' hs', hext hro hs'⟩
      · simp only [hs', hro, if_true, List.filter_cons, hon, Bool.true_and, decide_true, reduceCtorEq, decide_false,
          Bool.false_eq_true, if_false, List.filter_nil]
        refine ⟨_, rfl, ?_, by simp⟩
        simp only [List.mem_cons, List.not_mem_nil, or_false, forall_eq_or_imp, forall_eq]
        exact ⟨x.per, hreg' hs'⟩
  | some q =>
    have hr := hreg (by simp [hpath])
    rw [hpath] at hm
    simp only [Option.isSome_some, Bool.and_true] at hm
    by_cases ho : f.opt = true
    · have hm' : f'.opt = true := hm.trans ho
      have hO : HasTy σ impls (.fldOpt p.ent f.ident) (.fld m.path (m.var.path.getD "") q) :=
        ⟨⟨both m.feat f'.feat, .fldOpt m.ent f'.ident, some (.fld m.path (m.var.path.getD "") q)⟩,
          e1 _ (by simp [MSlot.fieldImpls, hpath, hm']), by simpa [Impl.on, x.conf.feat, hc.feat] using hact,
          by simp [hme, hc.ident], rfl⟩
      have hE : HasTy σ impls (.fldExt p.ent f.ident) (.fld m.path (m.var.path.getD "") q) :=
        ⟨⟨both m.feat f'.feat, .fldExt m.ent f'.ident, some (.fld m.path (m.var.path.getD "") q)⟩,
          e1 _ (by simp [MSlot.fieldImpls, hpath, hm']), by simpa [Impl.on, x.conf.feat, hc.feat] using hact,
          by simp [hme, hc.ident], rfl⟩
      simp only [MSlot.fieldImpls, hpath, hm', if_true, List.mem_cons, List.not_mem_nil, or_false] at hi
      have key : i.tr = .fldOpt p.ent f.ident ∨ i.tr = .fldExt p.ent f.ident ∨ i.tr = .fld p.ent f.ident := by
        rcases hi with rfl | rfl | rfl <;> simp [hme, hc.ident]
      unfold Accepted
      by_cases hs : p.var.shared = true
      · rcases key with e | e | e <;> rw [e, x.dec _ (by simp [Tr.ent?]), filter_field ord x.nd hf σ (by simp [Tr.fld?])] <;>
          simp only [PSlot.fieldDecls, ho, hs, if_true, List.filter_cons, hon, Bool.true_and, decide_true, reduceCtorEq,
            decide_false, Bool.false_eq_true, if_false, List.filter_nil]
        · exact ⟨_, rfl, by simp, by simp⟩
        · refine ⟨_, rfl, ?_, by simp⟩
          simp only [List.mem_cons, List.not_mem_nil, or_false, forall_eq]
          exact hr
        · refine ⟨_, rfl, ?_, ?_⟩
          · simp only [List.mem_cons, List.not_mem_nil, or_false, forall_eq_or_imp, forall_eq]
            exact ⟨x.per, hr, hE.has, hO.has⟩
          · intro a b h
            simp only [Option.some.injEq, Prod.mk.injEq] at h
            obtain ⟨rfl, rfl⟩ := h
            exact ⟨_, hO, hE⟩
      · have hs' : p.var.shared = false := by simpa using hs
        by_cases hro : p.var.opt = true
        · rcases key with e | e | e <;> rw [e, x.dec _ (by simp [Tr.ent?]), filter_field ord x.nd hf σ (by simp [Tr.fld?])] <;>
            simp only [PSlot.fieldDecls, ho, hs', hro, if_true, List.filter_cons, hon, Bool.true_and, decide_true,
              reduceCtorEq, decide_false, Bool.false_eq_true, if_false, List.filter_nil]
          · refine ⟨_, rfl, ?_, by simp⟩
            simp only [List.mem_cons, List.not_mem_nil, or_false, forall_eq_or_imp, forall_eq]
            exact ⟨hr, hext hro hs'⟩
          · refine ⟨_, rfl, ?_, by simp⟩
            simp only [List.mem_cons, List.not_mem_nil, or_false, forall_eq_or_imp, forall_eq]
            exact ⟨hr, hext hro hs'⟩
          · refine ⟨_, rfl, ?_, ?_⟩
            · simp only [List.mem_cons, List.not_mem_nil, or_false, forall_eq_or_imp, forall_eq]
              exact ⟨hr, hE.has, hO.has⟩
            · intro a b h
              simp only [Option.some.injEq, Prod.mk.injEq] at h
              obtain ⟨rfl, rfl⟩ := h
              exact ⟨_, hO, hE⟩
        · rcases key with e | e | e <;> rw [e, x.dec _ (by simp [Tr.ent?]), filter_field ord x.nd hf σ (by simp [Tr.fld?])] <;>
            simp only [PSlot.fieldDecls, ho, hs', hro, if_true, List.filter_cons, hon, Bool.true_and, decide_true,
              reduceCtorEq, decide_false, Bool.false_eq_true, if_false, List.filter_nil]
          · refine ⟨_, rfl, ?_, by simp⟩
            simp only [List.mem_cons, List.not_mem_nil, or_false, forall_eq_or_imp, forall_eq]
            exact ⟨x.per, hr⟩
          · refine ⟨_, rfl, ?_, by simp⟩
            simp only [List.mem_cons, List.not_mem_nil, or_false, forall_eq_or_imp, forall_eq]
            exact ⟨x.per, hr⟩
          · refine ⟨_, rfl, ?_, ?_⟩
            · simp only [List.mem_cons, List.not_mem_nil, or_false, forall_eq_or_imp, forall_eq]
              exact ⟨x.per, hr, hE.has, hO.has⟩
            · intro a b h
              simp only [Option.some.injEq, Prod.mk.injEq] at h
              obtain ⟨rfl, rfl⟩ := h
              exact ⟨_, hO, hE⟩
    · have ho' : f.opt = false := by simpa using ho
      have hm' : f'.opt = false := hm.trans ho'
      simp only [MSlot.fieldImpls, hpath, hm', Bool.false_eq_true, if_false, List.mem_singleton] at hi
      subst hi
      unfold Accepted
      rw [x.dec _ (by simp [Tr.ent?, hme]), filter_field ord x.nd hf σ (by simp [Tr.fld?, hc.ident])]
      simp only [PSlot.fieldDecls, ho', Bool.false_eq_true, if_false, hme, hc.ident]
      by_cases hs : p.var.shared = true
      · simp only [hs, if_true, List.filter_cons, hon, Bool.true_and, decide_true, List.filter_nil]
        refine ⟨_, rfl, ?_, by simp⟩
        simp only [List.mem_cons, List.not_mem_nil, or_false, forall_eq]
        exact hr
      · have hs' : p.var.shared = false := by simpa using hs
        by_cases hro : p.var.opt = true
        · simp only [hs', hro, Bool.false_eq_true, if_false, if_true, List.filter_cons, hon, Bool.true_and, decide_true,
            List.filter_nil]
          refine ⟨_, rfl, ?_, by simp⟩
          simp only [List.mem_cons, List.not_mem_nil, or_false, forall_eq_or_imp, forall_eq]
          exact ⟨hr, hext hro hs'⟩
        · simp only [hs', hro, Bool.false_eq_true, if_false, if_true, List.filter_cons, hon, Bool.true_and, decide_true,
            List.filter_nil]
          refine ⟨_, rfl, ?_, by simp⟩
          simp only [List.mem_cons, List.not_mem_nil, or_false, forall_eq_or_imp, forall_eq]
          exact ⟨x.per, hr⟩

theorem filter_map_one {α β : Type} {l : List α} {g : α → β} {q : β → Bool} {q' : α → Bool} {r : α}
    (e : ∀ a, q (g a) = q' a) (h : l.filter q' = [r]) : (l.map g).filter q = [g r] := by
  rw [List.filter_map]
  have : (q ∘ g) = q' := funext e
  rw [this, h]
  rfl

theorem reg_accepted (x : Ctx ord σ decls impls p m) {i : Impl K} (hi : i ∈ m.regImpls) (ha : i.on σ = true) :
    Accepted σ decls impls i := by
  have hic : i.cond = m.feat := by
    unfold MSlot.regImpls at hi
    repeat' split at hi
    all_goals (simp only [List.mem_cons, List.not_mem_nil, or_false] at hi)
    all_goals (first | (rcases hi with rfl | rfl | rfl <;> rfl) | (subst hi; rfl))
  have hfa : p.feat.active σ = true := by
    have := ha
    unfold Impl.on at this
    rwa [hic, x.conf.feat] at this
  have hme := x.conf.ent
  have hon : ∀ t n s, (⟨[p.feat], t, n, s⟩ : Decl K).on σ = true := fun t n s => by simp [Decl.on, hfa]
  have hfil : ∀ t : Tr, t.ent? = some p.ent → t.fld? = none →
      decls.filter (fun d => d.on σ && decide (d.tr = t)) =
        (p.regDecls ord).filter (fun d => d.on σ && decide (d.tr = t)) := fun t h1 h2 => by
    rw [x.dec t h1, filter_reg ord σ h2]
  have hv : ∀ t : Tr, t ≠ .reg p.ent → ((variants ord p.bounds).map fun v =>
      (⟨[p.feat, v.1], .reg p.ent, [.periph, .regExt p.ent, .regOpt p.ent] ++ v.2,
        some (.regOpt p.ent, .regExt p.ent)⟩ : Decl K)).filter (fun d => d.on σ && decide (d.tr = t)) = [] := by
    intro t ht
    rw [List.filter_eq_nil_iff]
    intro d hd
    obtain ⟨v, _, rfl⟩ := List.mem_map.1 hd
    simp only [Bool.and_eq_true, decide_eq_true_eq, not_and]
    exact fun _ h => ht h.symm
  cases hpath : m.var.path with
  | none =>
    have ho := (x.conf.var.absent hpath).1
    simp only [MSlot.regImpls, hpath, Option.isNone_none, if_true, List.mem_singleton] at hi
    subst hi
    unfold Accepted
    rw [hfil _ (by simp [Tr.ent?, hme]) rfl]
    simp only [PSlot.regDecls, ho, if_true, hme, List.cons_append, List.nil_append, List.filter_cons, hon, Bool.true_and,
      decide_true, reduceCtorEq, decide_false, Bool.false_eq_true, if_false]
    rw [show ((variants ord p.bounds).map fun v =>
      (⟨[p.feat, v.1], .reg p.ent, .periph :: .regExt p.ent :: .regOpt p.ent :: v.2,
        some (.regOpt p.ent, .regExt p.ent)⟩ : Decl K)).filter (fun d => d.on σ && decide (d.tr = .regOpt p.ent)) = []
      from hv _ (by simp)]
    exact ⟨_, rfl, by simp, by simp⟩
  | some q =>
    have hp : m.var.path ≠ none := by simp [hpath]
    obtain ⟨h1, h2, h3⟩ := x.conf.var.present hp
    by_cases hs : m.var.shared = true
    · have hso : p.var.opt = false := ok_shared x.ok (h1 ▸ hs)
      simp only [MSlot.regImpls, hpath, Option.isNone_some, Bool.false_eq_true, if_false, hs, if_true] at hi
      split at hi
      · simp only [List.mem_singleton] at hi
        subst hi
        unfold Accepted
        rw [hfil _ (by simp [Tr.ent?, hme]) rfl]
        simp only [PSlot.regDecls, hso, Bool.false_eq_true, if_false, ← h1, hs, if_true, hme, List.filter_cons, hon,
          Bool.true_and, decide_true, List.filter_nil]
        exact ⟨_, rfl, by simp, by simp⟩
      · simp at hi
    · have hs' : m.var.shared = false := by simpa using hs
      by_cases ho : m.var.opt = true
      · have hpo : p.var.opt = true := h2 ▸ ho
        obtain ⟨tO, tE⟩ := has_opt x.conf hp ho hs' hfa
        have tO' := tO.mono x.imp
        have tE' := tE.mono x.imp
        have tR : Has σ impls (.reg p.ent) := (has_reg x.conf hp (fun h => by rw [hs'] at h; cases h) hfa).mono x.imp
        simp only [MSlot.regImpls, hpath, Option.isNone_some, Bool.false_eq_true, if_false, hs', ho, if_true,
          List.mem_cons, List.not_mem_nil, or_false] at hi
        have key : i.tr = .regOpt p.ent ∨ i.tr = .regExt p.ent ∨ i.tr = .reg p.ent := by
          rcases hi with rfl | rfl | rfl <;> simp [hme]
        unfold Accepted
        rcases key with e | e | e
        · rw [e, hfil _ (by simp [Tr.ent?]) rfl]
          unfold PSlot.regDecls
          simp only [hpo, if_true]
          rw [List.filter_append, hv _ (by simp)]
          simp only [List.append_nil, List.filter_cons, hon, Bool.true_and, decide_true, reduceCtorEq, decide_false,
            Bool.false_eq_true, if_false, if_true, List.filter_nil]
          exact ⟨_, rfl, by simp, by simp⟩
        · rw [e, hfil _ (by simp [Tr.ent?]) rfl]
          unfold PSlot.regDecls
          simp only [hpo, if_true]
          rw [List.filter_append, hv _ (by simp)]
          simp only [List.append_nil, List.filter_cons, hon, Bool.true_and, decide_true, reduceCtorEq, decide_false,
            Bool.false_eq_true, if_false, if_true, List.filter_nil]
          refine ⟨_, rfl, ?_, by simp⟩
          simp only [List.mem_cons, List.not_mem_nil, or_false, forall_eq]
          exact tR
        · rw [e, hfil _ (by simp [Tr.ent?]) rfl]
          unfold PSlot.regDecls
          simp only [hpo, if_true]
          have w : ∀ c t, (c, t) ∈ p.bounds → c.Wf := by
            intro c t h
            unfold PSlot.bounds at h
            obtain ⟨f, hf, e⟩ := List.mem_map.1 h
            simp only [Prod.mk.injEq] at e
            rw [← e.1]
            exact (both_good x.good.feat (x.good.field f hf)).1
          obtain ⟨r, hr1, hr2, -⟩ := variants_clear x.ho (x.tr hpo) w (x.clear hpo)
          rw [List.filter_append, filter_map_one (r := r) (q' := fun v => v.1.active σ) (fun a => by
            simp [Decl.on, hfa]) hr1]
          simp only [List.filter_cons, hon, Bool.true_and, reduceCtorEq, decide_false,
            Bool.false_eq_true, if_false, List.filter_nil, List.nil_append]
          refine ⟨_, rfl, ?_, ?_⟩
          · intro n hn
            simp only [List.cons_append, List.nil_append, List.mem_cons] at hn
            rcases hn with rfl | rfl | rfl | hn
            · exact x.per
            · exact tE'.has
            · exact tO'.has
            · obtain ⟨c, hc1, hc2⟩ := mem_wanted (hr2.mem_iff.1 hn)
              unfold PSlot.bounds at hc1
              obtain ⟨f, hf, e⟩ := List.mem_map.1 hc1
              simp only [Prod.mk.injEq] at e
              obtain ⟨e1, e2⟩ := e
              rw [← e2]
              refine (has_bound x.conf hp hf ?_).mono x.imp
              rw [CfgCond.C56_attrs σ _ rfl, e1]
              exact hc2
          · intro a b h
            simp only [Option.some.injEq, Prod.mk.injEq] at h
            obtain ⟨rfl, rfl⟩ := h
            exact ⟨_, tO', tE'⟩
      · have hpo : p.var.opt = false := by rw [← h2]; simpa using ho
        simp only [MSlot.regImpls, hpath, Option.isNone_some, Bool.false_eq_true, if_false, hs', ho,
          List.mem_singleton] at hi
        subst hi
        unfold Accepted
        rw [hfil _ (by simp [Tr.ent?, hme]) rfl]
        simp only [PSlot.regDecls, hpo, Bool.false_eq_true, if_false, ← h1, hs', hme, List.filter_cons, hon,
          Bool.true_and, decide_true, List.filter_nil, if_true]
        refine ⟨_, rfl, ?_, by simp⟩
        simp only [List.mem_cons, List.not_mem_nil, or_false, forall_eq]
        exact x.per

end Verif.Periph
