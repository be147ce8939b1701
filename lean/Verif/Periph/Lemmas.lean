import Verif.Periph.Spec
import Verif.CfgCond.Props
/-! # Lemmas about peripherals -/
namespace Verif.Periph

open CfgCond (Cond Key)

variable {K : Type}

/-! ## Related lists -/

theorem All2.mono {α β : Type} {R S : α → β → Prop} (h : ∀ a b, R a b → S a b) {l : List α} {m : List β}
    (c : All2 R l m) : All2 S l m := by
  induction c with
  | nil => exact .nil
  | cons r _ ih => exact .cons (h _ _ r) ih

theorem All2.append {α β : Type} {R : α → β → Prop} {l l' : List α} {m m' : List β}
    (c : All2 R l m) (c' : All2 R l' m') : All2 R (l ++ l') (m ++ m') := by
  induction c with
  | nil => exact c'
  | cons r _ ih => exact .cons r ih

theorem All2.flatMap {α β γ δ : Type} {R : α → β → Prop} {S : γ → δ → Prop} {f : α → List γ} {g : β → List δ}
    (h : ∀ a b, R a b → All2 S (f a) (g b)) {l : List α} {m : List β} (c : All2 R l m) :
    All2 S (l.flatMap f) (m.flatMap g) := by
  induction c with
  | nil => exact .nil
  | cons r _ ih => simp only [List.flatMap_cons]; exact (h _ _ r).append ih

theorem All2.map {α β γ δ : Type} {R : α → β → Prop} {S : γ → δ → Prop} {f : α → γ} {g : β → δ}
    (h : ∀ a b, R a b → S (f a) (g b)) {l : List α} {m : List β} (c : All2 R l m) :
    All2 S (l.map f) (m.map g) := by
  induction c with
  | nil => exact .nil
  | cons r _ ih => exact .cons (h _ _ r) ih

theorem All2.zipIdx {α β : Type} {R : α → β → Prop} {l : List α} {m : List β} (c : All2 R l m) (n : Nat) :
    All2 (fun a b => R a.1 b.1 ∧ a.2 = b.2) (l.zipIdx n) (m.zipIdx n) := by
  induction c generalizing n with
  | nil => exact .nil
  | cons r _ ih => exact .cons ⟨r, rfl⟩ (ih _)

theorem All2.length {α β : Type} {R : α → β → Prop} {l : List α} {m : List β} (c : All2 R l m) :
    l.length = m.length := by
  induction c with
  | nil => rfl
  | cons _ _ ih => simp [ih]

theorem All2.left {α β : Type} {R : α → β → Prop} {l : List α} {m : List β} (c : All2 R l m) {a : α} (h : a ∈ l) :
    ∃ b ∈ m, R a b := by
  induction c with
  | nil => simp at h
  | cons r _ ih =>
    rcases List.mem_cons.1 h with rfl | h
    · exact ⟨_, by simp, r⟩
    · obtain ⟨b, hb, hr⟩ := ih h
      exact ⟨b, by simp [hb], hr⟩

theorem All2.right {α β : Type} {R : α → β → Prop} {l : List α} {m : List β} (c : All2 R l m) {b : β} (h : b ∈ m) :
    ∃ a ∈ l, R a b := by
  induction c with
  | nil => simp at h
  | cons r _ ih =>
    rcases List.mem_cons.1 h with rfl | h
    · exact ⟨_, by simp, r⟩
    · obtain ⟨b, hb, hr⟩ := ih h
      exact ⟨b, by simp [hb], hr⟩

/-- Strengthen with membership. -/
theorem All2.mem {α β : Type} {R : α → β → Prop} {l : List α} {m : List β} (c : All2 R l m) :
    All2 (fun a b => R a b ∧ a ∈ l ∧ b ∈ m) l m := by
  induction c with
  | nil => exact .nil
  | cons r _ ih =>
    refine .cons ⟨r, by simp, by simp⟩ (ih.mono fun a b h => ⟨h.1, by simp [h.2.1], by simp [h.2.2]⟩)

/-! ## Turns of the loops -/

/-- Corresponding turns of the loops of both macros. -/
structure SlotConf (p : PSlot K) (m : MSlot K) : Prop where
  ent : m.ent = p.ent
  feat : m.feat = p.feat
  i : m.i = p.i
  vars : All2 ConfVar p.vars m.vars
  var : ConfVar p.var m.var

theorem slots_conf {ps : List (PBlock K)} {ms : List (MBlock K)} (h : Conf ps ms) :
    All2 SlotConf (pslots ps) (mslots ms) := by
  refine All2.flatMap (fun b b' hb => ?_) h
  refine All2.flatMap (fun r r' hr => ?_) hb.regs
  refine All2.map (fun v v' hv => ?_) (hr.vars.zipIdx 0)
  exact ⟨by simp [MSlot.ent, PSlot.ent, hb.ident, hr.ident, hv.1.ident], hr.feat, hv.2.symm, hr.vars, hv.1⟩

theorem mem_pslots {ps : List (PBlock K)} {s : PSlot K} (h : s ∈ pslots ps) :
    ∃ b ∈ ps, ∃ r ∈ b.regs, s.block = b.ident ∧ s.feat = r.feat ∧ s.reg = r.ident ∧ s.vars = r.vars ∧
      (s.var, s.i) ∈ r.vars.zipIdx := by
  simp only [pslots, List.mem_flatMap, List.mem_map] at h
  obtain ⟨b, hb, r, hr, v, hv, rfl⟩ := h
  exact ⟨b, hb, r, hr, rfl, rfl, rfl, rfl, hv⟩

theorem mem_mslots {ms : List (MBlock K)} {s : MSlot K} (h : s ∈ mslots ms) :
    ∃ b ∈ ms, ∃ r ∈ b.regs, s.vars = r.vars ∧ (s.var, s.i) ∈ r.vars.zipIdx := by
  simp only [mslots, List.mem_flatMap, List.mem_map] at h
  obtain ⟨b, hb, r, hr, v, hv, rfl⟩ := h
  exact ⟨b, hb, r, hr, rfl, hv⟩

/-! ## Conditions -/

theorem both_eq (r f : Cond K) (hr : r.inverse = false) (hf : f.inverse = false) :
    ((⟨[], false⟩ : Cond K).addClause r).bind (·.addClause f) = some (both r f) := by
  simp [Cond.addClause, both, hr, hf]

/-- Conditions of items: no empty clause, at most two clauses. -/
def Good (c : Cond K) : Prop := c.Wf ∧ c.clauses.length ≤ 2

theorem parse_wf (l : List K) : (CfgCond.parse l).Wf ∧ (CfgCond.parse l).clauses.length ≤ 1 := by
  cases l <;> simp [CfgCond.parse, Cond.Wf]

theorem both_good {r f : Cond K} (hr : ∃ l, r = CfgCond.parse l) (hf : ∃ l, f = CfgCond.parse l) :
    Good (both r f) := by
  obtain ⟨l, rfl⟩ := hr
  obtain ⟨l', rfl⟩ := hf
  refine ⟨⟨rfl, ?_⟩, ?_⟩
  · intro cl h
    rcases List.mem_append.1 h with h | h
    · exact (parse_wf l).1.2 _ h
    · exact (parse_wf l').1.2 _ h
  · have := (parse_wf l).2; have := (parse_wf l').2
    simp only [both, List.length_append]; omega

theorem parse_good {r : Cond K} (hr : ∃ l, r = CfgCond.parse l) : Good r := by
  obtain ⟨l, rfl⟩ := hr
  exact ⟨(parse_wf l).1, Nat.le_trans (parse_wf l).2 (by omega)⟩

theorem both_active (σ : K → Bool) {r f : Cond K} (hr : r.inverse = false) :
    (both r f).active σ = true → r.active σ = true := by
  rw [CfgCond.C56_attrs σ _ (by rfl), CfgCond.C56_attrs σ _ hr]
  simp only [Cond.meant, both, List.all_append, Bool.and_eq_true]
  exact fun h => h.1

/-- Conditions in a turn of the loops. -/
structure SlotGood (p : PSlot K) : Prop where
  feat : ∃ l, p.feat = CfgCond.parse l
  field : ∀ f ∈ p.var.fields, ∃ l, f.feat = CfgCond.parse l

theorem slot_good {ps : List (PBlock K)} (h : Parsed ps) {s : PSlot K} (hs : s ∈ pslots ps) : SlotGood s := by
  obtain ⟨b, hb, r, hr, _, e, _, _, hv⟩ := mem_pslots hs
  obtain ⟨h1, h2⟩ := h b hb r hr
  exact ⟨e ▸ h1, h2 _ (List.fst_mem_of_mem_zipIdx hv)⟩

/-! ## The struct and the macro -/

/-- A field of the struct and its value in the macro: same condition, same name, and the
implementations `I` give the type of the field. -/
def Fits (I : List (Impl K)) (f : Cond K × SName × FTy) (x : Cond K × SName × Expr) : Prop :=
  x.1 = f.1 ∧ x.2.1 = f.2.1 ∧ (∃ i ∈ I, i.cond = f.1 ∧ i.tr = f.2.2.tr ∧ i.ty = some x.2.2.ty) ∧ f.1.inverse = false

def MSlot.impls (s : MSlot K) : List (Impl K) := s.var.fields.flatMap s.fieldImpls ++ s.regImpls

theorem Fits.mono {I J : List (Impl K)} (h : ∀ i ∈ I, i ∈ J) {f : Cond K × SName × FTy} {x : Cond K × SName × Expr}
    (c : Fits I f x) : Fits J f x := by
  obtain ⟨a, b, ⟨i, hi, c⟩, d⟩ := c
  exact ⟨a, b, ⟨i, h i hi, c⟩, d⟩

theorem ok_shared {p : PSlot K} (h : p.ok = true) (hs : p.var.shared = true) : p.var.opt = false := by
  simp only [PSlot.ok, Bool.and_eq_true] at h
  have := h.1.1.1
  rw [hs] at this
  simpa using this

theorem slot_fits {p : PSlot K} {m : MSlot K} (c : SlotConf p m) (g : SlotGood p) (ok : p.ok = true) :
    All2 (Fits m.impls) p.structFields m.items := by
  have hi : p.feat.inverse = false := (parse_good g.feat).1.1
  unfold PSlot.structFields MSlot.items
  by_cases hs : p.var.shared = true
  · have ho := ok_shared ok hs
    have hp : m.var.path ≠ none := fun h => by
      have := (c.var.absent h).1; rw [ho] at this; cases this
    obtain ⟨h1, h2, h3⟩ := c.var.present hp
    rw [hs] at h1
    simp only [hs, h1, if_true, Bool.not_true, Bool.false_and, Bool.false_eq_true, if_false, List.append_nil]
    refine All2.map (fun f f' hf => ?_) h3.mem
    obtain ⟨hf, -, mf'⟩ := hf
    refine ⟨by simp [c.feat, hf.feat], by simp [c.ent, hf.ident], ?_, rfl⟩
    have e1 : ∀ i ∈ m.fieldImpls f', i ∈ m.impls := fun i hi =>
      List.mem_append_left _ (List.mem_flatMap.2 ⟨f', mf', hi⟩)
    cases hpath : f'.path with
    | none =>
      have hopt := hf.absent hpath
      refine ⟨⟨both m.feat f'.feat, .fldOpt m.ent f'.ident, some .unit⟩, e1 _ (by simp [MSlot.fieldImpls, hpath]), ?_⟩
      simp [c.feat, hf.feat, c.ent, hf.ident, hopt, FTy.tr, Expr.ty]
    | some q =>
      have hm := hf.mark
      rw [hpath] at hm
      by_cases hopt : f.opt = true
      · refine ⟨⟨both m.feat f'.feat, .fldOpt m.ent f'.ident, some (.fld m.path (m.var.path.getD "") q)⟩,
          e1 _ (by simp [MSlot.fieldImpls, hpath, hm, hopt]), ?_⟩
        simp [c.feat, hf.feat, c.ent, hf.ident, hopt, FTy.tr, Expr.ty]
      · refine ⟨⟨both m.feat f'.feat, .fld m.ent f'.ident, some (.fld m.path (m.var.path.getD "") q)⟩,
          e1 _ (by simp [MSlot.fieldImpls, hpath, hm, hopt]), ?_⟩
        simp [c.feat, hf.feat, c.ent, hf.ident, hopt, FTy.tr, Expr.ty]
  · have hs' : p.var.shared = false := by simpa using hs
    have hms : m.var.shared = false := by
      by_cases hp : m.var.path = none
      · exact (c.var.absent hp).2.1
      · rw [(c.var.present hp).1]; exact hs'
    simp only [hs', hms, Bool.false_eq_true, if_false, Bool.not_false, Bool.true_and, List.nil_append, c.i,
      beq_iff_eq]
    by_cases h0 : p.i = 0
    · simp only [h0, if_true]
      refine .cons ⟨c.feat, by simp [c.ent], ?_, hi⟩ .nil
      have e1 : ∀ i ∈ m.regImpls, i ∈ m.impls := fun i hi => List.mem_append_right _ hi
      cases hp : m.var.path with
      | none =>
        refine ⟨⟨m.feat, .regOpt m.ent, some .unit⟩, e1 _ (by simp [MSlot.regImpls, hp]), ?_⟩
        simp [c.feat, c.ent, (c.var.absent hp).1, FTy.tr, Expr.ty]
      | some q =>
        obtain ⟨-, h2, -⟩ := c.var.present (by simp [hp])
        have et : (Expr.ty (if (some q).isNone = true then Expr.unit else match m.var.src with
            | none => Expr.reg m.path ((some q).getD "")
            | some (b, r) => Expr.conv b r m.path ((some q).getD ""))) = m.regTy := by
          simp only [Option.isNone_some, Bool.false_eq_true, if_false, Option.getD_some, MSlot.regTy, hp]
          cases m.var.src <;> rfl
        by_cases ho : p.var.opt = true
        · refine ⟨⟨m.feat, .regOpt m.ent, some m.regTy⟩, e1 _ (by simp [MSlot.regImpls, hp, hms, h2, ho]), ?_⟩
          refine ⟨c.feat, by simp [c.ent, ho, FTy.tr], ?_⟩
          exact congrArg some et.symm
        · refine ⟨⟨m.feat, .reg m.ent, some m.regTy⟩, e1 _ (by simp [MSlot.regImpls, hp, hms, h2, ho]), ?_⟩
          refine ⟨c.feat, by simp [c.ent, ho, FTy.tr], ?_⟩
          exact congrArg some et.symm
    · simp only [h0, if_false]
      exact .nil

/-- What is compiled on both sides corresponds. -/
theorem fits_compiled {I : List (Impl K)} {fs : List (Cond K × SName × FTy)} {xs : List (Cond K × SName × Expr)}
    (h : All2 (Fits I) fs xs) (σ : K → Bool) :
    All2 (fun f x => x.1 = f.1 ∧ HasTy σ I f.2.tr x.2.ty) (compiled σ fs) (CfgCond.wanted σ xs) := by
  induction h with
  | nil => exact .nil
  | @cons f x fs xs hf _ ih =>
    obtain ⟨e1, e2, ⟨i, hi, e3, e4, e5⟩, e6⟩ := hf
    have ea : x.1.meant σ = f.1.active σ := by rw [e1, CfgCond.C56_attrs σ _ e6]
    unfold compiled CfgCond.wanted at *
    simp only [List.filter_cons, ea]
    split
    · rename_i ha
      refine .cons ⟨e2, i, hi, ?_, e4, e5⟩ ih
      unfold Impl.on; rw [e3]; exact ha
    · exact ih

end Verif.Periph
