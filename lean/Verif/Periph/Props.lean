import Verif.Periph.PropsLemmas
import Verif.Periph.FieldsLemmas
/-! # C69, C70: peripherals -/
namespace Verif.Periph

open CfgCond (Cond Key)

variable {K : Type}

/-! ## C69: the code generated for a mapping is accepted -/

/-! A generic peripheral like the one in the documentation of `src/periph.rs`, with a
conditional register, and a mapping that has neither of two optional things. Literal 1 is a
configuration option. -/

def uart : List (PBlock Nat) :=
  [⟨"rcc", [⟨CfgCond.parse [], "apbenr", [⟨none, true, false, [⟨CfgCond.parse [], "uarten", false⟩, ⟨CfgCond.parse [], "uartrst", true⟩]⟩]⟩]⟩,
   ⟨"uart", [⟨CfgCond.parse [], "cr1", [⟨none, false, false, [⟨CfgCond.parse [], "cmie", false⟩, ⟨CfgCond.parse [], "eobie", true⟩]⟩]⟩,
             ⟨CfgCond.parse [1], "rtor", [⟨none, false, true, [⟨CfgCond.parse [], "blen", false⟩, ⟨CfgCond.parse [], "rto", true⟩]⟩]⟩,
             ⟨CfgCond.parse [], "dr", [⟨some "rx", false, true, [⟨CfgCond.parse [], "d", false⟩]⟩, ⟨some "tx", false, true, []⟩]⟩]⟩]

def uart4 : List (MBlock Nat) :=
  [⟨"rcc", none, [⟨CfgCond.parse [], "apbenr", [⟨none, some "apb1enr1", none, true, false,
      [⟨CfgCond.parse [], "uarten", some "uart4en", false⟩, ⟨CfgCond.parse [], "uartrst", some "uart4rst", true⟩]⟩]⟩]⟩,
   ⟨"uart", some "uart4", [
      ⟨CfgCond.parse [], "cr1", [⟨none, some "cr1", none, false, false,
        [⟨CfgCond.parse [], "cmie", some "cmie", false⟩, ⟨CfgCond.parse [], "eobie", none, false⟩]⟩]⟩,
      ⟨CfgCond.parse [1], "rtor", [⟨none, some "rtor", none, false, true,
        [⟨CfgCond.parse [], "blen", some "blen", false⟩, ⟨CfgCond.parse [], "rto", none, false⟩]⟩]⟩,
      ⟨CfgCond.parse [], "dr", [⟨some "rx", none, none, false, false, []⟩, ⟨some "tx", none, none, false, false, []⟩]⟩]⟩]

theorem uart_conf : Conf uart uart4 := by
  unfold Conf uart uart4
  repeat' first
    | exact All2.nil
    | refine All2.cons ⟨?_, ?_⟩ ?_
    | refine All2.cons ⟨?_, ?_, ?_⟩ ?_
    | refine All2.cons ⟨?_, ?_, ?_, ?_⟩ ?_
    | rfl
    | refine ⟨?_, ?_, ?_⟩
    | (intro h; exact ⟨rfl, rfl, rfl, rfl⟩)
    | (intro h; exact absurd h (by decide))
    | (intro h; exact absurd rfl h)
    | (intro h; rfl)
    | (intro h; refine ⟨rfl, rfl, ?_⟩)

theorem uart_parsed : Parsed uart := by
  intro b hb r hr
  simp only [uart, List.mem_cons, List.not_mem_nil, or_false] at hb
  rcases hb with rfl | rfl <;> simp only [List.mem_cons, List.not_mem_nil, or_false] at hr
  · subst hr
    refine ⟨⟨_, rfl⟩, fun v hv f hf => ?_⟩
    simp only [List.mem_cons, List.not_mem_nil, or_false] at hv
    subst hv
    simp only [List.mem_cons, List.not_mem_nil, or_false] at hf
    rcases hf with rfl | rfl <;> exact ⟨_, rfl⟩
  · rcases hr with rfl | rfl | rfl <;> refine ⟨⟨_, rfl⟩, fun v hv f hf => ?_⟩ <;>
      simp only [List.mem_cons, List.not_mem_nil, or_false] at hv
    · subst hv
      simp only [List.mem_cons, List.not_mem_nil, or_false] at hf
      rcases hf with rfl | rfl <;> exact ⟨_, rfl⟩
    · subst hv
      simp only [List.mem_cons, List.not_mem_nil, or_false] at hf
      rcases hf with rfl | rfl <;> exact ⟨_, rfl⟩
    · rcases hv with rfl | rfl
      · simp only [List.mem_cons, List.not_mem_nil, or_false] at hf
        subst hf; exact ⟨_, rfl⟩
      · simp at hf

theorem uart_distinct : Distinct uart := by
  unfold Distinct uart; decide

variable [DecidableEq K]

/-- For every mapping that follows the documentation and has the variants of a register all or
not at all, `periph::map!` succeeds if `periph!` does. -/
theorem C69_expand_partial {ord : List (List K × List Tr) → List (List K × List Tr)}
    (ord' : List (List K × List (SName × Expr)) → List (List K × List (SName × Expr)))
    {ps : List (PBlock K)} {ms : List (MBlock K)} (hc : Conf ps ms) (hp : Parsed ps) {gp : PGen K}
    (h : pgen ord ps = some gp) (ha : AllOrNone ms) : ∃ gm, mgen ord' ms = some gm := by
  obtain ⟨h1, -⟩ := pgen_some h
  obtain ⟨res, hres⟩ := CfgCond.C56_defined ord' (items := (mslots ms).flatMap MSlot.items) fun c t hm =>
    ⟨(items_good hc hp hm).1.1, (items_good hc hp hm).2⟩
  unfold mgen
  dsimp only
  rw [if_pos]
  · exact ⟨_, rfl⟩
  · simp only [Bool.and_eq_true, List.all_eq_true, hres, Option.isSome_some, and_true]
    intro m hm
    obtain ⟨p, hp, hcf⟩ := (slots_conf hc).right hm
    obtain ⟨b, hb, r, hr, e, hi⟩ := mem_mslots hm
    exact mslot_ok hcf (h1 p hp) (e ▸ List.fst_mem_of_mem_zipIdx hi) (e ▸ ha b hb r hr)

/-- `periph!` itself succeeds if `Shared` and `Option` are used as allowed, and a register with
several variants has a name for each. -/
theorem C69_expand_periph (ord : List (List K × List Tr) → List (List K × List Tr)) {ps : List (PBlock K)} (hp : Parsed ps)
    (h : ∀ b ∈ ps, ∀ r ∈ b.regs, (∀ v ∈ r.vars, v.shared = true → v.opt = false ∧ r.vars.length = 1) ∧
      ((∀ v ∈ r.vars, v.opt = true) ∨ (∀ v ∈ r.vars, v.opt = false)) ∧
      (r.vars.length = 1 ∨ ∀ v ∈ r.vars, v.ident ≠ none)) : ∃ gp, pgen ord ps = some gp := by
  unfold pgen
  dsimp only
  rw [if_pos]
  · exact ⟨_, rfl⟩
  · simp only [Bool.and_eq_true, List.all_eq_true, Bool.or_eq_true, Bool.not_eq_true']
    refine ⟨⟨fun s hs => ?_, fun s hs => .inr ?_⟩, ?_⟩
    · obtain ⟨b, hb, r, hr, -, -, -, e, hv⟩ := mem_pslots hs
      have hv' := List.fst_mem_of_mem_zipIdx hv
      obtain ⟨a1, a2, a3⟩ := h b hb r hr
      unfold PSlot.ok
      simp only [Bool.and_eq_true, Bool.or_eq_true, Bool.not_eq_true', List.all_eq_true, beq_iff_eq]
      refine ⟨⟨⟨?_, ?_⟩, ?_⟩, ?_⟩
      · cases hsh : s.var.shared with
        | false => rfl
        | true => simpa using (a1 _ hv' hsh).1
      · cases hsh : s.var.shared with
        | false => simp
        | true => simp [e, (a1 _ hv' hsh).2]
      · rcases a2 with a2 | a2
        · exact .inr fun v hv => a2 v (e ▸ hv)
        · exact .inl (a2 _ hv')
      · refine .inr fun v hv2 => ?_
        rw [e] at hv2
        rcases a3 with a3 | a3
        · left
          have h1 := List.snd_lt_of_mem_zipIdx hv2
          have h2 := List.snd_lt_of_mem_zipIdx hv
          simp only at h2
          omega
        · right
          have := a3 _ (List.fst_mem_of_mem_zipIdx hv2)
          cases h : v.1.ident <;> simp_all
    · obtain ⟨res, hres⟩ := CfgCond.C56_defined ord (items := s.bounds) fun c t hm =>
        ⟨(bounds_good (slot_good hp hs) hm).1.1, (bounds_good (slot_good hp hs) hm).2⟩
      rw [hres]; rfl
    · obtain ⟨res, hres⟩ := CfgCond.C56_defined ord (items := (pslots ps).flatMap PSlot.periphBounds) fun c t hm =>
        ⟨(periphBounds_good hp hm).1.1, (periphBounds_good hp hm).2⟩
      rw [hres]; rfl

example : (pgen id uart).isSome = true ∧ (mgen id uart4).isSome = true := by decide +kernel

/-- In a clear configuration exactly one variant of the macro is compiled. It gives a value to
every field of the struct exactly once, and to nothing else; the type of the value is the
associated type of the mapping that the struct asks for. -/
theorem C69_struct_partial {ord : List (List K × List Tr) → List (List K × List Tr)}
    {ord' : List (List K × List (SName × Expr)) → List (List K × List (SName × Expr))} (ho : ∀ m, (ord' m).Perm m)
    {ps : List (PBlock K)} {ms : List (MBlock K)} (hc : Conf ps ms) (hp : Parsed ps) (hd : Distinct ps)
    {gp : PGen K} {gm : MGen K} (h : pgen ord ps = some gp) (h' : mgen ord' ms = some gm) (σ : K → Bool)
    (hcl : Clear σ ((mslots ms).flatMap MSlot.items)) :
    ∃ v, CfgCond.chosen σ gm.macros = [v] ∧ (v.map (·.1)).Nodup ∧
      ∃ w, w.Perm v ∧ All2 (fun f x => x.1 = f.1 ∧ HasTy σ gm.impls f.2.tr x.2.ty) (compiled σ gp.fields) w := by
  obtain ⟨h1, -, -, -, h5⟩ := pgen_some h
  obtain ⟨m1, m2, m3, m4⟩ := mgen_some h'
  obtain ⟨r, r1, r2, r3⟩ := variants_clear ho m2 (fun c t hm => (items_good hc hp hm).1) hcl
  have key := fits_compiled (all_fits hc hp h1) σ
  have hnames : ∀ {fs : List (SName × FTy)} {xs : List (SName × Expr)} {I : List (Impl K)},
      All2 (fun f x => x.1 = f.1 ∧ HasTy σ I f.2.tr x.2.ty) fs xs → xs.map (·.1) = fs.map (·.1) := by
    intro fs xs I h
    induction h with
    | nil => rfl
    | cons a _ ih => simp [a.1, ih]
  refine ⟨r.2, by rw [m4]; exact r3, ?_, CfgCond.wanted σ ((mslots ms).flatMap MSlot.items), r2.symm, ?_⟩
  · rw [(r2.map _).nodup_iff, hnames key]
    exact compiled_nodup hd σ
  · rw [h5, m3]
    refine key.mono fun f x hx => ⟨hx.1, hx.2.mono fun i hi => List.mem_cons_of_mem _ hi⟩

/-- In a clear configuration every implementation is accepted, among them the one of the
trait of the peripheral. -/
theorem C69_traits_partial {ord : List (List K × List Tr) → List (List K × List Tr)}
    {ord' : List (List K × List (SName × Expr)) → List (List K × List (SName × Expr))} (ho : ∀ m, (ord m).Perm m)
    {ps : List (PBlock K)} {ms : List (MBlock K)} (hc : Conf ps ms) (hp : Parsed ps) (hd : Distinct ps)
    {gp : PGen K} {gm : MGen K} (h : pgen ord ps = some gp) (h' : mgen ord' ms = some gm) (σ : K → Bool)
    (hcl : Clear σ ((pslots ps).flatMap PSlot.periphBounds))
    (hcl' : ∀ s ∈ pslots ps, s.var.opt = true → Clear σ s.bounds) :
    Has σ gm.impls .periph ∧ ∀ i ∈ gm.impls, i.on σ = true → Accepted σ gp.decls gm.impls i := by
  obtain ⟨h1, h2, h3, h4, h5⟩ := pgen_some h
  obtain ⟨m1, m2, m3, m4⟩ := mgen_some h'
  have per : Has σ gm.impls .periph := by
    rw [m3]; exact ⟨_, List.mem_cons_self .., by simp [Impl.on, Cond.active, Cond.attrs, CfgCond.evalAll], rfl⟩
  refine ⟨per, fun i hi ha => ?_⟩
  rw [m3] at hi
  rcases List.mem_cons.1 hi with rfl | hi
  · obtain ⟨r, r1, r2, -⟩ := variants_clear ho h3 (fun c t hm => (periphBounds_good hp hm).1) hcl
    unfold Accepted
    rw [h4, List.filter_append, filter_map_one (r := r) (q' := fun v => v.1.active σ) (fun a => by
      simp [Decl.on]) r1]
    have : ((pslots ps).flatMap (PSlot.decls ord)).filter (fun d => d.on σ && decide (d.tr = .periph)) = [] := by
      rw [List.filter_eq_nil_iff]
      intro d hd
      obtain ⟨s, _, hs⟩ := List.mem_flatMap.1 hd
      simp only [Bool.and_eq_true, decide_eq_true_eq, not_and]
      intro _ e
      have := decls_ent ord s d hs
      rw [e] at this
      simp [Tr.ent?] at this
    rw [this, List.nil_append]
    refine ⟨_, rfl, ?_, by simp⟩
    intro n hn
    obtain ⟨c, hc1, hc2⟩ := mem_wanted (r2.mem_iff.1 hn)
    obtain ⟨p, hpm, hc1⟩ := List.mem_flatMap.1 hc1
    obtain ⟨m, hm, hcf⟩ := (slots_conf hc).left hpm
    refine (has_periph_bound hcf (slot_good hp hpm) (h1 p hpm) hc1 hc2).mono fun i hi => ?_
    rw [m3]
    exact List.mem_cons_of_mem _ (List.mem_flatMap.2 ⟨m, hm, hi⟩)
  · obtain ⟨m, hm, hi⟩ := List.mem_flatMap.1 hi
    obtain ⟨p, hpm, hcf⟩ := (slots_conf hc).right hm
    have x : Ctx ord σ gp.decls gm.impls p m :=
      { conf := hcf, good := slot_good hp hpm, ok := h1 p hpm, nd := slot_fields_nodup hd hpm
        dec := fun t e => by
          rw [h4]
          refine filter_slot ord ?_ (slots_nodup hd) hpm σ e
          intro d hd
          obtain ⟨v, _, rfl⟩ := List.mem_map.1 hd
          rfl
        imp := fun i hi => by rw [m3]; exact List.mem_cons_of_mem _ (List.mem_flatMap.2 ⟨m, hm, hi⟩)
        per := per, ho := ho, tr := h2 p hpm, clear := hcl' p hpm }
    rcases List.mem_append.1 hi with hi | hi
    · obtain ⟨f, hf, hi⟩ := List.mem_flatMap.1 hi
      exact field_accepted x hf hi ha
    · exact reg_accepted x hi ha

/-! The hypotheses hold for the example in both configurations, and this is what comes out. -/

example : Conf uart uart4 ∧ Parsed uart ∧ Distinct uart := ⟨uart_conf, uart_parsed, uart_distinct⟩

example : (mgen id uart4).map (fun g => CfgCond.chosen (fun _ => true) g.macros) = some [[
    (.reg ⟨"uart", "rtor", none⟩, .reg "uart4" "rtor"),
    (.fld ⟨"rcc", "apbenr", none⟩ "uarten", .fld "rcc" "apb1enr1" "uart4en"),
    (.fld ⟨"rcc", "apbenr", none⟩ "uartrst", .fld "rcc" "apb1enr1" "uart4rst"),
    (.reg ⟨"uart", "cr1", none⟩, .reg "uart4" "cr1"),
    (.reg ⟨"uart", "dr", some "rx"⟩, .unit)]] := by decide +kernel

example : (pgen id uart).map (fun g => (compiled (fun _ => false) g.fields).map (·.1)) = some [
    .fld ⟨"rcc", "apbenr", none⟩ "uarten", .fld ⟨"rcc", "apbenr", none⟩ "uartrst", .reg ⟨"uart", "cr1", none⟩,
    .reg ⟨"uart", "dr", some "rx"⟩] := by decide +kernel

omit [DecidableEq K] in
/-- A sufficient condition for `Clear`, easy to check: all keys are among `[k]`, for one `k`. -/
theorem clear_of_one {T : Type} {σ : K → Bool} {items : List (Cond K × T)} (k : K)
    (h : ∀ c t, (c, t) ∈ items → c.toDnf.getD [] = [] ∨ c.toDnf.getD [] = [[k]]) : Clear σ items := by
  have hk : ∀ x, Key items x → x = [k] := by
    rintro x ⟨c, t, hm, hx⟩
    rcases h c t hm with e | e <;> rw [e] at hx <;> simpa using hx
  refine ⟨fun c t hm => ?_, fun x y hx hy _ _ => (hk x hx).trans (hk y hy).symm, fun x hx ha => ?_⟩
  · rcases h c t hm with e | e <;> rw [e] <;> simp
  · rw [hk x hx] at ha ⊢; simpa using ha

/-- The theorems apply to the example, whatever the configuration. -/
example (σ : Nat → Bool) : Clear σ ((mslots uart4).flatMap MSlot.items) ∧
    Clear σ ((pslots uart).flatMap PSlot.periphBounds) ∧ ∀ s ∈ pslots uart, s.var.opt = true → Clear σ s.bounds := by
  refine ⟨clear_of_one 1 ?_, clear_of_one 1 ?_, fun s hs ho => clear_of_one 1 ?_⟩
  · have : (((mslots uart4).flatMap MSlot.items).all fun x => x.1.toDnf.getD [] == [] || x.1.toDnf.getD [] == [[1]]) = true := by
      decide +kernel
    intro c t hm
    simpa using (List.all_eq_true.1 this) _ hm
  · have : (((pslots uart).flatMap PSlot.periphBounds).all fun x => x.1.toDnf.getD [] == [] || x.1.toDnf.getD [] == [[1]]) = true := by
      decide +kernel
    intro c t hm
    simpa using (List.all_eq_true.1 this) _ hm
  · have : ((pslots uart).all fun s => s.bounds.all fun x => x.1.toDnf.getD [] == [] || x.1.toDnf.getD [] == [[1]]) = true := by
      decide +kernel
    intro c t hm
    simpa using (List.all_eq_true.1 ((List.all_eq_true.1 this) _ hs)) _ hm

/-! ### Where it fails -/

/-- A register with two optional variants. -/
def tim : List (PBlock Nat) :=
  [⟨"tim", [⟨CfgCond.parse [], "ccmr", [⟨some "output", false, true, []⟩, ⟨some "input", false, true, []⟩]⟩]⟩]

/-- A timer that has only the first variant. -/
def timOut : List (MBlock Nat) :=
  [⟨"tim", some "tim3", [⟨CfgCond.parse [], "ccmr", [⟨some "output", some "ccmr", none, false, true, []⟩,
    ⟨some "input", none, none, false, false, []⟩]⟩]⟩]

/-- A mapping that has one of two optional variants makes `periph::map!` panic (it unwraps the
path of the other variant), although the check just before allows absent variants. -/
theorem C69_false_variant : Conf tim timOut ∧ (pgen id tim).isSome = true ∧ mgen id timOut = none := by
  refine ⟨?_, by decide +kernel, by decide +kernel⟩
  refine .cons ⟨rfl, .cons ⟨rfl, rfl, .cons ⟨rfl, ?_, ?_⟩ (.cons ⟨rfl, ?_, ?_⟩ .nil)⟩ .nil⟩ .nil
  · intro h; cases h
  · exact fun _ => ⟨rfl, rfl, .nil⟩
  · exact fun _ => ⟨rfl, rfl, rfl, rfl⟩
  · intro h; exact absurd rfl h

/-- Two registers with different conditions, both true: two macros of the same name. -/
theorem C69_false_overlap : ∃ g : MGen Nat, mgen id [⟨"a", none, [
      ⟨CfgCond.parse [1], "x", [⟨none, some "x", none, false, false, []⟩]⟩,
      ⟨CfgCond.parse [2], "y", [⟨none, some "y", none, false, false, []⟩]⟩]⟩] = some g ∧
    CfgCond.chosen (fun _ => true) g.macros =
      [[(.reg ⟨"a", "x", none⟩, .reg "a" "x")], [(.reg ⟨"a", "y", none⟩, .reg "a" "y")]] :=
  ⟨_, rfl, by decide +kernel⟩

/-- A conditional field of a conditional register: with the condition of the register true and
the one of the field false there are two macros, one of them with the field that the struct
does not have. -/
theorem C69_false_nested : ∃ g : MGen Nat, mgen id [⟨"a", none, [
      ⟨CfgCond.parse [1], "x", [⟨none, some "x", none, true, false, [⟨CfgCond.parse [2], "f", some "f", false⟩]⟩]⟩]⟩] = some g ∧
    CfgCond.chosen (· == 1) g.macros = [[(.fld ⟨"a", "x", none⟩ "f", .fld "a" "x" "f")], []] ∧
    compiled (· == 1) ((pslots [⟨"a", [⟨CfgCond.parse [1], "x", [⟨none, true, false, [⟨CfgCond.parse [2], "f", false⟩]⟩]⟩]⟩]).flatMap
      PSlot.structFields) = [] :=
  ⟨_, rfl, by decide +kernel, by decide +kernel⟩

/-! ### Singular peripherals -/

/-- `periph::singular!`: in a clear configuration exactly one macro is compiled, with exactly
the fields of the struct, each with a value of its type. -/
theorem C69_singular_partial
    {ord : List (List K × List (SName × Expr)) → List (List K × List (SName × Expr))} (ho : ∀ m, (ord m).Perm m)
    {bs : List (GBlock K)} (hp : ∀ b ∈ bs, ∀ r ∈ b.regs, (∃ l, r.feat = CfgCond.parse l) ∧
      ∀ f ∈ r.fields, ∃ l, f.feat = CfgCond.parse l) (σ : K → Bool) (hcl : Clear σ (gitems bs)) :
    ∃ g v, ggen ord bs = some g ∧ CfgCond.chosen σ g.2 = [v] ∧
      (v.map fun x => (x.1, x.2.ty)).Perm (compiled σ g.1) := by
  have good : ∀ c t, (c, t) ∈ gitems bs → Good c := by
    intro c t hm
    obtain ⟨b, hb, hm⟩ := List.mem_flatMap.1 hm
    obtain ⟨r, hr, hm⟩ := List.mem_flatMap.1 hm
    obtain ⟨h1, h2⟩ := hp b hb r hr
    split at hm
    · simp only [List.mem_singleton, Prod.mk.injEq] at hm
      rw [hm.1]; exact parse_good h1
    · obtain ⟨f, hf, e⟩ := List.mem_map.1 hm
      simp only [Prod.mk.injEq] at e
      rw [← e.1]; exact both_good h1 (h2 f hf)
  obtain ⟨res, hres⟩ := CfgCond.C56_defined ord (items := gitems bs) fun c t hm => ⟨(good c t hm).1.1, (good c t hm).2⟩
  obtain ⟨r, -, r2, r3⟩ := variants_clear ho (by rw [hres]; rfl) (fun c t hm => (good c t hm).1) hcl
  refine ⟨(gfields bs, res), r.2, by simp [ggen, hres], ?_, ?_⟩
  · simpa [variants, hres] using r3
  · refine (r2.map _).trans (List.Perm.of_eq ?_)
    have e : gfields bs = (gitems bs).map fun x => (x.1, x.2.1, x.2.2.ty) := by
      unfold gfields gitems
      rw [List.map_flatMap]
      congr 1; funext b
      rw [List.map_flatMap]
      congr 1; funext r
      split
      · rfl
      · rw [List.map_map]; rfl
    show _ = compiled σ (gfields bs)
    rw [e]
    unfold CfgCond.wanted compiled
    rw [List.filter_map, List.map_map, List.map_map]
    have : (gitems bs).filter (fun i => i.1.meant σ) =
        (gitems bs).filter ((fun f : Cond K × SName × Ty => f.1.active σ) ∘ fun x => (x.1, x.2.1, x.2.2.ty)) := by
      refine List.filter_congr fun x hx => ?_
      simp only [Function.comp_apply]
      rw [CfgCond.C56_attrs σ _ (good x.1 x.2 hx).1.1]
    rw [this]
    rfl

example : (ggen id [⟨"rcc", [⟨CfgCond.parse [], "apb1enr1", [⟨CfgCond.parse [1], "rtcapben"⟩]⟩]⟩,
      ⟨"rtc", [⟨CfgCond.parse [], "tr", []⟩]⟩] : Option (List (Cond Nat × SName × Ty) × _)).map
      (fun g => (compiled (fun _ => true) g.1, CfgCond.chosen (fun _ => true) g.2)) =
    some ([(.fld ⟨"rcc", "apb1enr1", none⟩ "rtcapben", .fld "rcc" "apb1enr1" "rtcapben"),
        (.reg ⟨"rtc", "tr", none⟩, .reg "rtc" "tr")],
      [[(.fld ⟨"rcc", "apb1enr1", none⟩ "rtcapben", .fld "rcc" "apb1enr1" "rtcapben"),
        (.reg ⟨"rtc", "tr", none⟩, .reg "rtc" "tr")]]) := by decide +kernel

end Verif.Periph
