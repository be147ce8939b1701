import Verif.Gram.Inputs
/-! # What the parsers of the macros read: `periph::map!`, `reg!` and the tokens -/
namespace Verif.Gram
open Verif.CfgCond

/-! ## `periph::map!` -/

theorem sem_mField : Sem mField fun x f _ => MFieldText x f := by
  have hb : Sem (ifP List.isEmpty (return (none, [])) (do let p ← ident; let ts ← many ident; return (some p, ts)) : P (Option String × List String))
      fun x f rest => (match x.1 with | none => x.2 = [] ∧ f = [] | some p => f = .ident p :: idents x.2) ∧ rest = [] := by
    refine (sem_if (sem_pure (none, [])) (sem_tok sem_ident fun p => sem_bind sem_idents fun ts => sem_pure (some p, ts))).congr fun x f rest => ?_
    constructor
    · rintro (⟨h, rfl, rfl⟩ | ⟨h, p, _, rfl, ts, _, _, rfl, ⟨rfl, hr⟩, rfl, rfl⟩)
      · exact ⟨⟨rfl, rfl⟩, by simpa using h⟩
      · exact ⟨by simp, by simpa using hr⟩
    · rintro ⟨h, rfl⟩
      obtain ⟨_ | p, ts⟩ := x
      · obtain ⟨rfl, rfl⟩ := h
        exact .inl ⟨rfl, rfl, rfl⟩
      · simp only at h; subst h
        exact .inr ⟨rfl, p, _, rfl, ts, _, [], by simp, ⟨rfl, rfl⟩, rfl, rfl⟩
  refine (sem_condIdent fun c i => sem_group hb fun x => sem_pure (⟨c, i, x.1, x.2⟩ : MField)).congr fun x f rest => ?_
  constructor
  · rintro ⟨c, i, t, _, hc, rfl, ⟨_ | p, ts⟩, b, _, rfl, hb, rfl, rfl⟩
    · obtain ⟨hb, rfl⟩ := hb
      exact ⟨t, hc, hb, rfl⟩
    · simp only at hb; subst hb
      exact ⟨t, hc, rfl⟩
  · obtain ⟨c, i, _ | p, ts⟩ := x
    · rintro ⟨t, hc, h1, rfl⟩
      simp only at h1; subst h1
      exact ⟨c, i, t, _, hc, rfl, (none, []), [], _, rfl, ⟨rfl, rfl⟩, rfl, rfl⟩
    · rintro ⟨t, hc, rfl⟩
      exact ⟨c, i, t, _, hc, rfl, (some p, ts), _, _, rfl, rfl, rfl, rfl⟩

theorem mField_ne {x : MField} {f : List Tok} (h : MFieldText x f) : f ≠ [] := by
  obtain ⟨c, i, _ | p, ts⟩ := x
  · rcases h with ⟨c, -, -, rfl⟩; simp
  · rcases h with ⟨c, -, rfl⟩; simp

theorem mField_at {x : MField} {f : List Tok} (h : MFieldText x f) (r : List Tok) : peek "@" (f ++ r) = false := by
  obtain ⟨c, i, _ | p, ts⟩ := x
  · rcases h with ⟨c, hc, -, rfl⟩; rw [List.append_assoc]; exact cond_at hc _ _
  · rcases h with ⟨c, hc, rfl⟩; rw [List.append_assoc]; exact cond_at hc _ _

theorem peekParen_idents (l : List String) (r : List Tok) (h : peekParen r = false) : peekParen (idents l ++ r) = false := by
  cases l with
  | nil => exact h
  | cons _ _ => rfl

theorem sem_mVar : Sem mVar fun x f rest => MVarText x f ∧ varEnd x.ident rest = true := by
  have hs : ∀ i, Sem (whileNot (varEnd i) mField) _ := fun i => sem_whileNot (stop := varEnd i) sem_mField (fun a f _ => mField_ne) fun a f r hr =>
    varEnd_false (by simp [mField_ne hr]) (mField_at hr r)
  have h0 : Sem (do let a ← ident; let b ← ident; return some (a, b) : P (Option (String × String))) fun x f _ =>
      ∃ a b, x = some (a, b) ∧ f = [.ident a, .ident b] := by
    refine (sem_tok sem_ident fun a => sem_tok sem_ident fun b => sem_pure (some (a, b))).congr fun x f rest => ?_
    constructor
    · rintro ⟨a, _, rfl, b, _, rfl, rfl, rfl⟩; exact ⟨a, b, rfl, rfl⟩
    · rintro ⟨a, b, rfl, rfl⟩; exact ⟨a, _, rfl, b, _, rfl, rfl, rfl⟩
  have h1 : Sem (ifP peekParen (parens (do let a ← ident; let b ← ident; return some (a, b))) (return none) : P (Option (String × String)))
      fun x f rest => f = srcTokens x ∧ (x = none → peekParen rest = false) := by
    refine (sem_if (sem_parens h0) (sem_pure none)).congr fun x f rest => ?_
    constructor
    · rintro (⟨h, _, ⟨a, b, rfl, rfl⟩, rfl⟩ | ⟨h, rfl, rfl⟩)
      · exact ⟨rfl, nofun⟩
      · exact ⟨rfl, fun _ => h⟩
    · rintro ⟨rfl, h⟩
      rcases x with _ | ⟨a, b⟩
      · exact .inr ⟨h rfl, rfl, rfl⟩
      · exact .inl ⟨rfl, _, ⟨a, b, rfl, rfl⟩, rfl⟩
  refine (sem_varIdent (fun i => sem_if (c := varEnd i) (sem_pure (⟨i, none, none, [], []⟩ : MVar)) (sem_tok sem_ident fun p => sem_bind h1 fun src =>
    sem_bind sem_identsSemi fun ts => sem_unit (sem_punct ";") (sem_bind (hs i) fun fs => sem_pure (⟨i, some p, src, ts, fs⟩ : MVar)))) ?_).congr
      fun x f rest => ?_
  · rintro b h rest (⟨he, rfl, rfl⟩ | ⟨-, p, _, rfl, -⟩)
    · have : rest = [] := by simpa [varEnd] using he
      subst this; rfl
    · rfl
  · simp only [cat3_cat]
    constructor
    · rintro ⟨i, _, rfl, ⟨he, rfl, rfl⟩ |
        ⟨-, p, _, rfl, src, _, _, rfl, ⟨rfl, -⟩, ts, _, _, rfl, ⟨rfl, -⟩, _, rfl, fs, b, _, rfl, ⟨hb, he⟩, rfl, rfl⟩⟩
      · exact ⟨⟨rfl, rfl, rfl, by simp⟩, he⟩
      · exact ⟨⟨b, hb, by simp⟩, by simpa using he⟩
    · obtain ⟨i, _ | p, src, ts, fs⟩ := x
      · rintro ⟨⟨h1, h2, h3, rfl⟩, he⟩
        simp only at h1 h2 h3; subst h1 h2 h3
        exact ⟨i, [], by simp, .inl ⟨he, rfl, rfl⟩⟩
      · rintro ⟨⟨b, hb, rfl⟩, he⟩
        refine ⟨i, _, by simp only [List.append_assoc, List.cons_append]; rfl, .inr ⟨varEnd_false (by simp) rfl, p, _, rfl, src, _, _, rfl, ⟨rfl, ?_⟩,
          ts, _, _, rfl, ⟨rfl, rfl⟩, _, rfl, fs, b, [], by simp, ⟨hb, he⟩, rfl, rfl⟩⟩
        intro _
        rw [List.append_assoc]
        exact peekParen_idents _ _ rfl

theorem mVar_at {x : MVar} {f : List Tok} (h : MVarText x f) (hf : f ≠ []) (r : List Tok) : peek "@" (f ++ r) = x.ident.isSome := by
  obtain ⟨i, _ | p, src, ts, fs⟩ := x
  · obtain ⟨-, -, -, rfl⟩ := h
    cases i with
    | none => exact absurd rfl hf
    | some i => rfl
  · obtain ⟨b, -, rfl⟩ := h
    cases i <;> rfl

theorem mVar_nil {x : MVar} : MVarText x [] ↔ x = ⟨none, none, none, [], []⟩ := by
  obtain ⟨i, _ | p, src, ts, fs⟩ := x
  · cases i <;> simp [MVarText, atTokens]
  · cases i <;> simp [MVarText, atTokens]

/-- A loop calls its parser only when it does not stop. -/
theorem loop_guard {α : Type} (stop : List Tok → Bool) (p : P α) : ∀ n, loop stop p n = loop stop (ifP stop failure p) n
  | 0 => rfl
  | n + 1 => by
    funext ts
    unfold loop
    split
    · rfl
    · rename_i h
      rw [show ifP stop failure p ts = p ts by unfold ifP; rw [if_neg h]]
      rw [loop_guard stop p n]

theorem sem_mVars : Sem (many mVar) fun l f rest =>
    Cat3 (fun a f rest => (MVarText a f ∧ f ≠ []) ∧ varEnd a.ident rest = true) l f rest ∧ rest = [] := by
  have h1 : Sem (ifP List.isEmpty failure mVar) fun x f rest => (MVarText x f ∧ f ≠ []) ∧ varEnd x.ident rest = true := by
    refine (sem_if (c := List.isEmpty) sem_fail sem_mVar).congr fun x f rest => ?_
    constructor
    · rintro (⟨-, h⟩ | ⟨h, hx, he⟩)
      · exact h.elim
      · refine ⟨⟨hx, ?_⟩, he⟩
        rintro rfl
        rw [mVar_nil] at hx
        subst hx
        simp [varEnd] at he
        simp [he] at h
    · rintro ⟨⟨hx, hf⟩, he⟩
      exact .inr ⟨by cases f <;> simp_all, hx, he⟩
  have h2 : many mVar = whileNot List.isEmpty (ifP List.isEmpty failure mVar) := by
    funext ts
    unfold many whileNot
    rw [loop_guard]
  rw [h2]
  exact (sem_whileNot h1 (fun a f _ h => h.1.2) fun a f r hr => by
    have := hr.1.2
    cases f with
    | nil => exact absurd rfl this
    | cons t f => rfl).congr fun l f rest => by simp

/-- A named variant is written somehow. -/
theorem mVar_named {x : MVar} {f : List Tok} (h : MVarText x f) (hx : x.ident.isSome) : f ≠ [] := by
  rintro rfl
  rw [mVar_nil] at h
  subst h
  cases hx

theorem cat_imp {α : Type} {R R' : α → List Tok → Prop} : ∀ {l : List α} {ts : List Tok}, (∀ a ∈ l, ∀ f, R a f → R' a f) → Cat R l ts → Cat R' l ts
  | [], _, _, h => h
  | _ :: _, _, hi, ⟨f, r, e, hf, hc⟩ => ⟨f, r, e, hi _ (.head _) _ hf, cat_imp (fun a ha => hi a (.tail _ ha)) hc⟩

theorem sem_mReg : Sem mReg fun x f _ => MRegText x f := by
  refine (sem_condIdent fun c i => sem_bind (sem_braced sem_mVars) fun vs =>
    sem_pure (⟨c, i, if vs.isEmpty then [⟨none, none, none, [], []⟩] else vs⟩ : MReg)).congr fun x f rest => ?_
  have hv : ∀ (vs : List MVar) b, Cat3 (fun a f rest => (MVarText a f ∧ f ≠ []) ∧ varEnd a.ident rest = true) vs b [] ↔ _ := fun vs b =>
    cat_vars (R := fun a f => MVarText a f ∧ f ≠ []) (nm := MVar.ident) (fun a f h => h.2) fun a f r h => mVar_at h.1 h.2 r
  constructor
  · rintro ⟨c, i, t, _, hc, rfl, vs, _, _, rfl, ⟨b, ⟨hb, -⟩, rfl⟩, rfl, rfl⟩
    cases vs with
    | nil =>
      cases hb
      exact ⟨t, [], hc, nofun, .inl rfl, ⟨[], [], rfl, mVar_nil.2 rfl, rfl⟩, rfl⟩
    | cons v vs =>
      rw [hv] at hb
      refine ⟨t, b, hc, nofun, ?_, cat_imp (fun _ _ _ h => h.1) hb.1, rfl⟩
      refine hb.2.imp (fun h => ?_) id
      simp only [List.isEmpty_cons, Bool.false_eq_true, if_false, List.length_cons] at h ⊢
      omega
  · obtain ⟨c, i, vs⟩ := x
    rintro ⟨t, b, hc, hne, h1, h2, rfl⟩
    simp only at hne h1 h2 hc
    by_cases hb : b = []
    · subst hb
      have : vs = [⟨none, none, none, [], []⟩] := by
        cases vs with
        | nil => exact absurd rfl hne
        | cons v vs =>
          obtain ⟨f, r, e, hf, hc⟩ := h2
          obtain ⟨rfl, rfl⟩ := List.append_eq_nil_iff.1 e.symm
          have hv := mVar_nil.1 hf
          subst hv
          rcases h1 with h1 | h1
          · simp at h1; subst h1; rfl
          · exact absurd (h1 _ (.head _)) (by simp)
      subst this
      exact ⟨c, i, t, _, hc, rfl, [], [.brace []], [], rfl, ⟨[], ⟨rfl, rfl⟩, rfl⟩, rfl, rfl⟩
    · refine ⟨c, i, t, _, hc, rfl, vs, [.brace b], [], rfl, ⟨b, ⟨(hv vs b).2 ⟨?_, h1.imp (fun h => by omega) id⟩, rfl⟩, rfl⟩, ?_, rfl⟩
      · rcases h1 with h1 | h1
        · obtain ⟨v, rfl⟩ := List.length_eq_one_iff.1 h1
          obtain ⟨f, r, rfl, hf, rfl⟩ := h2
          exact ⟨f, [], rfl, ⟨hf, by simpa using hb⟩, rfl⟩
        · exact cat_imp (fun a ha f h => ⟨h, mVar_named h (h1 a ha)⟩) h2
      · cases vs with
        | nil => exact absurd rfl hne
        | cons _ _ => rfl

theorem mReg_ne {x : MReg} {f : List Tok} (h : MRegText x f) : f ≠ [] := by
  obtain ⟨c, b, -, -, -, -, rfl⟩ := h; simp

/-- A register does not look like a path. -/
theorem mReg_peek2 {x : MReg} {f : List Tok} (h : MRegText x f) (r : List Tok) : peek2 ";" (f ++ r) = false := by
  obtain ⟨c, b, hc, -, -, -, rfl⟩ := h
  generalize x.feat = ft at hc
  cases hc <;> rfl

theorem sem_mBlock : Sem mBlock fun x f _ => MBlockText x f := by
  have h1 : Sem (ifP (peek2 ";") (do let p ← ident; punct ";"; return some p) (return none) : P (Option String))
      fun x f rest => f = pathTokens x ∧ (x = none → peek2 ";" rest = false) := by
    refine (sem_if (c := peek2 ";") (sem_tok sem_ident fun p => sem_unit (sem_punct ";") (sem_pure (some p))) (sem_pure none)).congr fun x f rest => ?_
    constructor
    · rintro (⟨h, p, _, rfl, _, rfl, rfl, rfl⟩ | ⟨h, rfl, rfl⟩)
      · exact ⟨rfl, nofun⟩
      · exact ⟨rfl, fun _ => h⟩
    · rintro ⟨rfl, h⟩
      cases x with
      | none => exact .inr ⟨h rfl, rfl, rfl⟩
      | some p => exact .inl ⟨rfl, p, _, rfl, _, rfl, rfl, rfl⟩
  have h2 : Sem (do
      let p ← ifP (peek2 ";") (do let p ← ident; punct ";"; return some p) (return none)
      let rs ← many mReg
      return (p, rs) : P (Option String × List MReg)) fun x f rest => (∃ b, Cat MRegText x.2 b ∧ f = pathTokens x.1 ++ b) ∧ rest = [] := by
    refine (sem_bind h1 fun p => sem_bind (sem_many sem_mReg fun _ _ => mReg_ne) fun rs => sem_pure (p, rs)).congr fun x f rest => ?_
    constructor
    · rintro ⟨p, _, _, rfl, ⟨rfl, -⟩, rs, b, _, rfl, ⟨hb, hr⟩, rfl, rfl⟩
      exact ⟨⟨b, hb, by simp⟩, by simpa using hr⟩
    · obtain ⟨p, rs⟩ := x
      rintro ⟨⟨b, hb, rfl⟩, rfl⟩
      refine ⟨p, _, b, rfl, ⟨rfl, fun _ => ?_⟩, rs, b, [], by simp, ⟨hb, rfl⟩, rfl, rfl⟩
      cases rs with
      | nil => cases hb; rfl
      | cons r rs =>
        obtain ⟨f, g, rfl, hf, -⟩ := hb
        rw [List.append_assoc]
        exact mReg_peek2 hf _
  refine (sem_tok sem_ident fun i => sem_group h2 fun x => sem_pure (⟨i, x.1, x.2⟩ : MBlock)).congr fun x f rest => ?_
  constructor
  · rintro ⟨i, _, rfl, ⟨p, rs⟩, _, _, rfl, ⟨b, hb, rfl⟩, rfl, rfl⟩; exact ⟨b, hb, rfl⟩
  · obtain ⟨i, p, rs⟩ := x
    rintro ⟨b, hb, rfl⟩; exact ⟨_, _, rfl, (p, rs), _, _, rfl, ⟨b, hb, rfl⟩, rfl, rfl⟩

theorem sem_map : Sem map fun x f rest => MapText x f ∧ rest = [] := by
  refine (sem_head fun as m as' s => sem_unit (sem_punct "impl") (sem_tok sem_ident fun t => sem_unit (sem_punct "for") (sem_unit (sem_parseIdent s)
    (sem_group sem_items fun items => sem_tok sem_path fun root => sem_unit (sem_punct ";") (sem_bind sem_cratePath fun mr =>
    sem_bind (sem_many sem_mBlock (by rintro a f ⟨b, -, rfl⟩; simp)) fun bs => sem_pure (⟨as, m, as', s, t, items, root, mr, bs⟩ : MInput)))))).congr
      fun x f rest => ?_
  constructor
  · rintro ⟨as, m, as', s, _, hm, rfl, _, rfl, t, _, rfl, _, rfl, _, rfl, items, _, _, rfl, rfl, root, _, rfl, _, rfl, mr, _, _, rfl, rfl, bs, b, _, rfl,
      ⟨hb, hr⟩, rfl, rfl⟩
    exact ⟨⟨hm, b, hb, by simp⟩, by simpa using hr⟩
  · obtain ⟨as, m, as', s, t, items, root, mr, bs⟩ := x
    rintro ⟨⟨hm, b, hb, rfl⟩, rfl⟩
    exact ⟨as, m, as', s, _, hm, by simp only [List.append_assoc]; rfl, _, rfl, t, _, rfl, _, rfl, _, rfl, items, _, _, rfl, rfl, root, _, rfl, _, rfl, mr,
      _, _, rfl, rfl, bs, b, [], by simp, ⟨hb, rfl⟩, rfl, rfl⟩

/-! ## `reg::tokens!` -/

theorem skip_eq (b : Bool) : (if b then [Tok.punct "!"] else []) = skipTokens b := by cases b <;> rfl

theorem sem_skip {β : Type} {k : Bool → P β} {R : Bool → β → List Tok → List Tok → Prop} (hk : ∀ v, Sem (k v) (R v))
    (hn : ∀ v b h rest, R v b h rest → peek "!" (h ++ rest) = false) :
    Sem (opt "!" >>= k) fun b f rest => ∃ (v : Bool) (h : List Tok), f = skipTokens v ++ h ∧ R v b h rest :=
  (sem_optThen hk fun v b h rest hr _ => hn v b h rest hr).congr fun b f rest => by simp only [skip_eq]

theorem sem_tReg : Sem tReg fun x f _ => f = tRegTokens x := by
  refine (sem_attrsThen (fun as => sem_skip (fun sk => sem_tok sem_ident fun i => sem_unit (sem_punct ";") (sem_pure (⟨as, i, sk⟩ : TReg))) ?_) ?_).congr
    fun x f rest => ?_
  · rintro v b h rest ⟨i, _, rfl, -⟩; rfl
  · rintro as b h rest ⟨v, _, rfl, i, _, rfl, -⟩; cases v <;> rfl
  · constructor
    · rintro ⟨as, _, rfl, v, _, rfl, i, _, rfl, _, rfl, rfl, rfl⟩; simp [tRegTokens]
    · rintro rfl; exact ⟨x.attrs, _, by rw [tRegTokens, List.append_assoc], x.skip, _, rfl, x.ident, _, rfl, _, rfl, rfl, rfl⟩

/-- Texts of which there is one for each value. -/
theorem cat_fun {α : Type} {g : α → List Tok} : ∀ {l : List α} {ts : List Tok}, Cat (fun x t => t = g x) l ts ↔ ts = l.flatMap g
  | [], ts => by simp [Cat]
  | a :: l, ts => by simp [Cat, cat_fun]

theorem tReg_ne (x : TReg) : tRegTokens x ≠ [] := by simp [tRegTokens]

theorem sem_tRegs : Sem (many tReg) fun l f rest => f = l.flatMap tRegTokens ∧ rest = [] :=
  (sem_many sem_tReg (by rintro a f rfl; exact tReg_ne a)).congr fun l f rest => by rw [cat_fun]

theorem sem_tBlock : Sem tBlock fun x f _ => f = tBlockTokens x := by
  refine (sem_attrsThen (fun as => sem_visThen (fun v => sem_unit (sem_punct "mod") (sem_skip (fun sk => sem_tok sem_ident fun i =>
    sem_group sem_tRegs fun rs => sem_pure (⟨as, v, i, sk, rs⟩ : TBlock)) ?_)) ?_) ?_).congr fun x f rest => ?_
  · rintro v b h rest ⟨i, _, rfl, -⟩; rfl
  · rintro v b h rest ⟨_, rfl, -⟩; rfl
  · rintro as b h rest ⟨v, _, rfl, _, rfl, -⟩; cases v <;> rfl
  · constructor
    · rintro ⟨as, _, rfl, v, _, rfl, _, rfl, sk, _, rfl, i, _, rfl, rs, _, _, rfl, rfl, rfl, rfl⟩; simp [tBlockTokens]
    · rintro rfl
      exact ⟨x.attrs, _, by simp only [tBlockTokens, List.append_assoc]; rfl, x.vis, _, rfl, _, rfl, x.skip, _, rfl, x.ident, _, rfl, x.regs, _, _, rfl, rfl, rfl, rfl⟩

theorem tBlock_ne (x : TBlock) : tBlockTokens x ≠ [] := by simp [tBlockTokens]

theorem sem_use : Sem (ifP (peek "use") (do punct "use"; punct "macro"; let p ← path; punct ";"; return some p) (return none) : P (Option String))
    fun x f rest => f = useTokens x ∧ (x = none → peek "use" rest = false) := by
  refine (sem_if (c := peek "use") (sem_unit (sem_punct "use") (sem_unit (sem_punct "macro") (sem_tok sem_path fun p => sem_unit (sem_punct ";")
    (sem_pure (some p))))) (sem_pure none)).congr fun x f rest => ?_
  constructor
  · rintro (⟨h, _, rfl, _, rfl, p, _, rfl, _, rfl, rfl, rfl⟩ | ⟨h, rfl, rfl⟩)
    · exact ⟨rfl, nofun⟩
    · exact ⟨rfl, fun _ => h⟩
  · rintro ⟨rfl, h⟩
    cases x with
    | none => exact .inr ⟨h rfl, rfl, rfl⟩
    | some p => exact .inl ⟨rfl, _, rfl, _, rfl, p, _, rfl, _, rfl, rfl, rfl⟩

theorem sem_tokens : Sem tokens fun x f rest => f = tInputTokens x ∧ rest = [] := by
  refine (sem_attrsThen (fun as => sem_visThen (fun v => sem_unit (sem_punct "macro") (sem_tok sem_ident fun n => sem_unit (sem_punct ";")
    (sem_bind sem_use fun prev => sem_tok sem_path fun root => sem_unit (sem_punct ";") (sem_bind sem_cratePath fun mr =>
    sem_bind (sem_many sem_tBlock (by rintro a f rfl; exact tBlock_ne a)) fun bs => sem_pure (⟨prev, as, v, n, root, mr, bs⟩ : TInput))))) ?_) ?_).congr
      fun x f rest => ?_
  · rintro v b h rest ⟨_, rfl, -⟩; rfl
  · rintro as b h rest ⟨v, _, rfl, _, rfl, -⟩; cases v <;> rfl
  · simp only [cat_fun]
    constructor
    · rintro ⟨as, _, rfl, v, _, rfl, _, rfl, n, _, rfl, _, rfl, prev, _, _, rfl, ⟨rfl, -⟩, root, _, rfl, _, rfl, mr, _, _, rfl, rfl, bs, _, _, rfl, ⟨rfl, hr⟩, rfl, rfl⟩
      exact ⟨by simp [tInputTokens], by simpa using hr⟩
    · rintro ⟨rfl, rfl⟩
      exact ⟨x.attrs, _, by simp only [tInputTokens, List.append_assoc]; rfl, x.vis, _, rfl, _, rfl, x.next, _, rfl, _, rfl, x.prev, _, _, rfl, ⟨rfl, fun _ => rfl⟩,
        x.root, _, rfl, _, rfl, x.macroRoot, _, _, rfl, rfl, x.blocks, _, [], by simp, ⟨rfl, rfl⟩, rfl, rfl⟩

/-! ## `reg!` -/

theorem sem_traits : Sem traits fun l f _ => f = [.brace (idents l)] := by
  refine (sem_braced sem_idents).congr fun l f rest => ?_
  constructor
  · rintro ⟨_, ⟨rfl, -⟩, rfl⟩; rfl
  · rintro rfl; exact ⟨_, ⟨rfl, rfl⟩, rfl⟩

theorem sem_fEntry : Sem fEntry fun x f _ => FEntryText x f := by
  refine (sem_tok sem_ident fun k => sem_unit (sem_punct "=>") (sem_ite (sem_tok sem_int fun n => sem_pure (FEntry.offset n))
    (sem_ite (sem_tok sem_int fun n => sem_pure (FEntry.width n)) (sem_ite (sem_tok sem_traits fun l => sem_pure (FEntry.traits l)) sem_fail)))).congr
      fun x f rest => ?_
  constructor
  · rintro ⟨k, _, rfl, _, rfl, ⟨rfl, n, _, rfl, rfl, rfl⟩ | ⟨-, ⟨rfl, n, _, rfl, rfl, rfl⟩ | ⟨-, ⟨rfl, n, _, rfl, rfl, rfl⟩ | ⟨-, h⟩⟩⟩⟩
    · rfl
    · rfl
    · rfl
    · exact h.elim
  · intro h
    cases x with
    | offset n => cases h; exact ⟨_, _, rfl, _, rfl, .inl ⟨rfl, n, _, rfl, rfl, rfl⟩⟩
    | width n => cases h; exact ⟨_, _, rfl, _, rfl, .inr ⟨by decide, .inl ⟨rfl, n, _, rfl, rfl, rfl⟩⟩⟩
    | traits n => cases h; exact ⟨_, _, rfl, _, rfl, .inr ⟨by decide, .inr ⟨by decide, .inl ⟨rfl, n, _, rfl, rfl, rfl⟩⟩⟩⟩

theorem fEntry_ne {x : FEntry} {f : List Tok} (h : FEntryText x f) : f ≠ [] := by
  cases x <;> cases h <;> simp [keyTokens]

theorem once_iff {α : Type} {l : List α} {a : α} : once l = some a ↔ l = [a] := by
  unfold once
  split
  · simp
  · simp only [reduceCtorEq, false_iff]
    rintro rfl
    rename_i h
    exact h _ rfl

/-- Something that has to be there. -/
theorem sem_rField : Sem rField fun x f _ => RFieldText x f := by
  have hk : ∀ as i (es : List FEntry), Sem (match once (es.filterMap FEntry.offset?), once (es.filterMap FEntry.width?) with
      | some o, some w => return ⟨as, i, o, w, es.flatMap FEntry.traits?⟩
      | _, _ => failure : P RField) fun x f _ => ∃ o w, once (es.filterMap FEntry.offset?) = some o ∧ once (es.filterMap FEntry.width?) = some w ∧
        x = ⟨as, i, o, w, es.flatMap FEntry.traits?⟩ ∧ f = [] := by
    intro as i es
    generalize once (es.filterMap FEntry.offset?) = o
    generalize once (es.filterMap FEntry.width?) = w
    cases o with
    | none => exact sem_fail.congr fun b f rest => by simp
    | some o =>
      cases w with
      | none => exact sem_fail.congr fun b f rest => by simp
      | some w => exact (sem_pure _).congr fun b f rest => by simp
  refine (sem_attrsThen (fun as => sem_tok sem_ident fun i => sem_unit (sem_punct "=>") (sem_group (sem_separated sem_fEntry fun _ _ => fEntry_ne) fun es =>
    hk as i es)) ?_).congr
      fun x f rest => ?_
  · rintro as b h rest ⟨i, _, rfl, -⟩; rfl
  · constructor
    · rintro ⟨as, _, rfl, i, _, rfl, _, rfl, es, b, _, rfl, hb, o, w, ho, hw, rfl, rfl⟩
      exact ⟨es, b, hb, once_iff.1 ho, once_iff.1 hw, rfl, by simp [keyTokens]⟩
    · obtain ⟨as, i, o, w, ts⟩ := x
      rintro ⟨es, b, hb, ho, hw, ht, rfl⟩
      simp only at ho hw ht
      subst ht
      exact ⟨as, _, by simp only [List.append_assoc, keyTokens]; rfl, i, _, rfl, _, rfl, es, b, _, rfl, hb, o, w, once_iff.2 ho, once_iff.2 hw, rfl, rfl⟩

theorem rField_ne {x : RField} {f : List Tok} (h : RFieldText x f) : f ≠ [] := by
  obtain ⟨es, b, -, -, -, -, rfl⟩ := h; simp

theorem sem_rEntry : Sem rEntry fun x f _ => REntryText x f := by
  refine (sem_tok sem_ident fun k => sem_unit (sem_punct "=>") (sem_ite (sem_tok sem_int fun n => sem_pure (REntry.address n))
    (sem_ite (sem_bind sem_u8 fun n => sem_pure (REntry.size n)) (sem_ite (sem_tok sem_int fun n => sem_pure (REntry.reset n))
    (sem_ite (sem_tok sem_traits fun l => sem_pure (REntry.traits l)) (sem_ite (sem_group (sem_separated sem_rField fun _ _ => rField_ne) fun l =>
      sem_pure (REntry.fields l)) sem_fail)))))).congr fun x f rest => ?_
  constructor
  · rintro ⟨k, _, rfl, _, rfl, ⟨rfl, n, _, rfl, rfl, rfl⟩ | ⟨-, ⟨rfl, n, _, _, rfl, ⟨hn, rfl⟩, rfl, rfl⟩ | ⟨-, ⟨rfl, n, _, rfl, rfl, rfl⟩ |
      ⟨-, ⟨rfl, n, _, rfl, rfl, rfl⟩ | ⟨-, ⟨rfl, l, b, _, rfl, hb, rfl, rfl⟩ | ⟨-, h⟩⟩⟩⟩⟩⟩
    · rfl
    · exact ⟨hn, rfl⟩
    · rfl
    · rfl
    · exact ⟨b, hb, rfl⟩
    · exact h.elim
  · intro h
    cases x with
    | address n => cases h; exact ⟨_, _, rfl, _, rfl, .inl ⟨rfl, n, _, rfl, rfl, rfl⟩⟩
    | size n => obtain ⟨hn, rfl⟩ := h; exact ⟨_, _, rfl, _, rfl, .inr ⟨by decide, .inl ⟨rfl, n, [.int n], [], rfl, ⟨hn, rfl⟩, rfl, rfl⟩⟩⟩
    | reset n => cases h; exact ⟨_, _, rfl, _, rfl, .inr ⟨by decide, .inr ⟨by decide, .inl ⟨rfl, n, _, rfl, rfl, rfl⟩⟩⟩⟩
    | traits n => cases h; exact ⟨_, _, rfl, _, rfl, .inr ⟨by decide, .inr ⟨by decide, .inr ⟨by decide, .inl ⟨rfl, n, _, rfl, rfl, rfl⟩⟩⟩⟩⟩
    | fields l =>
      obtain ⟨b, hb, rfl⟩ := h
      exact ⟨_, _, rfl, _, rfl, .inr ⟨by decide, .inr ⟨by decide, .inr ⟨by decide, .inr ⟨by decide, .inl ⟨rfl, l, b, _, rfl, hb, rfl, rfl⟩⟩⟩⟩⟩⟩

theorem rEntry_ne {x : REntry} {f : List Tok} (h : REntryText x f) : f ≠ [] := by
  cases x with
  | size n => obtain ⟨-, rfl⟩ := h; simp [keyTokens]
  | fields l => obtain ⟨b, -, rfl⟩ := h; simp [keyTokens]
  | _ => cases h; simp [keyTokens]

theorem sem_rVar : Sem rVar fun x f _ => RVarText x f := by
  have hk : ∀ as v bl i (es : List REntry), Sem (match once (es.filterMap REntry.address?), once (es.filterMap REntry.size?), once (es.filterMap REntry.reset?) with
      | some a, some s, some r => return ⟨as, v, bl, i, a, s, r, es.flatMap REntry.traits?, es.flatMap REntry.fields?⟩
      | _, _, _ => failure : P RVar) fun x f _ => ∃ a s r, once (es.filterMap REntry.address?) = some a ∧ once (es.filterMap REntry.size?) = some s ∧
        once (es.filterMap REntry.reset?) = some r ∧ x = ⟨as, v, bl, i, a, s, r, es.flatMap REntry.traits?, es.flatMap REntry.fields?⟩ ∧ f = [] := by
    intro as v bl i es
    generalize once (es.filterMap REntry.address?) = a
    generalize once (es.filterMap REntry.size?) = s
    generalize once (es.filterMap REntry.reset?) = r
    cases a with
    | none => exact sem_fail.congr fun b f rest => by simp
    | some a =>
      cases s with
      | none => exact sem_fail.congr fun b f rest => by simp
      | some s =>
        cases r with
        | none => exact sem_fail.congr fun b f rest => by simp
        | some r => exact (sem_pure _).congr fun b f rest => by simp
  refine (sem_attrsThen (fun as => sem_visThen (fun v => sem_tok sem_ident fun bl => sem_tok sem_ident fun i => sem_unit (sem_punct "=>")
    (sem_group (sem_separated sem_rEntry fun _ _ => rEntry_ne) fun es => hk as v bl i es)) ?_) ?_).congr fun x f rest => ?_
  · rintro v b h rest ⟨i, _, rfl, -⟩; rfl
  · rintro as b h rest ⟨v, _, rfl, i, _, rfl, -⟩; cases v <;> rfl
  · constructor
    · rintro ⟨as, _, rfl, v, _, rfl, bl, _, rfl, i, _, rfl, _, rfl, es, b, _, rfl, hb, a, s, r, ha, hs, hr, rfl, rfl⟩
      exact ⟨es, b, hb, once_iff.1 ha, once_iff.1 hs, once_iff.1 hr, rfl, rfl, by simp [keyTokens]⟩
    · obtain ⟨as, v, bl, i, a, s, r, ts, fs⟩ := x
      rintro ⟨es, b, hb, ha, hs, hr, ht, hf, rfl⟩
      simp only at ha hs hr ht hf
      subst ht hf
      exact ⟨as, _, by simp only [List.append_assoc, keyTokens]; rfl, v, _, rfl, bl, _, rfl, i, _, rfl, _, rfl, es, b, _, rfl, hb, a, s, r, once_iff.2 ha,
        once_iff.2 hs, once_iff.2 hr, rfl, rfl⟩

theorem rVar_ne {x : RVar} {f : List Tok} (h : RVarText x f) : f ≠ [] := by
  obtain ⟨es, b, -, -, -, -, -, -, rfl⟩ := h; simp

theorem sem_reg : Sem reg fun l f rest => Sep ";" RVarText l f ∧ rest = [] := sem_separated sem_rVar fun _ _ => rVar_ne

/-! ## Tokens -/

theorem sem_sHead {β : Type} {k : List (List Tok) → Option String → String → P β} {R : List (List Tok) → Option String → String → β → List Tok → List Tok → Prop}
    (hk : ∀ as v i, Sem (k as v i) (R as v i)) :
    Sem (do let as ← attrs; let v ← vis; punct "struct"; let i ← ident; k as v i) fun b f rest => ∃ as v i h, f = sHead as v i ++ h ∧ R as v i b h rest := by
  refine (sem_attrsThen (fun as => sem_visThen (fun v => sem_unit (sem_punct "struct") (sem_tok sem_ident fun i => hk as v i)) ?_) ?_).congr fun x f rest => ?_
  · rintro v b h rest ⟨_, rfl, -⟩; rfl
  · rintro as b h rest ⟨v, _, rfl, _, rfl, -⟩; cases v <;> rfl
  · constructor
    · rintro ⟨as, _, rfl, v, _, rfl, _, rfl, i, h, rfl, hr⟩; exact ⟨as, v, i, h, by simp [sHead], hr⟩
    · rintro ⟨as, v, i, h, rfl, hr⟩; exact ⟨as, _, by simp only [sHead, List.append_assoc]; rfl, v, _, rfl, _, rfl, i, h, rfl, hr⟩

theorem sem_simpleToken : Sem simpleToken fun x f rest => ∃ b : Bool, f = sHead x.attrs x.vis x.ident ++ (if b then [.punct ";"] else []) ∧
    (b = false → peek ";" rest = false) := by
  refine (sem_sHead fun as v i => sem_bind (sem_opt ";") fun _ => sem_pure (⟨as, v, i⟩ : SToken)).congr fun x f rest => ?_
  constructor
  · rintro ⟨as, v, i, _, rfl, b, _, _, rfl, ⟨rfl, hb⟩, rfl, rfl⟩; exact ⟨b, by simp, hb⟩
  · rintro ⟨b, rfl, hb⟩; exact ⟨_, _, _, _, rfl, b, _, [], by simp, ⟨rfl, hb⟩, rfl, rfl⟩

theorem sem_sToken : Sem sToken fun n f _ => f = [.ident (n ++ "Token")] := by
  refine (sem_tok sem_ident fun n => sem_ite (sem_pure _) sem_fail).congr fun x f rest => ?_
  constructor
  · rintro ⟨n, _, rfl, ⟨hn, rfl, rfl⟩ | ⟨-, h⟩⟩
    · obtain ⟨l, hl⟩ := List.isSuffixOf_iff_suffix.1 hn
      congr 2
      apply String.toList_inj.1
      simp only [String.toList_append, String.toList_ofList, ← hl]
      congr 1
      rw [List.length_append, show "Token".toList.length = "Token".length from rfl, Nat.add_sub_cancel, List.take_left]
    · exact h.elim
  · rintro rfl
    refine ⟨_, _, rfl, .inl ⟨List.isSuffixOf_iff_suffix.2 (by simp), ?_, rfl⟩⟩
    apply String.toList_inj.1
    rw [String.toList_ofList, String.toList_append, List.length_append, show "Token".toList.length = "Token".length from rfl, Nat.add_sub_cancel, List.take_left]

theorem sem_simpleTokens : Sem simpleTokens fun x f _ => SimpleTokensText x f := by
  refine (sem_sHead fun as v i => sem_group (sem_separated sem_sToken (by rintro a f rfl; simp)) fun ts => sem_pure (⟨as, v, i, ts⟩ : STokens)).congr
    fun x f rest => ?_
  constructor
  · rintro ⟨as, v, i, _, rfl, ts, b, _, rfl, hb, rfl, rfl⟩; exact ⟨b, hb, rfl⟩
  · rintro ⟨b, hb, rfl⟩; exact ⟨_, _, _, _, rfl, _, b, _, rfl, hb, rfl, rfl⟩

theorem sem_stToken : Sem stToken fun x f _ => f = stTokens x := by
  refine (sem_attrsThen (fun as => sem_tok sem_ident fun i => sem_unit (sem_punct ":") (sem_tok sem_ty fun t => sem_pure (⟨as, i, t⟩ : StToken))) ?_).congr
    fun x f rest => ?_
  · rintro as b h rest ⟨i, _, rfl, -⟩; rfl
  · constructor
    · rintro ⟨as, _, rfl, i, _, rfl, _, rfl, t, _, rfl, rfl, rfl⟩; rfl
    · rintro rfl; exact ⟨_, _, rfl, _, _, rfl, _, rfl, _, _, rfl, rfl, rfl⟩

theorem sem_staticTokens : Sem staticTokens fun x f _ => StaticTokensText x f := by
  refine (sem_sHead fun as v i => sem_group (sem_separated sem_stToken (by rintro a f rfl; simp [stTokens])) fun ts => sem_pure (⟨as, v, i, ts⟩ : StTokens)).congr
    fun x f rest => ?_
  constructor
  · rintro ⟨as, v, i, _, rfl, ts, b, _, rfl, hb, rfl, rfl⟩; exact ⟨b, hb, rfl⟩
  · rintro ⟨b, hb, rfl⟩; exact ⟨_, _, _, _, rfl, _, b, _, rfl, hb, rfl, rfl⟩

end Verif.Gram
