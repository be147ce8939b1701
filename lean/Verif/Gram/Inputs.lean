import Verif.Gram.Lemmas
/-! # What the parsers of the macros read -/
namespace Verif.Gram
open Verif.CfgCond

theorem sem_tok {α β : Type} {p : P α} {tk : α → Tok} {k : α → P β} {R : α → β → List Tok → List Tok → Prop} (hp : Sem p fun a f _ => f = [tk a])
    (hk : ∀ a, Sem (k a) (R a)) : Sem (p >>= k) fun b f rest => ∃ a h, f = tk a :: h ∧ R a b h rest := by
  refine (sem_bind hp hk).congr fun b f rest => ?_
  constructor
  · rintro ⟨a, g, h, rfl, rfl, hr⟩; exact ⟨a, h, rfl, hr⟩
  · rintro ⟨a, h, rfl, hr⟩; exact ⟨a, _, h, rfl, rfl, hr⟩

theorem sem_unit {β : Type} {p : P Unit} {t : Tok} {k : Unit → P β} {R : β → List Tok → List Tok → Prop} (hp : Sem p fun _ f _ => f = [t])
    (hk : Sem (k ()) R) : Sem (p >>= k) fun b f rest => ∃ h, f = t :: h ∧ R b h rest := by
  refine (sem_bind hp (R' := fun _ => R) fun _ => hk).congr fun b f rest => ?_
  constructor
  · rintro ⟨a, g, h, rfl, rfl, hr⟩; exact ⟨h, rfl, hr⟩
  · rintro ⟨h, rfl, hr⟩; exact ⟨(), _, h, rfl, rfl, hr⟩

/-- A group. -/
theorem sem_group {α β : Type} {p : P α} {R : α → List Tok → Prop} {k : α → P β} {R' : α → β → List Tok → List Tok → Prop}
    (hp : Sem p fun l f rest => R l f ∧ rest = []) (hk : ∀ a, Sem (k a) (R' a)) :
    Sem (braced p >>= k) fun b f rest => ∃ a c h, f = .brace c :: h ∧ R a c ∧ R' a b h rest := by
  refine (sem_bind (sem_braced hp) hk).congr fun b f rest => ?_
  constructor
  · rintro ⟨a, g, h, rfl, ⟨c, ⟨hc, -⟩, rfl⟩, hr⟩; exact ⟨a, c, h, rfl, hc, hr⟩
  · rintro ⟨a, c, h, rfl, hc, hr⟩; exact ⟨a, _, h, rfl, ⟨c, ⟨hc, rfl⟩, rfl⟩, hr⟩

theorem sem_anyParens : Sem (parens fun ts => anyLoop ts.length ts) fun l f _ => ∃ b, Sep "," (fun k t => t = litTokens k) l b ∧ f = [.paren b] := by
  have hw : ∀ b l, whole (fun ts => anyLoop ts.length ts) b = some l ↔ Sep "," (fun k t => t = litTokens k) l b := by
    intro b l
    rw [← anyLoop_iff _ _ _ (Nat.le_refl _)]
    unfold whole
    constructor
    · intro h; split at h
      · cases h; assumption
      · cases h
    · intro h; simp only [h]
  intro ts a rest
  unfold parens
  constructor
  · intro h
    split at h
    · obtain ⟨x, hx, e⟩ := Option.map_eq_some_iff.1 h
      cases e
      exact ⟨_, ⟨_, (hw _ _).1 hx, rfl⟩, rfl⟩
    · cases h
  · rintro ⟨f, ⟨b, hb, rfl⟩, rfl⟩
    simp [(hw _ _).2 hb]

/-- The content of `cfg(…)`. -/
def BodyText (l : List Lit) (f : List Tok) : Prop :=
  (∃ k, k.1 ≠ "any" ∧ l = [k] ∧ f = litTokens k) ∨ ∃ b, Sep "," (fun k t => t = litTokens k) l b ∧ f = [.ident "any", .paren b]

theorem sem_cfgBody : Sem cfgBody fun l f _ => BodyText l f := by
  refine (sem_tok sem_ident fun i => sem_ite sem_anyParens (sem_unit (sem_punct "=") (sem_tok sem_str fun v => sem_pure [(i, v)]))).congr fun l f rest => ?_
  constructor
  · rintro ⟨i, h, rfl, ⟨rfl, b, hb, rfl⟩ | ⟨hi, h', rfl, v, h'', rfl, rfl, rfl⟩⟩
    · exact .inr ⟨b, hb, rfl⟩
    · exact .inl ⟨(i, v), hi, rfl, rfl⟩
  · rintro (⟨⟨i, v⟩, hi, rfl, rfl⟩ | ⟨b, hb, rfl⟩)
    · exact ⟨i, _, rfl, .inr ⟨hi, _, rfl, v, _, rfl, rfl, rfl⟩⟩
    · exact ⟨"any", _, rfl, .inl ⟨rfl, b, hb, rfl⟩⟩

theorem sem_cond : Sem cfgCond fun c f rest => CondText c f ∧ (f = [] → peek "#" rest = false) := by
  refine (sem_bind (sem_if (sem_unit (sem_punct "#") (sem_bracketed (sem_unit (sem_parseIdent "cfg") (sem_parens sem_cfgBody)))) (sem_pure []))
    fun l => sem_pure (CfgCond.parse l)).congr fun c f rest => ?_
  constructor
  · rintro ⟨l, g, h, rfl, (⟨hp, h', rfl, b, ⟨b', rfl, c', hb, rfl⟩, rfl⟩ | ⟨hp, rfl, rfl⟩), rfl, rfl⟩
    · refine ⟨?_, by simp⟩
      rcases hb with ⟨k, hk, rfl, rfl⟩ | ⟨b, hb, rfl⟩
      · exact .lit k hk
      · have := CondText.any l b hb
        simp only [CfgCond.parse, List.isEmpty_iff]
        rw [List.append_nil]
        exact this
    · exact ⟨.none, fun _ => by simpa using hp⟩
  · rintro ⟨hc, hf⟩
    cases hc with
    | none => exact ⟨[], [], [], rfl, .inr ⟨hf rfl, rfl, rfl⟩, rfl, rfl⟩
    | lit k hk =>
      exact ⟨[k], _, [], by rw [List.append_nil]; rfl, .inl ⟨rfl, _, rfl, _, ⟨_, rfl, _, .inl ⟨k, hk, rfl, rfl⟩, rfl⟩, rfl⟩, rfl, rfl⟩
    | any l b hb =>
      refine ⟨l, _, [], by rw [List.append_nil]; rfl, .inl ⟨rfl, _, rfl, _, ⟨_, rfl, _, .inr ⟨b, hb, rfl⟩, rfl⟩, rfl⟩, ?_, rfl⟩
      simp only [CfgCond.parse, List.isEmpty_iff]

/-- A condition in front of an identifier. -/
theorem sem_condIdent {β : Type} {k : Cond Lit → String → P β} {R : Cond Lit → String → β → List Tok → List Tok → Prop} (hk : ∀ c i, Sem (k c i) (R c i)) :
    Sem (cfgCond >>= fun c => ident >>= k c) fun b f rest => ∃ c i t h, CondText c t ∧ f = t ++ .ident i :: h ∧ R c i b h rest := by
  refine (sem_bind sem_cond fun c => sem_tok sem_ident (hk c)).congr fun b f rest => ?_
  constructor
  · rintro ⟨c, g, h, rfl, ⟨hc, -⟩, i, h', rfl, hr⟩; exact ⟨c, i, g, h', hc, rfl, hr⟩
  · rintro ⟨c, i, t, h, hc, rfl, hr⟩; exact ⟨c, t, _, rfl, ⟨hc, fun _ => rfl⟩, i, h, rfl, hr⟩

/-- Attributes in front of something that is no attribute. -/
theorem sem_attrsThen {β : Type} {k : List (List Tok) → P β} {R : List (List Tok) → β → List Tok → List Tok → Prop} (hk : ∀ as, Sem (k as) (R as))
    (hn : ∀ as b h rest, R as b h rest → peek "#" (h ++ rest) = false) :
    Sem (attrs >>= k) fun b f rest => ∃ as h, f = attrTokens as ++ h ∧ R as b h rest := by
  refine (sem_bind sem_attrs hk).congr fun b f rest => ?_
  constructor
  · rintro ⟨as, g, h, rfl, ⟨rfl, -⟩, hr⟩; exact ⟨as, h, rfl, hr⟩
  · rintro ⟨as, h, rfl, hr⟩; exact ⟨as, _, h, rfl, ⟨rfl, hn _ _ _ _ hr⟩, hr⟩

/-- A visibility in front of something that is none. -/
theorem sem_visThen {β : Type} {k : Option String → P β} {R : Option String → β → List Tok → List Tok → Prop} (hk : ∀ v, Sem (k v) (R v))
    (hn : ∀ v b h rest, R v b h rest → startsVis (h ++ rest) = false) :
    Sem (vis >>= k) fun b f rest => ∃ v h, f = visTokens v ++ h ∧ R v b h rest := by
  refine (sem_bind sem_vis hk).congr fun b f rest => ?_
  constructor
  · rintro ⟨v, g, h, rfl, ⟨rfl, -⟩, hr⟩; exact ⟨v, h, rfl, hr⟩
  · rintro ⟨v, h, rfl, hr⟩; exact ⟨v, _, h, rfl, ⟨rfl, fun _ => hn _ _ _ _ hr⟩, hr⟩

/-- An optional token in front of something else. -/
theorem sem_optThen {β : Type} {p : String} {k : Bool → P β} {R : Bool → β → List Tok → List Tok → Prop} (hk : ∀ v, Sem (k v) (R v))
    (hn : ∀ v b h rest, R v b h rest → v = false → peek p (h ++ rest) = false) :
    Sem (opt p >>= k) fun b f rest => ∃ (v : Bool) (h : List Tok), f = (if v then [.punct p] else []) ++ h ∧ R v b h rest := by
  refine (sem_bind (sem_opt p) hk).congr fun b f rest => ?_
  constructor
  · rintro ⟨v, g, h, rfl, ⟨rfl, -⟩, hr⟩; exact ⟨v, h, rfl, hr⟩
  · rintro ⟨v, h, rfl, hr⟩; exact ⟨v, _, h, rfl, ⟨rfl, fun e => hn _ _ _ _ hr e⟩, hr⟩

/-! ## `periph::singular!` -/

theorem sem_gField : Sem gField fun x f _ => GFieldText x f := by
  refine (sem_condIdent fun c i => sem_unit (sem_punct ";") (sem_pure (⟨c, i⟩ : GField))).congr fun x f rest => ?_
  constructor
  · rintro ⟨c, i, t, h, hc, rfl, h', rfl, rfl, rfl⟩; exact ⟨t, hc, rfl⟩
  · rintro ⟨t, hc, rfl⟩; exact ⟨x.feat, x.ident, t, _, hc, rfl, _, rfl, rfl, rfl⟩

theorem sem_gReg : Sem gReg fun x f _ => GRegText x f := by
  refine (sem_condIdent fun c i => sem_bind (sem_if (sem_unit (sem_punct ";") (sem_pure []))
    (sem_braced (sem_many sem_gField (by rintro a f ⟨c, -, rfl⟩; simp)))) fun fs => sem_pure (⟨c, i, fs⟩ : GReg)).congr fun x f rest => ?_
  constructor
  · rintro ⟨c, i, t, h, hc, rfl, fs, g, h', rfl, (⟨hp, h'', rfl, rfl, rfl⟩ | ⟨hp, b, ⟨hb, -⟩, rfl⟩), rfl, rfl⟩
    · exact ⟨t, hc, .inl ⟨rfl, rfl⟩⟩
    · exact ⟨t, hc, .inr ⟨b, hb, rfl⟩⟩
  · obtain ⟨c, i, fs⟩ := x
    rintro ⟨t, hc, ⟨h1, rfl⟩ | ⟨b, hb, rfl⟩⟩
    · simp only at h1; subst h1
      exact ⟨c, i, t, _, hc, rfl, [], [.punct ";"], [], rfl, .inl ⟨rfl, _, rfl, rfl, rfl⟩, rfl, rfl⟩
    · exact ⟨c, i, t, _, hc, rfl, fs, [.brace b], [], rfl, .inr ⟨rfl, b, ⟨hb, rfl⟩, rfl⟩, rfl, rfl⟩

theorem gReg_ne {x : GReg} {f : List Tok} (h : GRegText x f) : f ≠ [] := by
  rcases h with ⟨c, -, ⟨-, rfl⟩ | ⟨b, -, rfl⟩⟩ <;> simp

theorem sem_gBlock : Sem gBlock fun x f _ => GBlockText x f := by
  refine (sem_tok sem_ident fun i => sem_group (sem_many sem_gReg fun _ _ => gReg_ne) fun rs => sem_pure (⟨i, rs⟩ : GBlock)).congr fun x f rest => ?_
  constructor
  · rintro ⟨i, h, rfl, rs, b, h', rfl, hb, rfl, rfl⟩; exact ⟨b, hb, rfl⟩
  · rintro ⟨b, hb, rfl⟩; exact ⟨_, _, rfl, _, _, _, rfl, hb, rfl, rfl⟩

theorem sem_cratePath : Sem cratePath fun p f _ => f = crateTokens p := by
  refine (sem_unit (sem_punct "crate") (sem_if (sem_unit (sem_punct ";") (sem_pure none))
    (sem_tok sem_path fun p => sem_unit (sem_punct ";") (sem_pure (some p))))).congr fun p f rest => ?_
  constructor
  · rintro ⟨h, rfl, ⟨-, h', rfl, rfl, rfl⟩ | ⟨-, p, h', rfl, h'', rfl, rfl, rfl⟩⟩
    · rfl
    · rfl
  · rintro rfl
    cases p with
    | none => exact ⟨_, rfl, .inl ⟨rfl, _, rfl, rfl, rfl⟩⟩
    | some p => exact ⟨_, rfl, .inr ⟨rfl, p, _, rfl, _, rfl, rfl, rfl⟩⟩

theorem sem_macroIdent : Sem macroIdent fun i f _ => "periph_".toList <+: i.toList ∧ f = [.ident i] := by
  refine (sem_tok sem_ident fun i => sem_ite (sem_pure i) sem_fail).congr fun x f rest => ?_
  constructor
  · rintro ⟨i, h, rfl, ⟨hp, rfl, rfl⟩ | ⟨-, h⟩⟩
    · exact ⟨List.isPrefixOf_iff_prefix.1 hp, rfl⟩
    · exact h.elim
  · rintro ⟨hp, rfl⟩
    exact ⟨x, _, rfl, .inl ⟨List.isPrefixOf_iff_prefix.2 hp, rfl, rfl⟩⟩

/-- `pub macro name;` and `pub struct name;`, and what follows. -/
theorem sem_head {β : Type} {k : List (List Tok) → String → List (List Tok) → String → P β}
    {R : List (List Tok) → String → List (List Tok) → String → β → List Tok → List Tok → Prop} (hk : ∀ as m as' s, Sem (k as m as' s) (R as m as' s)) :
    Sem (do let as ← attrs; pub; punct "macro"; let m ← macroIdent; punct ";"; let as' ← attrs; pub; punct "struct"; let s ← ident; punct ";"; k as m as' s)
      fun b f rest => ∃ as m as' s h, "periph_".toList <+: m.toList ∧ f = headTokens as m as' s ++ h ∧ R as m as' s b h rest := by
  refine (sem_attrsThen (fun as => sem_unit sem_pub (sem_unit (sem_punct "macro") (sem_bind sem_macroIdent fun m => sem_unit (sem_punct ";")
    (sem_attrsThen (fun as' => sem_unit sem_pub (sem_unit (sem_punct "struct") (sem_tok sem_ident fun s => sem_unit (sem_punct ";") (hk as m as' s)))) ?_)))) ?_).congr
      fun b f rest => ?_
  · rintro as' b h rest ⟨h', rfl, -⟩; rfl
  · rintro as b h rest ⟨h', rfl, -⟩; rfl
  · constructor
    · rintro ⟨as, _, rfl, _, rfl, _, rfl, m, g, _, rfl, ⟨hm, rfl⟩, _, rfl, as', _, rfl, _, rfl, _, rfl, s, _, rfl, h, rfl, hr⟩
      exact ⟨as, m, as', s, h, hm, by simp [headTokens], hr⟩
    · rintro ⟨as, m, as', s, h, hm, rfl, hr⟩
      refine ⟨as, _, ?_, _, rfl, _, rfl, m, _, _, rfl, ⟨hm, rfl⟩, _, rfl, as', _, rfl, _, rfl, _, rfl, s, _, rfl, h, rfl, hr⟩
      simp [headTokens]

theorem sem_singular : Sem singular fun x f rest => SingularText x f ∧ rest = [] := by
  refine (sem_head fun as m as' s => sem_tok sem_path fun root => sem_unit (sem_punct ";") (sem_bind sem_cratePath fun mr =>
    sem_bind (sem_many sem_gBlock (by rintro a f ⟨b, -, rfl⟩; simp)) fun bs => sem_pure (⟨as, m, as', s, root, mr, bs⟩ : GInput))).congr fun x f rest => ?_
  constructor
  · rintro ⟨as, m, as', s, _, hm, rfl, root, _, rfl, _, rfl, mr, _, _, rfl, rfl, bs, b, _, rfl, ⟨hb, hr⟩, rfl, rfl⟩
    exact ⟨⟨hm, b, hb, by simp⟩, by simpa using hr⟩
  · obtain ⟨as, m, as', s, root, mr, bs⟩ := x
    rintro ⟨⟨hm, b, hb, rfl⟩, rfl⟩
    exact ⟨as, m, as', s, _, hm, by simp only [List.append_assoc]; rfl, root, _, rfl, _, rfl, mr, _, _, rfl, rfl, bs, b, [], by simp, ⟨hb, rfl⟩, rfl, rfl⟩

/-! ## `periph!` -/

theorem sem_pField : Sem pField fun x f _ => PFieldText x f := by
  refine (sem_condIdent fun c i => sem_group sem_idents fun ts => sem_pure (⟨c, i, ts⟩ : PField)).congr fun x f rest => ?_
  constructor
  · rintro ⟨c, i, t, _, hc, rfl, ts, b, _, rfl, rfl, rfl, rfl⟩; exact ⟨t, hc, rfl⟩
  · rintro ⟨t, hc, rfl⟩; exact ⟨_, _, t, _, hc, rfl, _, _, _, rfl, rfl, rfl, rfl⟩

theorem pField_ne {x : PField} {f : List Tok} (h : PFieldText x f) : f ≠ [] := by
  rcases h with ⟨c, -, rfl⟩; simp

theorem cond_at {c : Cond Lit} {t : List Tok} (h : CondText c t) (i : String) (r : List Tok) : peek "@" (t ++ .ident i :: r) = false := by
  cases h <;> rfl

theorem pField_at {x : PField} {f : List Tok} (h : PFieldText x f) (r : List Tok) : peek "@" (f ++ r) = false := by
  rcases h with ⟨c, hc, rfl⟩
  rw [List.append_assoc]
  exact cond_at hc _ _

/-- The name of a variant, in front of something else. -/
theorem sem_varIdent {β : Type} {k : Option String → P β} {R : Option String → β → List Tok → List Tok → Prop} (hk : ∀ v, Sem (k v) (R v))
    (hn : ∀ b h rest, R none b h rest → peek "@" (h ++ rest) = false) :
    Sem (varIdent >>= k) fun b f rest => ∃ v h, f = atTokens v ++ h ∧ R v b h rest := by
  have hv : Sem varIdent fun v f rest => f = atTokens v ∧ (v = none → peek "@" rest = false) := by
    have h1 : ∀ b : Bool, Sem (if b then (do return some (← ident)) else return none : P (Option String)) fun v f _ =>
        (b = true ∧ ∃ i, v = some i ∧ f = [.ident i]) ∨ (b = false ∧ v = none ∧ f = []) := by
      intro b
      refine (sem_ite (sem_tok sem_ident fun i => sem_pure (some i)) (sem_pure none)).congr fun v f rest => ?_
      constructor
      · rintro (⟨hb, i, _, rfl, rfl, rfl⟩ | ⟨hb, rfl, rfl⟩)
        · exact .inl ⟨hb, i, rfl, rfl⟩
        · exact .inr ⟨by simpa using hb, rfl, rfl⟩
      · rintro (⟨hb, i, rfl, rfl⟩ | ⟨hb, rfl, rfl⟩)
        · exact .inl ⟨hb, i, _, rfl, rfl, rfl⟩
        · exact .inr ⟨by simpa using hb, rfl, rfl⟩
    refine (sem_bind (sem_opt "@") h1).congr fun v f rest => ?_
    constructor
    · rintro ⟨b, g, h, rfl, ⟨rfl, hb⟩, ⟨rfl, i, rfl, rfl⟩ | ⟨rfl, rfl, rfl⟩⟩
      · exact ⟨rfl, nofun⟩
      · exact ⟨rfl, fun _ => hb rfl⟩
    · rintro ⟨rfl, h⟩
      cases v with
      | some i => exact ⟨true, _, _, rfl, ⟨rfl, nofun⟩, .inl ⟨rfl, i, rfl, rfl⟩⟩
      | none => exact ⟨false, [], [], rfl, ⟨rfl, fun _ => h rfl⟩, .inr ⟨rfl, rfl, rfl⟩⟩
  refine (sem_bind hv hk).congr fun b f rest => ?_
  constructor
  · rintro ⟨v, g, h, rfl, ⟨rfl, -⟩, hr⟩; exact ⟨v, h, rfl, hr⟩
  · rintro ⟨v, h, rfl, hr⟩
    refine ⟨v, _, h, rfl, ⟨rfl, ?_⟩, hr⟩
    rintro rfl
    exact hn _ _ _ hr

theorem sem_u8 : Sem u8 fun n f _ => n < 256 ∧ f = [.int n] := by
  refine (sem_tok sem_int fun n => sem_ite (sem_pure n) sem_fail).congr fun n f rest => ?_
  constructor
  · rintro ⟨m, _, rfl, ⟨hm, rfl, rfl⟩ | ⟨-, h⟩⟩
    · exact ⟨hm, rfl⟩
    · exact h.elim
  · rintro ⟨hn, rfl⟩; exact ⟨n, _, rfl, .inl ⟨hn, rfl, rfl⟩⟩

theorem varEnd_false {i : Option String} {ts : List Tok} (h : ts ≠ []) (h' : peek "@" ts = false) : varEnd i ts = false := by
  cases ts with
  | nil => exact absurd rfl h
  | cons t ts => simp [varEnd, h']

theorem sem_pVar : Sem pVar fun x f rest => PVarText x f ∧ varEnd x.ident rest = true := by
  have hs : ∀ i, Sem (whileNot (varEnd i) pField) _ := fun i => sem_whileNot (stop := varEnd i) sem_pField (fun a f _ => pField_ne) fun a f r hr =>
    varEnd_false (by simp [pField_ne hr]) (pField_at hr r)
  refine (sem_varIdent (fun i => sem_bind sem_u8 fun n => sem_bind sem_identsSemi fun ts => sem_unit (sem_punct ";")
    (sem_bind (hs i) fun fs => sem_pure (⟨i, n, ts, fs⟩ : PVar))) ?_).congr fun x f rest => ?_
  · rintro b h rest ⟨n, g, h', rfl, ⟨-, rfl⟩, -⟩; rfl
  · simp only [cat3_cat]
    constructor
    · rintro ⟨i, _, rfl, n, _, _, rfl, ⟨hn, rfl⟩, ts, _, _, rfl, ⟨rfl, -⟩, _, rfl, fs, b, _, rfl, ⟨hb, he⟩, rfl, rfl⟩
      exact ⟨⟨hn, b, hb, by simp⟩, by simpa using he⟩
    · obtain ⟨i, n, ts, fs⟩ := x
      rintro ⟨⟨hn, b, hb, rfl⟩, he⟩
      exact ⟨i, _, by simp only [List.append_assoc, List.cons_append]; rfl, n, [.int n], _, rfl, ⟨hn, rfl⟩, ts, _, _, rfl, ⟨rfl, rfl⟩, _, rfl, fs, b, [],
        by simp, ⟨hb, he⟩, rfl, rfl⟩

theorem pVar_ne {x : PVar} {f : List Tok} (h : PVarText x f) : f ≠ [] := by
  rcases h with ⟨-, c, -, rfl⟩; simp

/-- Variants that look at what follows them: all but the last need a name, and the next ones too. -/
theorem cat_vars {α : Type} {R : α → List Tok → Prop} {nm : α → Option String} (hne : ∀ a f, R a f → f ≠ [])
    (hat : ∀ a f r, R a f → peek "@" (f ++ r) = (nm a).isSome) {l : List α} {ts : List Tok} :
    Cat3 (fun a f rest => R a f ∧ varEnd (nm a) rest = true) l ts [] ↔ Cat R l ts ∧ (l.length ≤ 1 ∨ ∀ v ∈ l, (nm v).isSome) := by
  induction l generalizing ts with
  | nil => simp [Cat3, Cat]
  | cons a l ih =>
    simp only [Cat3, Cat, ih, List.append_nil]
    constructor
    · rintro ⟨f, r, rfl, ⟨hf, he⟩, hc, hl⟩
      refine ⟨⟨f, r, rfl, hf, hc⟩, ?_⟩
      cases l with
      | nil => exact .inl (by simp)
      | cons b l =>
        obtain ⟨g, r', rfl, hg, hc⟩ := hc
        have h1 : g ++ r' ≠ [] := by simp [hne _ _ hg]
        simp only [varEnd, hat _ _ _ hg, Bool.or_eq_true, List.isEmpty_iff, Bool.and_eq_true] at he
        have he := he.resolve_left h1
        refine .inr fun v hv => ?_
        rcases List.mem_cons.1 hv with rfl | hv
        · exact he.1
        · rcases hl with hl | hl
          · simp only [List.length_cons] at hl
            have : l = [] := List.length_eq_zero_iff.1 (by omega)
            subst this
            rcases List.mem_singleton.1 hv with rfl
            exact he.2
          · exact hl v hv
    · rintro ⟨⟨f, r, rfl, hf, hc⟩, hl⟩
      refine ⟨f, r, rfl, ⟨hf, ?_⟩, hc, ?_⟩
      · cases l with
        | nil => cases hc; simp [varEnd]
        | cons b l =>
          obtain ⟨g, r', rfl, hg, hc⟩ := hc
          rcases hl with hl | hl
          · simp at hl
          · simp [varEnd, hat _ _ _ hg, hl a (.head _), hl b (.tail _ (.head _))]
      · rcases hl with hl | hl
        · simp only [List.length_cons] at hl; exact .inl (by omega)
        · exact .inr fun v hv => hl v (.tail _ hv)

theorem pVar_at {x : PVar} {f : List Tok} (h : PVarText x f) (r : List Tok) : peek "@" (f ++ r) = x.ident.isSome := by
  obtain ⟨i, n, ts, fs⟩ := x
  obtain ⟨-, b, -, rfl⟩ := h
  cases i <;> rfl

theorem sem_pVars : Sem (many pVar) fun l f rest => Cat3 (fun a f rest => PVarText a f ∧ varEnd a.ident rest = true) l f rest ∧ rest = [] :=
  (sem_whileNot sem_pVar (fun a f _ h => pVar_ne h.1) fun a f r hr => by
    have := pVar_ne hr.1
    cases f with
    | nil => exact absurd rfl this
    | cons t f => rfl).congr fun l f rest => by simp

theorem sem_pReg : Sem pReg fun x f _ => PRegText x f := by
  have hv : Sem (do let v ← pVar; let vs ← many pVar; return v :: vs : P (List PVar)) fun l f rest =>
      (l ≠ [] ∧ Cat3 (fun a f rest => PVarText a f ∧ varEnd a.ident rest = true) l f rest) ∧ rest = [] := by
    refine (sem_bind sem_pVar fun v => sem_bind sem_pVars fun vs => sem_pure (v :: vs)).congr fun l f rest => ?_
    constructor
    · rintro ⟨v, g, _, rfl, hg, vs, h, _, rfl, ⟨hc, hr⟩, rfl, rfl⟩
      have hr : rest = [] := by simpa using hr
      subst hr
      exact ⟨⟨nofun, g, h, by simp, by simpa using hg, by simpa using hc⟩, rfl⟩
    · rintro ⟨⟨hl, hc⟩, rfl⟩
      cases l with
      | nil => exact absurd rfl hl
      | cons v vs =>
        obtain ⟨g, h, rfl, hg, hc⟩ := hc
        exact ⟨v, g, h, rfl, hg, vs, h, [], by simp, ⟨by simpa using hc, rfl⟩, rfl, rfl⟩
  refine (sem_condIdent fun c i => sem_bind (sem_braced hv) fun vs => sem_pure (⟨c, i, vs⟩ : PReg)).congr fun x f rest => ?_
  have hl : ∀ l : List PVar, l ≠ [] → (l.length ≤ 1 ↔ l.length = 1) := by
    intro l hl
    have := List.length_pos_iff.2 hl
    omega
  constructor
  · rintro ⟨c, i, t, _, hc, rfl, vs, _, _, rfl, ⟨b, ⟨⟨hne, hb⟩, -⟩, rfl⟩, rfl, rfl⟩
    rw [cat_vars (R := PVarText) (nm := PVar.ident) (fun a f => pVar_ne) fun a f r h => pVar_at h r, hl _ hne] at hb
    exact ⟨t, b, hc, hne, hb.2, hb.1, rfl⟩
  · obtain ⟨c, i, vs⟩ := x
    rintro ⟨t, b, hc, hne, h1, h2, rfl⟩
    refine ⟨c, i, t, _, hc, rfl, vs, [.brace b], [], rfl, ⟨b, ⟨⟨hne, ?_⟩, rfl⟩, rfl⟩, rfl, rfl⟩
    rw [cat_vars (R := PVarText) (nm := PVar.ident) (fun a f => pVar_ne) fun a f r h => pVar_at h r, hl _ hne]
    exact ⟨h2, h1⟩

theorem sem_pBlock : Sem pBlock fun x f _ => PBlockText x f := by
  refine (sem_tok sem_ident fun i => sem_group (sem_many sem_pReg (by rintro a f ⟨c, b, -, -, -, -, rfl⟩; simp)) fun rs =>
    sem_pure (⟨i, rs⟩ : PBlock)).congr fun x f rest => ?_
  constructor
  · rintro ⟨i, h, rfl, rs, b, h', rfl, hb, rfl, rfl⟩; exact ⟨b, hb, rfl⟩
  · rintro ⟨b, hb, rfl⟩; exact ⟨_, _, rfl, _, _, _, rfl, hb, rfl, rfl⟩

theorem sem_periph : Sem periph fun x f rest => PeriphText x f ∧ rest = [] := by
  refine (sem_attrsThen (fun as => sem_unit sem_pub (sem_unit (sem_punct "trait") (sem_tok sem_ident fun t => sem_group sem_items fun items =>
    sem_attrsThen (fun as' => sem_unit sem_pub (sem_unit (sem_punct "struct") (sem_tok sem_ident fun s => sem_unit (sem_punct ";")
      (sem_bind (sem_many sem_pBlock (by rintro a f ⟨b, -, rfl⟩; simp)) fun bs => sem_pure (⟨as, t, items, as', s, bs⟩ : PInput))))) ?_))) ?_).congr
        fun x f rest => ?_
  · rintro as' b h rest ⟨h', rfl, -⟩; rfl
  · rintro as b h rest ⟨h', rfl, -⟩; rfl
  · constructor
    · rintro ⟨as, _, rfl, _, rfl, _, rfl, t, _, rfl, items, _, _, rfl, rfl, as', _, rfl, _, rfl, _, rfl, s, _, rfl, _, rfl, bs, b, _, rfl, ⟨hb, hr⟩, rfl, rfl⟩
      exact ⟨⟨b, hb, by simp⟩, by simpa using hr⟩
    · obtain ⟨as, t, items, as', s, bs⟩ := x
      rintro ⟨⟨b, hb, rfl⟩, rfl⟩
      refine ⟨as, _, ?_, _, rfl, _, rfl, t, _, rfl, items, _, _, rfl, rfl, as', _, rfl, _, rfl, _, rfl, s, _, rfl, _, rfl, bs, b, [], (by simp; rfl), ⟨hb, rfl⟩, rfl, rfl⟩
      simp

end Verif.Gram
