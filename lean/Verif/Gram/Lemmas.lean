import Verif.Gram.Spec
/-! # What the parsers read -/
namespace Verif.Gram
open Verif.CfgCond

/-- The parser reads a text `f` as `a` before `rest` exactly if `R a f rest`. -/
def Sem {α : Type} (p : P α) (R : α → List Tok → List Tok → Prop) : Prop := ∀ ts a rest, p ts = some (a, rest) ↔ ∃ f, R a f rest ∧ ts = f ++ rest

theorem Sem.congr {α : Type} {p : P α} {R R' : α → List Tok → List Tok → Prop} (h : Sem p R) (e : ∀ a f rest, R a f rest ↔ R' a f rest) : Sem p R' := by
  intro ts a rest
  rw [h]
  simp only [e]

theorem sem_pure {α : Type} (a : α) : Sem (pure a : P α) fun b f _ => b = a ∧ f = [] := by
  intro ts b rest
  show some (a, ts) = some (b, rest) ↔ _
  constructor
  · intro h; cases h; exact ⟨[], ⟨rfl, rfl⟩, rfl⟩
  · rintro ⟨f, ⟨rfl, rfl⟩, rfl⟩; rfl

theorem sem_fail {α : Type} : Sem (failure : P α) fun _ _ _ => False := by
  intro ts b rest
  constructor
  · intro h; cases h
  · rintro ⟨f, h, -⟩; exact h.elim

theorem bind_some {α β : Type} {p : P α} {k : α → P β} {ts : List Tok} {x : β × List Tok} :
    (p >>= k) ts = some x ↔ ∃ a r, p ts = some (a, r) ∧ k a r = some x := by
  show (p ts).bind (fun y => k y.1 y.2) = some x ↔ _
  rw [Option.bind_eq_some_iff]
  exact ⟨fun ⟨y, h1, h2⟩ => ⟨y.1, y.2, h1, h2⟩, fun ⟨a, r, h1, h2⟩ => ⟨(a, r), h1, h2⟩⟩

theorem sem_bind {α β : Type} {p : P α} {R : α → List Tok → List Tok → Prop} {k : α → P β} {R' : α → β → List Tok → List Tok → Prop}
    (hp : Sem p R) (hk : ∀ a, Sem (k a) (R' a)) : Sem (p >>= k) fun b f rest => ∃ a g h, f = g ++ h ∧ R a g (h ++ rest) ∧ R' a b h rest := by
  intro ts b rest
  rw [bind_some]
  constructor
  · rintro ⟨a, r, h1, h2⟩
    obtain ⟨g, hg, rfl⟩ := (hp _ _ _).1 h1
    obtain ⟨h, hh, rfl⟩ := (hk a _ _ _).1 h2
    exact ⟨g ++ h, ⟨a, g, h, rfl, hg, hh⟩, by simp⟩
  · rintro ⟨f, ⟨a, g, h, rfl, hg, hh⟩, rfl⟩
    exact ⟨a, h ++ rest, (hp _ _ _).2 ⟨g, hg, by simp⟩, (hk a _ _ _).2 ⟨h, hh, rfl⟩⟩

theorem sem_if {α : Type} {c : List Tok → Bool} {p q : P α} {R R' : α → List Tok → List Tok → Prop} (hp : Sem p R) (hq : Sem q R') :
    Sem (ifP c p q) fun a f rest => (c (f ++ rest) = true ∧ R a f rest) ∨ (c (f ++ rest) = false ∧ R' a f rest) := by
  intro ts a rest
  unfold ifP
  constructor
  · intro h
    split at h
    · rename_i hc
      obtain ⟨f, hf, rfl⟩ := (hp _ _ _).1 h
      exact ⟨f, .inl ⟨hc, hf⟩, rfl⟩
    · rename_i hc
      obtain ⟨f, hf, rfl⟩ := (hq _ _ _).1 h
      exact ⟨f, .inr ⟨by simpa using hc, hf⟩, rfl⟩
  · rintro ⟨f, h | h, rfl⟩
    · rw [if_pos h.1]; exact (hp _ _ _).2 ⟨f, h.2, rfl⟩
    · rw [if_neg (by simp [h.1])]; exact (hq _ _ _).2 ⟨f, h.2, rfl⟩

theorem sem_ite {α : Type} {c : Prop} [Decidable c] {p q : P α} {R R' : α → List Tok → List Tok → Prop} (hp : Sem p R) (hq : Sem q R') :
    Sem (if c then p else q) fun a f rest => (c ∧ R a f rest) ∨ (¬ c ∧ R' a f rest) := by
  by_cases h : c
  · rw [if_pos h]; exact hp.congr (by simp [h])
  · rw [if_neg h]; exact hq.congr (by simp [h])

theorem sem_ident : Sem ident fun s f _ => f = [.ident s] := by
  intro ts a rest
  unfold ident
  constructor
  · intro h; split at h
    · cases h; exact ⟨_, rfl, rfl⟩
    · cases h
  · rintro ⟨f, rfl, rfl⟩; rfl

theorem sem_int : Sem int fun s f _ => f = [.int s] := by
  intro ts a rest
  unfold int
  constructor
  · intro h; split at h
    · cases h; exact ⟨_, rfl, rfl⟩
    · cases h
  · rintro ⟨f, rfl, rfl⟩; rfl

theorem sem_str : Sem str fun s f _ => f = [.str s] := by
  intro ts a rest
  unfold str
  constructor
  · intro h; split at h
    · cases h; exact ⟨_, rfl, rfl⟩
    · cases h
  · rintro ⟨f, rfl, rfl⟩; rfl

theorem sem_path : Sem path fun s f _ => f = [.path s] := by
  intro ts a rest
  unfold path
  constructor
  · intro h; split at h
    · cases h; exact ⟨_, rfl, rfl⟩
    · cases h
  · rintro ⟨f, rfl, rfl⟩; rfl

theorem sem_ty : Sem ty fun s f _ => f = [.ty s] := by
  intro ts a rest
  unfold ty
  constructor
  · intro h; split at h
    · cases h; exact ⟨_, rfl, rfl⟩
    · cases h
  · rintro ⟨f, rfl, rfl⟩; rfl

theorem sem_item : Sem item fun s f _ => f = [.item s] := by
  intro ts a rest
  unfold item
  constructor
  · intro h; split at h
    · cases h; exact ⟨_, rfl, rfl⟩
    · cases h
  · rintro ⟨f, rfl, rfl⟩; rfl

theorem sem_punct (p : String) : Sem (punct p) fun _ f _ => f = [.punct p] := by
  intro ts a rest
  unfold punct
  constructor
  · intro h; split at h
    · split at h
      · rename_i h'; cases h; exact ⟨_, rfl, by rw [h']; rfl⟩
      · cases h
    · cases h
  · rintro ⟨f, rfl, rfl⟩; simp

theorem sem_pub : Sem pub fun _ f _ => f = [.vis "pub"] := by
  intro ts a rest
  unfold pub
  constructor
  · intro h; split at h
    · split at h
      · rename_i h'; cases h; exact ⟨_, rfl, by rw [h']; rfl⟩
      · cases h
    · cases h
  · rintro ⟨f, rfl, rfl⟩; simp

def startsVis : List Tok → Bool
  | .vis _ :: _ => true
  | _ => false

theorem sem_vis : Sem vis fun v f rest => f = visTokens v ∧ (v = none → startsVis rest = false) := by
  intro ts a rest
  unfold vis
  constructor
  · intro h; split at h
    · cases h; exact ⟨_, ⟨rfl, nofun⟩, rfl⟩
    · rename_i hn
      cases h
      refine ⟨_, ⟨rfl, fun _ => ?_⟩, rfl⟩
      unfold startsVis
      split
      · exact absurd rfl (hn _ _)
      · rfl
  · rintro ⟨f, ⟨rfl, h⟩, rfl⟩
    cases a with
    | some v => rfl
    | none =>
      have h := h rfl
      simp only [visTokens, List.nil_append]
      split
      · cases h
      · rfl

theorem sem_opt (p : String) : Sem (opt p) fun b f rest => f = (if b then [.punct p] else []) ∧ (b = false → peek p rest = false) := by
  refine (sem_if (sem_bind (sem_punct p) fun _ => sem_pure true) (sem_pure false)).congr ?_
  intro b f rest
  constructor
  · rintro (⟨h1, u, g, h, rfl, rfl, rfl, rfl⟩ | ⟨h1, rfl, rfl⟩)
    · exact ⟨rfl, nofun⟩
    · exact ⟨rfl, fun _ => h1⟩
  · rintro ⟨rfl, h⟩
    cases b with
    | true => exact .inl ⟨by simp [peek], (), _, [], by simp, rfl, rfl, rfl⟩
    | false => exact .inr ⟨h rfl, rfl, rfl⟩

theorem whole_iff {α : Type} {p : P α} {R : α → List Tok → List Tok → Prop} (hp : Sem p R) {b : List Tok} {a : α} : whole p b = some a ↔ R a b [] := by
  unfold whole
  constructor
  · intro h
    split at h
    · rename_i h'
      cases h
      obtain ⟨f, hf, rfl⟩ := (hp _ _ _).1 h'
      simpa using hf
    · cases h
  · intro h
    rw [(hp b a []).2 ⟨b, h, by simp⟩]

theorem sem_braced {α : Type} {p : P α} {R : α → List Tok → List Tok → Prop} (hp : Sem p R) : Sem (braced p) fun a f _ => ∃ b, R a b [] ∧ f = [.brace b] := by
  intro ts a rest
  unfold braced
  constructor
  · intro h
    split at h
    · obtain ⟨x, hx, e⟩ := Option.map_eq_some_iff.1 h
      cases e
      exact ⟨_, ⟨_, (whole_iff hp).1 hx, rfl⟩, rfl⟩
    · cases h
  · rintro ⟨f, ⟨b, hb, rfl⟩, rfl⟩
    simp [(whole_iff hp).2 hb]

theorem sem_bracketed {α : Type} {p : P α} {R : α → List Tok → List Tok → Prop} (hp : Sem p R) :
    Sem (bracketed p) fun a f _ => ∃ b, R a b [] ∧ f = [.bracket b] := by
  intro ts a rest
  unfold bracketed
  constructor
  · intro h
    split at h
    · obtain ⟨x, hx, e⟩ := Option.map_eq_some_iff.1 h
      cases e
      exact ⟨_, ⟨_, (whole_iff hp).1 hx, rfl⟩, rfl⟩
    · cases h
  · rintro ⟨f, ⟨b, hb, rfl⟩, rfl⟩
    simp [(whole_iff hp).2 hb]

theorem sem_parens {α : Type} {p : P α} {R : α → List Tok → List Tok → Prop} (hp : Sem p R) : Sem (parens p) fun a f _ => ∃ b, R a b [] ∧ f = [.paren b] := by
  intro ts a rest
  unfold parens
  constructor
  · intro h
    split at h
    · obtain ⟨x, hx, e⟩ := Option.map_eq_some_iff.1 h
      cases e
      exact ⟨_, ⟨_, (whole_iff hp).1 hx, rfl⟩, rfl⟩
    · cases h
  · rintro ⟨f, ⟨b, hb, rfl⟩, rfl⟩
    simp [(whole_iff hp).2 hb]

/-- Texts one after the other, where each may look at what follows. -/
def Cat3 {α : Type} (R : α → List Tok → List Tok → Prop) : List α → List Tok → List Tok → Prop
  | [], ts, _ => ts = []
  | a :: l, ts, rest => ∃ f r, ts = f ++ r ∧ R a f (r ++ rest) ∧ Cat3 R l r rest

theorem cat3_cat {α : Type} {R : α → List Tok → Prop} {l : List α} {ts rest : List Tok} : Cat3 (fun a f _ => R a f) l ts rest ↔ Cat R l ts := by
  induction l generalizing ts with
  | nil => exact Iff.rfl
  | cons a l ih => simp only [Cat3, Cat, ih]

theorem loop_iff {α : Type} {stop : List Tok → Bool} {p : P α} {R : α → List Tok → List Tok → Prop} (hp : Sem p R) (hne : ∀ a f r, R a f r → f ≠ [])
    (hs : ∀ a f r, R a f r → stop (f ++ r) = false) :
    ∀ n ts l rest, ts.length ≤ n → (loop stop p n ts = some (l, rest) ↔ ∃ f, (Cat3 R l f rest ∧ stop rest = true) ∧ ts = f ++ rest) := by
  intro n
  induction n with
  | zero =>
    intro ts l rest hl
    have : ts = [] := List.length_eq_zero_iff.1 (by omega)
    subst this
    unfold loop
    constructor
    · intro h
      split at h
      · cases h; exact ⟨[], ⟨rfl, by assumption⟩, rfl⟩
      · cases h
    · rintro ⟨f, ⟨hc, h⟩, e⟩
      have e := List.append_eq_nil_iff.1 e.symm
      obtain ⟨rfl, rfl⟩ := e
      cases l with
      | nil => rw [if_pos h]
      | cons a l =>
        obtain ⟨g, r, e, hr, -⟩ := hc
        exact absurd (List.append_eq_nil_iff.1 e.symm).1 (hne _ _ _ hr)
  | succ n ih =>
    intro ts l rest hl
    unfold loop
    constructor
    · intro h
      split at h
      · cases h; exact ⟨[], ⟨rfl, by assumption⟩, rfl⟩
      · split at h
        · cases h
        · rename_i a ts' ha
          obtain ⟨⟨l', r'⟩, hx, e⟩ := Option.map_eq_some_iff.1 h
          cases e
          obtain ⟨f, hf, rfl⟩ := (hp _ _ _).1 ha
          have := List.length_pos_iff.2 (hne _ _ _ hf)
          obtain ⟨g, ⟨hg, hst⟩, rfl⟩ := (ih ts' l' r' (by simp at hl; omega)).1 hx
          exact ⟨f ++ g, ⟨⟨f, g, rfl, hf, hg⟩, hst⟩, by simp⟩
    · rintro ⟨f, ⟨hc, h⟩, rfl⟩
      cases l with
      | nil => cases hc; rw [List.nil_append, if_pos h]
      | cons a l =>
        obtain ⟨g, r, rfl, hr, hc⟩ := hc
        have hpos := List.length_pos_iff.2 (hne _ _ _ hr)
        have h1 := hs _ _ _ hr
        rw [← List.append_assoc] at h1
        rw [if_neg (by rw [h1]; simp)]
        rw [(hp (g ++ r ++ rest) a (r ++ rest)).2 ⟨g, hr, by simp⟩]
        simp only
        rw [(ih (r ++ rest) l rest (by simp at hl ⊢; omega)).2 ⟨r, ⟨hc, h⟩, rfl⟩]
        rfl

theorem sem_whileNot {α : Type} {stop : List Tok → Bool} {p : P α} {R : α → List Tok → List Tok → Prop} (hp : Sem p R) (hne : ∀ a f r, R a f r → f ≠ [])
    (hs : ∀ a f r, R a f r → stop (f ++ r) = false) : Sem (whileNot stop p) fun l f rest => Cat3 R l f rest ∧ stop rest = true := by
  intro ts l rest
  exact loop_iff hp hne hs _ _ _ _ (Nat.le_refl _)

theorem sem_many {α : Type} {p : P α} {R : α → List Tok → Prop} (hp : Sem p fun a f _ => R a f) (hne : ∀ a f, R a f → f ≠ []) :
    Sem (many p) fun l f rest => Cat R l f ∧ rest = [] := by
  refine (sem_whileNot hp (fun a f _ => hne a f) fun a f r hr => ?_).congr fun l f rest => by rw [cat3_cat]; simp
  have := hne a f hr
  cases f with
  | nil => exact absurd rfl this
  | cons t f => rfl

theorem cat_single {α : Type} {tk : α → List Tok} {l : List α} {ts : List Tok} : Cat (fun a f => f = tk a) l ts ↔ ts = l.flatMap tk := by
  induction l generalizing ts with
  | nil => simp [Cat]
  | cons a l ih =>
    simp only [Cat, ih, List.flatMap_cons]
    constructor
    · rintro ⟨f, r, rfl, rfl, rfl⟩; rfl
    · rintro rfl; exact ⟨_, _, rfl, rfl, rfl⟩

theorem idents_eq (l : List String) : l.flatMap (fun s => [Tok.ident s]) = idents l := by
  induction l with
  | nil => rfl
  | cons a l ih => simp only [List.flatMap_cons, ih]; rfl

theorem items_eq (l : List String) : l.flatMap (fun s => [Tok.item s]) = l.map .item := by
  induction l with
  | nil => rfl
  | cons a l ih => simp only [List.flatMap_cons, ih]; rfl

theorem sem_idents : Sem (many ident) fun l f rest => f = idents l ∧ rest = [] :=
  (sem_many sem_ident (by rintro a f rfl; simp)).congr fun l f rest => by rw [cat_single, idents_eq]

theorem sem_items : Sem (many item) fun l f rest => f = l.map .item ∧ rest = [] :=
  (sem_many sem_item (by rintro a f rfl; simp)).congr fun l f rest => by rw [cat_single, items_eq]

/-- Identifiers up to a semicolon. -/
theorem sem_identsSemi : Sem (whileNot (peek ";") ident) fun l f rest => f = idents l ∧ peek ";" rest = true :=
  (sem_whileNot sem_ident (by rintro a f r rfl; simp) (by rintro a f r rfl; rfl)).congr fun l f rest => by
    rw [cat3_cat, cat_single, idents_eq]

theorem sep_cons {α : Type} {sep : String} {R : α → List Tok → Prop} {a : α} {l : List α} {f r : List Tok} (hf : R a f) (h : Sep sep R l r) :
    Sep sep R (a :: l) (f ++ .punct sep :: r) := by
  cases l with
  | nil => cases h; exact .inr ⟨f, hf, rfl⟩
  | cons b l => exact ⟨f, r, rfl, hf, h⟩

theorem sep_cases {α : Type} {sep : String} {R : α → List Tok → Prop} {a : α} {l : List α} {ts : List Tok} (h : Sep sep R (a :: l) ts) :
    (l = [] ∧ R a ts) ∨ ∃ f r, ts = f ++ .punct sep :: r ∧ R a f ∧ Sep sep R l r := by
  cases l with
  | nil =>
    rcases h with h | ⟨f, hf, rfl⟩
    · exact .inl ⟨rfl, h⟩
    · exact .inr ⟨f, [], rfl, hf, rfl⟩
  | cons b l => exact .inr h

theorem sepLoop_iff {α : Type} {sep : String} {p : P α} {R : α → List Tok → Prop} (hp : Sem p fun a f _ => R a f) (hne : ∀ a f, R a f → f ≠ []) :
    ∀ n ts l rest, ts.length ≤ n → (sepLoop sep p n ts = some (l, rest) ↔ Sep sep R l ts ∧ rest = []) := by
  intro n
  induction n with
  | zero =>
    intro ts l rest hl
    have : ts = [] := List.length_eq_zero_iff.1 (by omega)
    subst this
    constructor
    · intro h; simp only [sepLoop] at h; cases h; exact ⟨rfl, rfl⟩
    · rintro ⟨h, rfl⟩
      cases l with
      | nil => rfl
      | cons a l =>
        rcases sep_cases h with ⟨-, h⟩ | ⟨f, r, h, -⟩
        · exact absurd rfl (hne _ _ h)
        · simp at h
  | succ n ih =>
    intro ts l rest hl
    constructor
    · intro h
      cases ts with
      | nil => simp only [sepLoop] at h; cases h; exact ⟨rfl, rfl⟩
      | cons t0 ts0 =>
        simp only [sepLoop] at h
        split at h
        · cases h
        · rename_i a ha
          cases h
          obtain ⟨f, hf, ef⟩ := (hp _ _ _).1 ha
          rw [ef, List.append_nil]
          exact ⟨.inl hf, rfl⟩
        · rename_i a t ts' ha
          obtain ⟨f, hf, ef⟩ := (hp _ _ _).1 ha
          split at h
          · cases h
          · rename_i u ts'' hs
            obtain ⟨g, rfl, eg⟩ := (sem_punct sep _ _ _).1 hs
            cases eg
            obtain ⟨⟨l', r'⟩, hx, e⟩ := Option.map_eq_some_iff.1 h
            cases e
            have hpos := List.length_pos_iff.2 (hne _ _ hf)
            rw [ef] at hl ⊢
            obtain ⟨h1, h2⟩ := (ih _ _ _ (by simp at hl; omega)).1 hx
            exact ⟨sep_cons hf h1, h2⟩
    · rintro ⟨h, rfl⟩
      cases l with
      | nil => cases h; rfl
      | cons a l =>
        rcases sep_cases h with ⟨rfl, hr⟩ | ⟨f, r, rfl, hf, hr⟩
        · have := (hp ts a []).2 ⟨ts, hr, by simp⟩
          cases ts with
          | nil => exact absurd rfl (hne _ _ hr)
          | cons t ts => simp only [sepLoop, this]
        · have hpos := List.length_pos_iff.2 (hne _ _ hf)
          have := (hp (f ++ .punct sep :: r) a (.punct sep :: r)).2 ⟨f, hf, rfl⟩
          have hl' := (ih r l [] (by simp at hl; omega)).2 ⟨hr, rfl⟩
          cases f with
          | nil => exact absurd rfl (hne _ _ hf)
          | cons t f => simp only [List.cons_append] at this ⊢; simp [sepLoop, this, punct, hl']

theorem sem_separated {α : Type} {sep : String} {p : P α} {R : α → List Tok → Prop} (hp : Sem p fun a f _ => R a f) (hne : ∀ a f, R a f → f ≠ []) :
    Sem (separated sep p) fun l f rest => Sep sep R l f ∧ rest = [] := by
  intro ts l rest
  unfold separated
  rw [sepLoop_iff hp hne _ _ _ _ (Nat.le_refl _)]
  constructor
  · rintro ⟨h, rfl⟩; exact ⟨ts, ⟨h, rfl⟩, by simp⟩
  · rintro ⟨f, ⟨h, rfl⟩, rfl⟩; simpa using h

theorem attrTokens_cons (b : List Tok) (as : List (List Tok)) : attrTokens (b :: as) = .punct "#" :: .bracket b :: attrTokens as := rfl

theorem sem_attrs : Sem attrs fun as f rest => f = attrTokens as ∧ peek "#" rest = false := by
  intro ts as rest
  constructor
  · intro h
    fun_induction attrs generalizing as with
    | case1 b ts ih =>
      obtain ⟨⟨l', r'⟩, hx, e⟩ := Option.map_eq_some_iff.1 h
      cases e
      obtain ⟨f, ⟨rfl, hp⟩, rfl⟩ := ih _ hx
      exact ⟨_, ⟨rfl, hp⟩, rfl⟩
    | case2 => cases h
    | case3 ts h1 h2 =>
      cases h
      refine ⟨[], ⟨rfl, ?_⟩, rfl⟩
      unfold peek
      split
      · rename_i s ts
        simp only [decide_eq_false_iff_not]
        rintro rfl
        exact h2 _ rfl
      · rfl
  · rintro ⟨f, ⟨rfl, hp⟩, rfl⟩
    induction as with
    | nil =>
      simp only [attrTokens, List.flatMap_nil, List.nil_append]
      unfold attrs
      split
      · simp [peek] at hp
      · simp [peek] at hp
      · rfl
    | cons b as ih =>
      simp only [attrTokens_cons, List.cons_append, attrs, ih, Option.map_some]

theorem sem_parseIdent (s : String) : Sem (parseIdent s) fun _ f _ => f = [.ident s] := by
  refine (sem_bind sem_ident fun i => sem_ite (sem_pure ()) sem_fail).congr fun u f rest => ?_
  constructor
  · rintro ⟨i, g, h, rfl, rfl, ⟨rfl, -, rfl⟩ | ⟨-, h⟩⟩
    · rfl
    · exact h.elim
  · rintro rfl
    exact ⟨s, _, [], by simp, rfl, .inl ⟨rfl, rfl, rfl⟩⟩

theorem sem_lit : Sem lit fun k f _ => f = litTokens k := by
  refine (sem_bind sem_ident fun k => sem_bind (sem_punct "=") fun _ => sem_bind sem_str fun v => sem_pure (k, v)).congr fun k f rest => ?_
  constructor
  · rintro ⟨i, g, h, rfl, rfl, u, g', h', rfl, rfl, v, g'', h'', rfl, rfl, rfl, rfl⟩
    rfl
  · rintro rfl
    exact ⟨k.1, _, _, rfl, rfl, (), _, _, rfl, rfl, k.2, _, _, rfl, rfl, rfl, rfl⟩

/-- The loop over the literals of `any(…)`, for a content that is used up. -/
theorem anyLoop_iff : ∀ n ts l, ts.length ≤ n → (anyLoop n ts = some (l, []) ↔ Sep "," (fun k t => t = litTokens k) l ts) := by
  intro n
  induction n with
  | zero =>
    intro ts l hl
    have : ts = [] := List.length_eq_zero_iff.1 (by omega)
    subst this
    constructor
    · intro h; simp only [anyLoop] at h; cases h; rfl
    · intro h
      cases l with
      | nil => rfl
      | cons a l =>
        rcases sep_cases h with ⟨-, h⟩ | ⟨f, r, h, -⟩
        · simp [litTokens] at h
        · simp at h
  | succ n ih =>
    intro ts l hl
    constructor
    · intro h
      cases ts with
      | nil => simp only [anyLoop] at h; cases h; rfl
      | cons t0 ts0 =>
        simp only [anyLoop] at h
        split at h
        · cases h
        · rename_i k ts' hk
          obtain ⟨f, rfl, ef⟩ := (sem_lit _ _ _).1 hk
          split at h
          · split at h
            · cases h
            · rename_i u ts'' hs
              obtain ⟨g, rfl, eg⟩ := (sem_punct "," _ _ _).1 hs
              subst eg
              obtain ⟨⟨l', r'⟩, hx, e⟩ := Option.map_eq_some_iff.1 h
              cases e
              rw [ef] at hl ⊢
              exact sep_cons rfl ((ih ts'' _ (by simp at hl; omega)).1 hx)
          · cases h
            rw [ef, List.append_nil]
            exact .inl rfl
    · intro h
      cases l with
      | nil => cases h; rfl
      | cons k l =>
        rcases sep_cases h with ⟨rfl, rfl⟩ | ⟨f, r, rfl, rfl, hr⟩
        · have := (sem_lit (litTokens k) k []).2 ⟨_, rfl, by simp⟩
          simp only [litTokens] at this ⊢
          simp [anyLoop, this, peek]
        · have := (sem_lit (litTokens k ++ .punct "," :: r) k (.punct "," :: r)).2 ⟨_, rfl, rfl⟩
          have hr' := (ih r l (by simp [litTokens] at hl; omega)).2 hr
          simp only [litTokens, List.cons_append, List.nil_append] at this ⊢
          simp [anyLoop, this, peek, punct, hr']

end Verif.Gram
