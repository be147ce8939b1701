import Verif.Regs.Spec
/-! # Invariant of register tokens -/
namespace Verif.Regs

variable {α : Type}

/-- Not two affine tokens for one field. -/
def Apart (x y : Nat × Tok) : Prop :=
  x.2.tag ≠ .c → y.2.tag ≠ .c → x.2.var = y.2.var → x.2.fld ≠ y.2.fld

theorem Apart.symm {x y : Nat × Tok} (h : Apart x y) : Apart y x :=
  fun h1 h2 h3 h4 => h h2 h1 h3.symm h4.symm

/-- The part of the invariant about owned and lent tokens. -/
structure TInv (fam : Family) (toks bors : List (Nat × Tok)) : Prop where
  fld : ∀ x, x ∈ toks ∨ x ∈ bors → x.2.fld ∈ parts fam x.2.var
  apart : toks.Pairwise Apart
  excl : ∀ x ∈ toks, x.2.tag ≠ .c → ∀ y, y ∈ toks ∨ y ∈ bors →
    y.2.var = x.2.var ∧ (y.2.tag = .c → y.2.fld ≠ x.2.fld)
  lent : ∀ y ∈ bors, y.2.tag ≠ .c → ∃ c, (c, y.2) ∈ toks

structure Inv (fam : Family) (m : α) (s : State α) : Prop where
  toks : TInv fam s.toks s.bors
  pend : ∀ p ∈ s.pend, p.old = s.mem ∧ ∀ f ∈ parts fam p.var,
    (p.ctx, (⟨.u, p.var, f⟩ : Tok)) ∈ s.toks ∧ ∀ b ∈ s.bors, b.2 ≠ ⟨.u, p.var, f⟩
  mem : s.mem = replay m s.log

theorem parts_ne (fam : Family) (v : Nat) : parts fam v ≠ [] := by
  unfold parts
  split
  · simp
  · assumption

theorem parts_nodup {fam : Family} (h : Distinct fam) (v : Nat) : (parts fam v).Nodup := by
  unfold parts
  split
  · simp
  · exact h v

theorem TInv.perm {fam : Family} {t t' b : List (Nat × Tok)} (hp : t.Perm t') (h : TInv fam t b) :
    TInv fam t' b := by
  have hm : ∀ x, x ∈ t' ↔ x ∈ t := fun x => hp.symm.mem_iff
  refine ⟨fun x hx => h.fld x (by rwa [hm] at hx), ?_, fun x hx hc y hy => h.excl x ((hm x).1 hx) hc y
    (by rwa [hm] at hy), fun y hy hc => ?_⟩
  · exact (hp.pairwise_iff fun {x y} => Apart.symm).1 h.apart
  · obtain ⟨c, hc⟩ := h.lent y hy hc
    exact ⟨c, (hm _).2 hc⟩

/-- One owner per affine token. -/
theorem TInv.unique {fam : Family} {t b : List (Nat × Tok)} (h : TInv fam t b) {x y : Nat × Tok}
    (hx : x ∈ t) (hy : y ∈ t) (h1 : x.2.tag ≠ .c) (h2 : y.2.tag ≠ .c) (h3 : x.2.fld = y.2.fld) : x = y := by
  by_cases he : x = y
  · exact he
  · exfalso
    have hv : y.2.var = x.2.var := (h.excl x hx h1 y (.inl hy)).1
    have hp : t.Perm (x :: t.erase x) := List.perm_cons_erase hx
    have ha : (x :: t.erase x).Pairwise Apart := (hp.pairwise_iff fun {x y} => Apart.symm).1 h.apart
    have hy2 : y ∈ t.erase x := (List.mem_erase_of_ne fun h => he h.symm).2 hy
    exact (List.pairwise_cons.1 ha).1 y hy2 h1 h2 hv.symm h3

/-- If a context holds all unsynchronized fields, unborrowed, it is the only one with tokens. -/
theorem TInv.alone {fam : Family} {t b : List (Nat × Tok)} (h : TInv fam t b) {c v : Nat}
    (hw : ∀ f ∈ parts fam v, (c, (⟨.u, v, f⟩ : Tok)) ∈ t ∧ ∀ x ∈ b, x.2 ≠ ⟨.u, v, f⟩)
    {d : Nat} {u : Tok} (hu : (d, u) ∈ t ∨ (d, u) ∈ b) : d = c := by
  obtain ⟨f0, hf0⟩ := List.exists_mem_of_ne_nil _ (parts_ne fam v)
  have hfld := h.fld _ hu
  have hex : ∀ f ∈ parts fam v, u.var = v ∧ (u.tag = .c → u.fld ≠ f) := fun f hf =>
    h.excl _ (hw f hf).1 (by simp) _ hu
  have hv := (hex f0 hf0).1
  simp only [hv] at hfld
  have htag : u.tag ≠ .c := fun hc => (hex _ hfld).2 hc rfl
  rcases hu with hu | hu
  · have := h.unique hu (hw _ hfld).1 htag (by simp) rfl
    exact (Prod.mk.injEq ..▸ this).1
  · obtain ⟨e, he⟩ := h.lent _ hu htag
    have := h.unique he (hw _ hfld).1 htag (by simp) rfl
    simp only [Prod.mk.injEq] at this
    exact absurd this.2 ((hw _ hfld).2 _ hu)

theorem TInv.erase {fam : Family} {t b : List (Nat × Tok)} (h : TInv fam t b) (x : Nat × Tok)
    (hb : x.2.tag = .c ∨ ∀ y ∈ b, y.2 ≠ x.2) : TInv fam (t.erase x) b := by
  have hs : ∀ y, y ∈ t.erase x → y ∈ t := fun y hy => List.mem_of_mem_erase hy
  refine ⟨fun y hy => h.fld y (hy.imp_left (hs y)), List.Pairwise.sublist List.erase_sublist h.apart,
    fun y hy hc z hz => h.excl y (hs y hy) hc z (hz.imp_left (hs z)), fun y hy hc => ?_⟩
  obtain ⟨c, hyc⟩ := h.lent y hy hc
  refine ⟨c, (List.mem_erase_of_ne fun he => ?_).2 hyc⟩
  rcases hb with hb | hb
  · rw [← he] at hb; exact hc hb
  · exact hb y hy (by rw [← he])

/-- Adding a `Crt` token where the field has no affine token. -/
theorem TInv.consCopy {fam : Family} {t b : List (Nat × Tok)} (h : TInv fam t b) (c : Nat) (u : Tok)
    (hc : u.tag = .c) (hf : u.fld ∈ parts fam u.var)
    (he : ∀ x ∈ t, x.2.tag ≠ .c → u.var = x.2.var ∧ u.fld ≠ x.2.fld) : TInv fam ((c, u) :: t) b := by
  refine ⟨?_, ?_, ?_, ?_⟩
  · rintro x (hx | hx)
    · rcases List.mem_cons.1 hx with rfl | hx
      · exact hf
      · exact h.fld x (.inl hx)
    · exact h.fld x (.inr hx)
  · exact List.pairwise_cons.2 ⟨fun y _ h1 => absurd hc h1, h.apart⟩
  · intro x hx hxc y hy
    rcases List.mem_cons.1 hx with rfl | hx
    · exact absurd hc hxc
    · rcases hy with hy | hy
      · rcases List.mem_cons.1 hy with rfl | hy
        · exact ⟨(he x hx hxc).1, fun _ => (he x hx hxc).2⟩
        · exact h.excl x hx hxc y (.inl hy)
      · exact h.excl x hx hxc y (.inr hy)
  · intro y hy hyc
    obtain ⟨d, hd⟩ := h.lent y hy hyc
    exact ⟨d, List.mem_cons_of_mem _ hd⟩

/-- Moving a token. -/
theorem TInv.move {fam : Family} {t b : List (Nat × Tok)} (h : TInv fam t b) {c d : Nat} {u : Tok}
    (hu : (c, u) ∈ t) : TInv fam ((d, u) :: t.erase (c, u)) b := by
  have hp : t.Perm ((c, u) :: t.erase (c, u)) := List.perm_cons_erase hu
  have h := h.perm hp
  refine ⟨?_, ?_, ?_, ?_⟩
  · rintro x (hx | hx)
    · rcases List.mem_cons.1 hx with rfl | hx
      · exact h.fld (c, u) (.inl (List.mem_cons_self ..))
      · exact h.fld x (.inl (List.mem_cons_of_mem _ hx))
    · exact h.fld x (.inr hx)
  · have ha := List.pairwise_cons.1 h.apart
    exact List.pairwise_cons.2 ⟨fun y hy => ha.1 y hy, ha.2⟩
  · intro x hx hxc y hy
    have key : ∀ x ∈ (d, u) :: t.erase (c, u), ∃ x' ∈ (c, u) :: t.erase (c, u), x'.2 = x.2 := by
      intro x hx
      rcases List.mem_cons.1 hx with rfl | hx
      · exact ⟨(c, u), List.mem_cons_self .., rfl⟩
      · exact ⟨x, List.mem_cons_of_mem _ hx, rfl⟩
    obtain ⟨x', hx', he⟩ := key x hx
    rw [← he] at hxc ⊢
    rcases hy with hy | hy
    · obtain ⟨y', hy', he'⟩ := key y hy
      rw [← he']
      exact h.excl x' hx' hxc y' (.inl hy')
    · exact h.excl x' hx' hxc y (.inr hy)
  · intro y hy hyc
    obtain ⟨e, he⟩ := h.lent y hy hyc
    rcases List.mem_cons.1 he with he | he
    · simp only [Prod.mk.injEq] at he
      exact ⟨d, by rw [he.2]; exact List.mem_cons_self ..⟩
    · exact ⟨e, List.mem_cons_of_mem _ he⟩

theorem removeAll_perm : ∀ (ts l : List (Nat × Tok)), ts.Nodup → (∀ t ∈ ts, t ∈ l) →
    l.Perm (ts ++ removeAll l ts) := by
  intro ts
  induction ts with
  | nil => intro l _ _; exact List.Perm.refl _
  | cons t ts ih =>
    intro l hn hm
    rw [List.nodup_cons] at hn
    have h1 : l.Perm (t :: l.erase t) := List.perm_cons_erase (hm t (List.mem_cons_self ..))
    refine h1.trans (List.Perm.cons t ?_)
    refine ih (l.erase t) hn.2 fun x hx => ?_
    exact (List.mem_erase_of_ne fun he => hn.1 (by rw [← he]; exact hx)).2 (hm x (List.mem_cons_of_mem _ hx))

theorem wholeToks_nodup {fam : Family} (h : Distinct fam) (c v : Nat) (tag : Tag) :
    (wholeToks fam c v tag).Nodup := by
  unfold wholeToks
  refine List.Pairwise.map _ ?_ (parts_nodup h v)
  intro a b hab he
  simp only [Prod.mk.injEq, Tok.mk.injEq, true_and] at he
  exact hab he

theorem mem_wholeToks {fam : Family} {c v : Nat} {tag : Tag} {x : Nat × Tok} :
    x ∈ wholeToks fam c v tag ↔ ∃ f ∈ parts fam v, x = (c, ⟨tag, v, f⟩) := by
  simp only [wholeToks, List.mem_map]
  constructor
  · rintro ⟨f, hf, rfl⟩; exact ⟨f, hf, rfl⟩
  · rintro ⟨f, hf, rfl⟩; exact ⟨f, hf, rfl⟩

/-- If a context holds all fields of a variant with an affine tag, unborrowed, there are no other
tokens. -/
theorem TInv.rest_nil {fam : Family} {c v : Nat} {tag : Tag} {rest b : List (Nat × Tok)}
    (h : TInv fam (wholeToks fam c v tag ++ rest) b) (ht : tag ≠ .c)
    (hb : ∀ f ∈ parts fam v, ∀ x ∈ b, x.2 ≠ ⟨tag, v, f⟩) : rest = [] ∧ b = [] := by
  obtain ⟨f0, hf0⟩ := List.exists_mem_of_ne_nil _ (parts_ne fam v)
  have hmem : ∀ f ∈ parts fam v, (c, (⟨tag, v, f⟩ : Tok)) ∈ wholeToks fam c v tag ++ rest := fun f hf =>
    List.mem_append_left _ (mem_wholeToks.2 ⟨f, hf, rfl⟩)
  have hall : ∀ y, y ∈ wholeToks fam c v tag ++ rest ∨ y ∈ b → y.2.fld ∈ parts fam v ∧ y.2.tag ≠ .c := by
    intro y hy
    have hv := (h.excl _ (hmem f0 hf0) ht y hy).1
    have hf := h.fld y hy
    simp only [hv] at hf
    exact ⟨hf, fun hc => (h.excl _ (hmem _ hf) ht y hy).2 hc rfl⟩
  have hrest : rest = [] := by
    apply List.eq_nil_iff_forall_not_mem.2
    intro y hy
    have hy2 := hall y (.inl (List.mem_append_right _ hy))
    have hv := (h.excl _ (hmem f0 hf0) ht y (.inl (List.mem_append_right _ hy))).1
    have hap := (List.pairwise_append.1 h.apart).2.2 _ (mem_wholeToks.2 ⟨_, hy2.1, rfl⟩) y hy
    exact hap ht hy2.2 hv.symm rfl
  refine ⟨hrest, ?_⟩
  apply List.eq_nil_iff_forall_not_mem.2
  intro y hy
  have hy2 := hall y (.inr hy)
  obtain ⟨e, he⟩ := h.lent y hy hy2.2
  have := h.unique he (hmem _ hy2.1) hy2.2 ht rfl
  simp only [Prod.mk.injEq] at this
  exact hb _ hy2.1 y hy this.2

theorem TInv.whole {fam : Family} (hd : Distinct fam) (c v : Nat) (tag : Tag) :
    TInv fam (wholeToks fam c v tag) [] := by
  refine ⟨?_, ?_, ?_, ?_⟩
  · rintro x (hx | hx)
    · obtain ⟨f, hf, rfl⟩ := mem_wholeToks.1 hx
      exact hf
    · simp at hx
  · unfold wholeToks
    refine List.Pairwise.map _ ?_ (parts_nodup hd v)
    intro a b hab _ _ _
    exact hab
  · intro x hx hc y hy
    obtain ⟨f, hf, rfl⟩ := mem_wholeToks.1 hx
    rcases hy with hy | hy
    · obtain ⟨g, hg, rfl⟩ := mem_wholeToks.1 hy
      exact ⟨rfl, fun h => absurd h hc⟩
    · simp at hy
  · simp

/-- Adding a whole `Crt` token where there is no affine token. -/
theorem TInv.wholeCopy {fam : Family} {c v : Nat} {rest b : List (Nat × Tok)}
    (h : TInv fam rest b) (hn : ∀ x ∈ rest, x.2.tag = .c) : TInv fam (wholeToks fam c v .c ++ rest) b := by
  have hall : ∀ x ∈ wholeToks fam c v .c ++ rest, x.2.tag = .c := by
    intro x hx
    rcases List.mem_append.1 hx with hx | hx
    · obtain ⟨f, hf, rfl⟩ := mem_wholeToks.1 hx
      rfl
    · exact hn x hx
  refine ⟨?_, ?_, ?_, ?_⟩
  · rintro x (hx | hx)
    · rcases List.mem_append.1 hx with hx | hx
      · obtain ⟨f, hf, rfl⟩ := mem_wholeToks.1 hx
        exact hf
      · exact h.fld x (.inl hx)
    · exact h.fld x (.inr hx)
  · refine List.Pairwise.imp_of_mem (R := fun _ _ => True) ?_ (List.pairwise_of_forall fun _ _ => trivial)
    intro x y hx _ _ hc
    exact absurd (hall x hx) hc
  · intro x hx hc
    exact absurd (hall x hx) hc
  · intro y hy hc
    obtain ⟨d, hd⟩ := h.lent y hy hc
    exact ⟨d, List.mem_append_right _ hd⟩

theorem TInv.no_affine {fam : Family} {c v : Nat} {rest b : List (Nat × Tok)}
    (h : TInv fam (wholeToks fam c v .c ++ rest) b) : ∀ x ∈ rest, x.2.tag = .c := by
  intro x hx
  by_cases hc : x.2.tag = .c
  · exact hc
  · exfalso
    obtain ⟨f0, hf0⟩ := List.exists_mem_of_ne_nil _ (parts_ne fam v)
    have hmem : ∀ f ∈ parts fam v, (c, (⟨.c, v, f⟩ : Tok)) ∈ wholeToks fam c v .c ++ rest := fun f hf =>
      List.mem_append_left _ (mem_wholeToks.2 ⟨f, hf, rfl⟩)
    have hx2 := List.mem_append_right (wholeToks fam c v .c) hx
    have hv := (h.excl x hx2 hc _ (.inl (hmem f0 hf0))).1
    have hf := h.fld x (.inl hx2)
    rw [← hv] at hf
    exact (h.excl x hx2 hc _ (.inl (hmem _ hf))).2 rfl rfl

theorem TInv.sub {fam : Family} {c v : Nat} {tag : Tag} {rest b : List (Nat × Tok)}
    (h : TInv fam (wholeToks fam c v tag ++ rest) b)
    (hb : tag = .c ∨ ∀ f ∈ parts fam v, ∀ x ∈ b, x.2 ≠ ⟨tag, v, f⟩) : TInv fam rest b := by
  have hs : ∀ y, y ∈ rest → y ∈ wholeToks fam c v tag ++ rest := fun y hy => List.mem_append_right _ hy
  refine ⟨fun y hy => h.fld y (hy.imp_left (hs y)), (List.pairwise_append.1 h.apart).2.1,
    fun y hy hc z hz => h.excl y (hs y hy) hc z (hz.imp_left (hs z)), fun y hy hc => ?_⟩
  obtain ⟨d, hyd⟩ := h.lent y hy hc
  refine ⟨d, ?_⟩
  rcases List.mem_append.1 hyd with hyd | hyd
  · exfalso
    obtain ⟨f, hf, he⟩ := mem_wholeToks.1 hyd
    simp only [Prod.mk.injEq] at he
    rcases hb with hb | hb
    · rw [he.2] at hc; exact hc hb
    · exact hb f hf y hy he.2
  · exact hyd

end Verif.Regs
