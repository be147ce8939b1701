import Verif.CfgCond.Lemmas
/-! # The variants of `transpose` -/
namespace Verif.CfgCond

variable {K T : Type} [DecidableEq K]

/-- A key of the map: a conjunction of some item's DNF. -/
def Key (items : List (Cond K × T)) (x : List K) : Prop := ∃ c t, (c, t) ∈ items ∧ x ∈ c.toDnf.getD []

/-- The variants, for any iteration order. -/
theorem transpose_spec {ord : List (List K × List T) → List (List K × List T)} (ho : ∀ m, (ord m).Perm m)
    {items : List (Cond K × T)} {res : List (Cond K × List T)} (h : transpose ord items = some res) :
    ∃ m : List (List K × List T), res = emit m (defaults items) ∧ (keys m).Nodup ∧
      (∀ x, x ∈ keys m ↔ Key items x) ∧ (∀ e ∈ m, e.2 = under e.1 items) ∧
      (∀ c t, (c, t) ∈ items → ∃ dnf, c.toDnf = some dnf) := by
  unfold transpose at h
  simp only [Option.map_eq_some_iff] at h
  obtain ⟨⟨m, d⟩, hc, rfl⟩ := h
  obtain ⟨h1, h2, h3, h4, h5⟩ := collect_spec hc (by simp [keys])
  have p := ho m
  have pk : (keys (ord m)).Perm (keys m) := p.map _
  simp only [List.nil_append] at h4
  subst h4
  refine ⟨ord m, rfl, pk.nodup_iff.2 h1, ?_, ?_, h5⟩
  · intro x
    rw [pk.mem_iff, h2]
    simp [keys, Key]
  · rintro ⟨x, ts⟩ he
    have := mem_get h1 (p.mem_iff.1 he)
    rw [h3] at this
    simpa [get] using this.symm

/-- The satisfied entries when at most one key can be satisfied. -/
theorem filter_one {m : List (List K × List T)} {σ : K → Bool} {x : List K} (nd : (keys m).Nodup) (hm : x ∈ keys m)
    (hx : x.any σ = true) (hu : ∀ y ∈ keys m, y.any σ = true → y = x) :
    ∃ ts, (x, ts) ∈ m ∧ (m.filter fun e => e.1.any σ) = [(x, ts)] := by
  induction m with
  | nil => simp [keys] at hm
  | cons e m ih =>
    obtain ⟨c, ts⟩ := e
    simp only [keys, List.map_cons, List.nodup_cons, List.mem_cons] at nd hm hu
    rcases hm with rfl | hm
    · refine ⟨ts, by simp, ?_⟩
      have : m.filter (fun e => e.1.any σ) = [] := by
        rw [List.filter_eq_nil_iff]
        rintro ⟨y, us⟩ hy hs
        have hk : y ∈ List.map (·.1) m := List.mem_map.2 ⟨_, hy, rfl⟩
        exact nd.1 (hu y (.inr hk) hs ▸ hk)
      rw [List.filter_cons, this]
      simp [hx]
    · obtain ⟨us, h1, h2⟩ := ih nd.2 hm (fun y hy => hu y (.inr hy))
      refine ⟨us, by simp [h1], ?_⟩
      have : ¬ (c.any σ = true) := by
        intro hs
        exact nd.1 (hu c (.inl rfl) hs ▸ hm)
      rw [List.filter_cons, h2]
      simp only [this, Bool.false_eq_true, ↓reduceIte]

/-- The key of a simple condition is a single literal. -/
theorem simple_dnf {c : Cond K} (h : c.Simple) : c.toDnf = some ((c.clauses.flatten).map fun k => [k]) := by
  obtain ⟨cls, inv⟩ := c
  obtain ⟨⟨h1, h2⟩, h3, h4⟩ := h
  simp only at h1 h2 h3 h4
  subst h1
  match cls, h3 with
  | [], _ => rfl
  | [x], _ =>
    cases x with
    | nil => rfl
    | cons a x => simp [Cond.toDnf]

theorem simple_key {items : List (Cond K × T)} (hs : ∀ c t, (c, t) ∈ items → c.Simple) (x : List K) :
    Key items x ↔ ∃ k, x = [k] ∧ Used items k := by
  constructor
  · rintro ⟨c, t, hm, hx⟩
    rw [simple_dnf (hs c t hm)] at hx
    simp only [Option.getD_some, List.mem_map, List.mem_flatten] at hx
    obtain ⟨k, ⟨cl, hc, hk⟩, rfl⟩ := hx
    exact ⟨k, rfl, c, t, hm, cl, hc, hk⟩
  · rintro ⟨k, rfl, c, t, hm, cl, hc, hk⟩
    refine ⟨c, t, hm, ?_⟩
    rw [simple_dnf (hs c t hm)]
    simp only [Option.getD_some, List.mem_map, List.mem_flatten]
    exact ⟨k, ⟨cl, hc, hk⟩, rfl⟩

end Verif.CfgCond
