import Verif.CfgCond.PropsLemmas
/-! # Properties of conditional compilation variants (C56) -/
namespace Verif.CfgCond

variable {K T : Type}

/-! ## Attributes -/

/-- The attributes of a condition made by `parse` and `add_clause` hold exactly in the
configurations where every clause has a literal that is set. -/
theorem C56_attrs (σ : K → Bool) (c : Cond K) (h : c.inverse = false) : c.active σ = c.meant σ := active_pos σ c h

example : (⟨[[1, 2], [3]], false⟩ : Cond Nat).active (fun k => k == 2 || k == 3) = true ∧
    (⟨[[1, 2], [3]], false⟩ : Cond Nat).active (fun k => k == 1) = false := by decide

/-- `add_clause` is conjunction. -/
theorem C56_add_clause (σ : K → Bool) {c r c' : Cond K} (h : c.addClause r = some c') :
    c'.active σ = (c.active σ && r.active σ) ∧ c'.inverse = false := by
  unfold Cond.addClause at h
  split at h
  · simp at h
  · rename_i hi
    simp only [Option.some.injEq] at h
    subst h
    simp at hi
    refine ⟨?_, hi.1⟩
    rw [active_pos σ c hi.1, active_pos σ r hi.2, active_pos _ _ (by exact hi.1)]
    simp [Cond.meant]

example : ((parse [1, 2]).addClause (parse [3])).map (·.clauses) = some [[1, 2], [3]] := by decide

/-- The disjunctive normal form of a condition is equivalent to it; it is empty only for the
condition without clauses. It exists for at most two clauses. -/
theorem C56_dnf (σ : K → Bool) (c : Cond K) (w : c.Wf) :
    (∀ dnf, c.toDnf = some dnf → (dnf = [] → c.clauses = []) ∧
      (dnf ≠ [] → c.active σ = dnf.any fun cj => cj.all σ)) ∧
    (c.clauses.length ≤ 2 → ∃ dnf, c.toDnf = some dnf) := by
  refine ⟨fun dnf h => ⟨?_, ?_⟩, dnf_two c w.1⟩
  · rintro rfl; exact dnf_nil c w h
  · intro hne; rw [active_pos _ _ w.1]; exact dnf_meant σ c w h hne

example : (⟨[[1, 2], [3, 4]], false⟩ : Cond Nat).toDnf = some [[1, 3], [1, 4], [2, 3], [2, 4]] ∧
    (⟨[[1, 2], [3, 4]], false⟩ : Cond Nat).Wf := by
  refine ⟨by decide, rfl, by simp⟩

/-! ## Where the claim fails -/

/-- An item under a register condition `1` and a field condition `2`: the variant that
contains it is emitted under `any(1, 2)` instead of `all(1, 2)`, so that in the
configuration `1` it is compiled although its condition does not hold, together with the
variant for all other configurations. -/
theorem C56_false : ∃ res, transpose id [((⟨[[1], [2]], false⟩ : Cond Nat), "x")] = some res ∧
    wanted (· == 1) [((⟨[[1], [2]], false⟩ : Cond Nat), "x")] = [] ∧
    chosen (· == 1) res = [["x"], []] := ⟨_, rfl, by decide, by decide⟩

/-- Even if no two literals are ever set together, two clauses give several variants. -/
theorem C56_false_exclusive : ∃ res, transpose id [((⟨[[1, 2], [1, 2]], false⟩ : Cond Nat), "x")] = some res ∧
    chosen (· == 1) res = [["x"], ["x"], ["x"]] := ⟨_, rfl, by decide⟩

/-- Two items with different conditions, both true: two variants, each with one of the items. -/
theorem C56_false_overlap : ∃ res,
    transpose id [((⟨[[1]], false⟩ : Cond Nat), "x"), (⟨[[2]], false⟩, "y")] = some res ∧
    chosen (fun _ => true) res = [["x"], ["y"]] := ⟨_, rfl, by decide⟩

/-- A literal repeated in a condition: the item is listed twice. -/
theorem C56_false_repeated : ∃ res, transpose id [((⟨[[1, 1]], false⟩ : Cond Nat), "x")] = some res ∧
    chosen (fun _ => true) res = [["x", "x"]] := ⟨_, rfl, by decide⟩

/-- Three clauses: `transpose` panics. -/
theorem C56_false_three : transpose id [((⟨[[1], [2], [3]], false⟩ : Cond Nat), "x")] = none := rfl

/-! ## Where it holds -/

variable [DecidableEq K]

/-- `transpose` is defined for items with at most two clauses each. -/
theorem C56_defined (ord : List (List K × List T) → List (List K × List T)) {items : List (Cond K × T)}
    (h : ∀ c t, (c, t) ∈ items → c.inverse = false ∧ c.clauses.length ≤ 2) :
    ∃ res, transpose ord items = some res := by
  obtain ⟨md, hm⟩ := collect_some (m := []) (d := []) fun c t hm => dnf_two c (h c t hm).1 (h c t hm).2
  exact ⟨_, by unfold transpose; rw [hm]; rfl⟩

example : (transpose id [((⟨[[1, 2], [3]], false⟩ : Cond Nat), "x"), (⟨[], false⟩, "y")]).map (·.length) = some 3 := by
  decide

/-- In a configuration that satisfies at most one of the conjunctions in the items'
disjunctive normal forms, and none of them in part, exactly one variant is compiled, and it
contains, in some order, exactly the items whose condition holds. This is for every
iteration order of the hash map. (Other configurations break the claim: `C56_false` in part,
`C56_false_overlap` two of them.) -/
theorem C56_partial {ord : List (List K × List T) → List (List K × List T)} (ho : ∀ m, (ord m).Perm m)
    {items : List (Cond K × T)} {res : List (Cond K × List T)} (h : transpose ord items = some res)
    (w : ∀ c t, (c, t) ∈ items → c.Wf ∧ (c.toDnf.getD []).Nodup) (σ : K → Bool)
    (h1 : ∀ x y, Key items x → Key items y → x.any σ = true → y.any σ = true → x = y)
    (h2 : ∀ x, Key items x → x.any σ = true → x.all σ = true) :
    ∃ v, chosen σ res = [v] ∧ v.Perm (wanted σ items) := by
  obtain ⟨m, rfl, nd, hk, hu, hd⟩ := transpose_spec ho h
  have h3 : ∀ x, Key items x → x.all σ = true → x.any σ = true := by
    rintro x ⟨c, t, hm, hx⟩ ha
    obtain ⟨dnf, e⟩ := hd c t hm
    rw [e] at hx
    have := dnf_ne c e x hx
    cases x with
    | nil => exact absurd rfl this
    | cons a x => simp at ha; simp [ha.1]
  rw [chosen_emit]
  by_cases hex : ∃ x, Key items x ∧ x.any σ = true
  · obtain ⟨x, hx, hs⟩ := hex
    obtain ⟨ts, hm, hf⟩ := filter_one nd ((hk x).2 hx) hs fun y hy hys => h1 y x ((hk y).1 hy) hx hys hs
    have ha : (keys m).any (fun c => c.all σ) = true := List.any_eq_true.2 ⟨x, (hk x).2 hx, h2 x hx hs⟩
    rw [hf, ha]
    refine ⟨ts ++ defaults items, by simp, ?_⟩
    rw [show ts = under x items from hu _ hm]
    exact wanted_perm σ (fun c t hm => ⟨(w c t hm).1, hd c t hm, (w c t hm).2⟩) (h2 x hx hs)
      fun c t hm y hy hys => h1 y x ⟨c, t, hm, hy⟩ hx (h3 y ⟨c, t, hm, hy⟩ hys) hs
  · have hf : (m.filter fun e => e.1.any σ) = [] := by
      rw [List.filter_eq_nil_iff]
      rintro ⟨y, us⟩ hy hs
      exact hex ⟨y, (hk y).1 (List.mem_map.2 ⟨_, hy, rfl⟩), hs⟩
    have hn : ∀ x, Key items x → x.all σ = false := by
      intro x hx
      cases e : x.all σ with
      | false => rfl
      | true => exact absurd ⟨x, hx, h3 x hx e⟩ hex
    have ha : (keys m).any (fun c => c.all σ) = false := by
      rw [List.any_eq_false]
      intro x hx
      rw [hn x ((hk x).1 hx)]
      simp
    rw [hf, ha]
    refine ⟨defaults items, by simp, ?_⟩
    rw [wanted_none σ (fun c t hm => ⟨(w c t hm).1, hd c t hm⟩) fun c t hm y hy => hn y ⟨c, t, hm, hy⟩]

/-- Items `x` for 1 or 2, `y` always, `z` for 1. -/
def demo : List (Cond Nat × String) := [(⟨[[1, 2]], false⟩, "x"), (⟨[], false⟩, "y"), (⟨[[1]], false⟩, "z")]

example : (transpose id demo).map (chosen (· == 1)) = some [["x", "z", "y"]] ∧
    (transpose id demo).map (chosen (· == 2)) = some [["x", "y"]] ∧
    (transpose id demo).map (chosen (· == 3)) = some [["y"]] := by decide

/-- Items with at most one clause, and a configuration that sets at most one of the literals
they use, as for features that exclude each other: exactly one variant is compiled, with
exactly the items whose condition holds. -/
theorem C56_exclusive {ord : List (List K × List T) → List (List K × List T)} (ho : ∀ m, (ord m).Perm m)
    {items : List (Cond K × T)} (hs : ∀ c t, (c, t) ∈ items → c.Simple) (σ : K → Bool)
    (hx : ∀ k k', Used items k → Used items k' → σ k = true → σ k' = true → k = k') :
    ∃ res v, transpose ord items = some res ∧ chosen σ res = [v] ∧ v.Perm (wanted σ items) := by
  obtain ⟨res, h⟩ := C56_defined ord (items := items) fun c t hm =>
    ⟨(hs c t hm).1.1, Nat.le_trans (hs c t hm).2.1 (by omega)⟩
  obtain ⟨v, hv⟩ := C56_partial ho h (fun c t hm => ⟨(hs c t hm).1, by
      rw [simple_dnf (hs c t hm)]
      simp only [Option.getD_some]
      refine List.Pairwise.map _ (R := (· ≠ ·)) (by simp) ?_
      obtain ⟨-, h1, h2⟩ := hs c t hm
      match hc : c.clauses, h1 with
      | [], _ => simp
      | [x], _ => rw [List.flatten_singleton]; exact h2 x (by simp [hc])⟩) σ
    (by
      intro x y kx ky sx sy
      obtain ⟨k, rfl, uk⟩ := (simple_key hs x).1 kx
      obtain ⟨k', rfl, uk'⟩ := (simple_key hs y).1 ky
      simp at sx sy
      rw [hx k k' uk uk' sx sy])
    (by
      intro x kx sx
      obtain ⟨k, rfl, uk⟩ := (simple_key hs x).1 kx
      simpa using sx)
  exact ⟨res, v, h, hv⟩

example : ∀ c t, (c, t) ∈ demo → c.Simple := by
  intro c t h
  simp [demo] at h
  rcases h with ⟨rfl, -⟩ | ⟨rfl, -⟩ | ⟨rfl, -⟩ <;> exact ⟨⟨rfl, by simp⟩, by simp, by simp⟩

/-- For items with at most one clause the condition is necessary: if exactly one variant is
compiled, the configuration sets at most one of the literals used. -/
theorem C56_exclusive_only {ord : List (List K × List T) → List (List K × List T)} (ho : ∀ m, (ord m).Perm m)
    {items : List (Cond K × T)} (hs : ∀ c t, (c, t) ∈ items → c.Simple) (σ : K → Bool)
    {res : List (Cond K × List T)} {v : List T} (h : transpose ord items = some res) (hv : chosen σ res = [v])
    {k k' : K} (uk : Used items k) (uk' : Used items k') (sk : σ k = true) (sk' : σ k' = true) : k = k' := by
  obtain ⟨m, rfl, nd, hk, hu, hd⟩ := transpose_spec ho h
  rw [chosen_emit] at hv
  have hl := congrArg List.length hv
  simp only [List.length_append, List.length_map, List.length_cons, List.length_nil] at hl
  have h1 : [k] ∈ keys m := (hk _).2 ((simple_key hs _).2 ⟨k, rfl, uk⟩)
  have h2 : [k'] ∈ keys m := (hk _).2 ((simple_key hs _).2 ⟨k', rfl, uk'⟩)
  obtain ⟨e1, m1, q1⟩ := List.mem_map.1 h1
  obtain ⟨e2, m2, q2⟩ := List.mem_map.1 h2
  have f1 : e1 ∈ m.filter fun e => e.1.any σ := List.mem_filter.2 ⟨m1, by simp [q1, sk]⟩
  have f2 : e2 ∈ m.filter fun e => e.1.any σ := List.mem_filter.2 ⟨m2, by simp [q2, sk']⟩
  generalize m.filter (fun e => e.1.any σ) = l at hl f1 f2
  match l, hl with
  | [], _ => simp at f1
  | [a], _ =>
    simp at f1 f2
    subst f1
    subst f2
    rw [q1] at q2
    simpa using q2
  | _ :: _ :: _, hl => simp at hl; omega

example : (transpose id demo).map (fun r => (chosen (fun _ => true) r).length) = some 2 := by decide

end Verif.CfgCond
