import Verif.Macros.TokensSpec
/-! # Lemmas about register token indexes -/
namespace Verif.Macros
open CfgCond (Pred evalAll evalAny)

variable {K : Type}

/-- Expansion of an optional previous macro. -/
def expandP (σ : Nat → K → Bool) (tbl : List (MacroDef K)) (p : Option MName) (acc : List (Def K)) :
    Option (List (Def K)) :=
  match p with
  | none => some acc
  | some p => expand σ tbl p acc

theorem evalAll_singletons (σ : K → Bool) (cfgs : List (Pred K)) :
    evalAll σ (cfgs.map fun p => .all [p]) = evalAll σ cfgs := by
  induction cfgs with
  | nil => rfl
  | cons p ps ih => simp [CfgCond.evalAll, CfgCond.Pred.eval, ih]

theorem negate_eval (σ : K → Bool) (cfgs : List (Pred K)) :
    evalAll σ [negateCfgs cfgs] = !evalAll σ cfgs := by
  simp [negateCfgs, CfgCond.evalAll, CfgCond.Pred.eval, evalAll_singletons]

theorem expand_skip (σ : Nat → K → Bool) (m : MacroDef K) (tbl : List (MacroDef K)) (n : MName)
    (acc : List (Def K)) (h : m.name ≠ n) : expand σ (m :: tbl) n acc = expand σ tbl n acc := by
  simp [expand, h]

theorem expandP_skip (σ : Nat → K → Bool) (m : MacroDef K) (tbl : List (MacroDef K)) (p : Option MName)
    (acc : List (Def K)) (h : p ≠ some m.name) : expandP σ (m :: tbl) p acc = expandP σ tbl p acc := by
  cases p with
  | none => rfl
  | some p => exact expand_skip σ m tbl p acc fun h2 => h (by rw [h2])

theorem expand_hit (σ : Nat → K → Bool) (m : MacroDef K) (tbl : List (MacroDef K)) (acc : List (Def K))
    (h : evalAll (σ m.krate) m.attrs = true) :
    expand σ (m :: tbl) m.name acc = expandP σ tbl m.prev (m.defs ++ acc) := by
  cases hp : m.prev <;> simp [expand, expandP, h, hp]

theorem expand_inactive (σ : Nat → K → Bool) (m : MacroDef K) (tbl : List (MacroDef K)) (n : MName)
    (acc : List (Def K)) (h : evalAll (σ m.krate) m.attrs = false) :
    expand σ (m :: tbl) n acc = expand σ tbl n acc := by
  simp [expand, h]

/-- The definitions of the conditional blocks that are enabled. -/
def condDefs (σ : Nat → K → Bool) (krate : Nat) (bs : List (Block K)) : List (Def K) :=
  bs.flatMap fun b => if evalAll (σ krate) b.cfgs then blockDefs krate b else []

theorem condMacros_expand (σ : Nat → K → Bool) (krate id : Nat) (bs : List (Block K)) :
    ∀ (i : Nat) (prev : Option MName) (tbl : List (MacroDef K)) (acc : List (Def K)),
      (∀ j, i ≤ j → prev ≠ some (id, some j)) →
      expandP σ (condMacros krate id i prev tbl bs).1 (condMacros krate id i prev tbl bs).2 acc =
        expandP σ tbl prev (condDefs σ krate bs ++ acc) := by
  induction bs with
  | nil => intro i prev tbl acc _; simp [condMacros, condDefs]
  | cons b bs ih =>
    intro i prev tbl acc hp
    rw [condMacros, ih]
    · show expand σ _ (id, some i) _ = _
      cases hb : evalAll (σ krate) b.cfgs with
      | true =>
        have := expand_hit σ ⟨krate, b.cfgs, (id, some i), prev, blockDefs krate b⟩
          (⟨krate, [negateCfgs b.cfgs], (id, some i), prev, []⟩ :: tbl)
          (condDefs σ krate bs ++ acc) hb
        rw [this, expandP_skip _ _ _ _ _ (hp i (Nat.le_refl i))]
        simp [condDefs, hb, List.append_assoc]
      | false =>
        rw [expand_inactive _ _ _ _ _ hb]
        have := expand_hit σ ⟨krate, [negateCfgs b.cfgs], (id, some i), prev, []⟩ tbl
          (condDefs σ krate bs ++ acc) (by rw [negate_eval, hb]; rfl)
        rw [this]
        simp [condDefs, hb]
    · intro j hj h
      simp only [Option.some.injEq, Prod.mk.injEq, true_and] at h
      omega

/-- The definitions of a layer that reach the index. -/
def layerDefs (σ : Nat → K → Bool) (l : Layer K) : List (Def K) :=
  condDefs σ l.krate (l.blocks.filter fun b => !b.cfgs.isEmpty) ++
    (l.blocks.filter fun b => b.cfgs.isEmpty).flatMap (blockDefs l.krate)

/-- The definitions of a chain, oldest first. -/
def chainDefs (σ : Nat → K → Bool) : List (Layer K) → List (Def K)
  | [] => []
  | l :: older => chainDefs σ older ++ layerDefs σ l

theorem expand_chain (σ : Nat → K → Bool) (layers : List (Layer K)) : ∀ (acc : List (Def K)),
    layers ≠ [] →
    expand σ (macroTable layers) (layers.length - 1, none) acc = some (chainDefs σ layers ++ acc) := by
  induction layers with
  | nil => intro acc h; exact absurd rfl h
  | cons l older ih =>
    intro acc _
    simp only [macroTable, layerMacros, List.length_cons, Nat.add_sub_cancel]
    rw [show ((older.length, none) : MName) = (MacroDef.mk l.krate [] (older.length, none)
      (condMacros l.krate older.length 0 (if older.isEmpty then none else some (older.length - 1, none))
        (macroTable older) (l.blocks.filter fun b => !b.cfgs.isEmpty)).2
      ((l.blocks.filter fun b => b.cfgs.isEmpty).flatMap (blockDefs l.krate))).name from rfl]
    rw [expand_hit _ _ _ _ rfl]
    simp only
    rw [condMacros_expand]
    · cases older with
      | nil => simp [expandP, chainDefs, layerDefs, List.append_assoc]
      | cons o os =>
        show expand σ _ _ _ = _
        rw [ih _ (by simp)]
        simp [chainDefs, layerDefs, List.append_assoc]
    · intro j _ h
      cases older with
      | nil => simp at h
      | cons o os => simp at h

/-! ### The map -/

theorem mapInsert_keys (m : List (String × Def K)) (d : Def K) :
    (mapInsert m d).map (·.1) = if d.ident ∈ m.map (·.1) then m.map (·.1) else m.map (·.1) ++ [d.ident] := by
  induction m with
  | nil => simp [mapInsert]
  | cons e m ih =>
    by_cases h : e.1 = d.ident
    · simp [mapInsert, h]
    · have h' : ¬ d.ident = e.1 := fun x => h x.symm
      simp only [mapInsert, h, if_false, List.map_cons, ih, List.mem_cons, h', false_or]
      split <;> simp

theorem mapInsert_nodup (m : List (String × Def K)) (d : Def K) (h : (m.map (·.1)).Nodup) :
    ((mapInsert m d).map (·.1)).Nodup := by
  rw [mapInsert_keys]
  split
  · exact h
  · rename_i h2
    rw [List.nodup_append]
    refine ⟨h, by simp, ?_⟩
    intro a ha b hb hab
    simp only [List.mem_singleton] at hb
    subst hab hb
    exact h2 ha

theorem mapInsert_mem (m : List (String × Def K)) (d : Def K) (h : (m.map (·.1)).Nodup)
    (e : String × Def K) :
    e ∈ mapInsert m d ↔ e = (d.ident, d) ∨ (e ∈ m ∧ e.1 ≠ d.ident) := by
  induction m with
  | nil => simp [mapInsert]
  | cons x m ih =>
    simp only [List.map_cons, List.nodup_cons] at h
    by_cases hx : x.1 = d.ident
    · simp only [mapInsert, hx, if_true, List.mem_cons]
      constructor
      · rintro (h1 | h1)
        · exact .inl h1
        · refine .inr ⟨.inr h1, fun h2 => h.1 ?_⟩
          rw [hx, ← h2]
          exact List.mem_map.2 ⟨e, h1, rfl⟩
      · rintro (h1 | ⟨h1 | h1, h2⟩)
        · exact .inl h1
        · rw [h1] at h2; exact absurd hx h2
        · exact .inr h1
    · simp only [mapInsert, hx, if_false, List.mem_cons, ih h.2]
      constructor
      · rintro (h1 | h1 | ⟨h1, h2⟩)
        · exact .inr ⟨.inl h1, by rw [h1]; exact hx⟩
        · exact .inl h1
        · exact .inr ⟨.inr h1, h2⟩
      · rintro (h1 | ⟨h1 | h1, h2⟩)
        · exact .inr (.inl h1)
        · exact .inl h1
        · exact .inr (.inr ⟨h1, h2⟩)

/-- The last definition with a name. -/
def IsLast (defs : List (Def K)) (d : Def K) : Prop :=
  ∃ pre post, defs = pre ++ d :: post ∧ ∀ e ∈ post, e.ident ≠ d.ident

theorem fold_insert (defs : List (Def K)) : ∀ (m : List (String × Def K)), (m.map (·.1)).Nodup →
    ((defs.foldl mapInsert m).map (·.1)).Nodup ∧
    ∀ e, e ∈ defs.foldl mapInsert m ↔
      (∃ d, IsLast defs d ∧ e = (d.ident, d)) ∨ (e ∈ m ∧ ∀ d ∈ defs, d.ident ≠ e.1) := by
  induction defs with
  | nil =>
    intro m h
    refine ⟨h, fun e => ?_⟩
    simp [IsLast]
  | cons d defs ih =>
    intro m h
    have h2 := ih (mapInsert m d) (mapInsert_nodup m d h)
    refine ⟨h2.1, fun e => ?_⟩
    rw [List.foldl_cons, h2.2, mapInsert_mem m d h]
    constructor
    · rintro (⟨d', ⟨pre, post, he, hl⟩, rfl⟩ | ⟨h3 | ⟨h3, h4⟩, h5⟩)
      · exact .inl ⟨d', ⟨d :: pre, post, by rw [he]; rfl, hl⟩, rfl⟩
      · subst h3
        exact .inl ⟨d, ⟨[], defs, rfl, h5⟩, rfl⟩
      · refine .inr ⟨h3, fun d' hd' => ?_⟩
        rcases List.mem_cons.1 hd' with rfl | hd'
        · exact fun hx => h4 hx.symm
        · exact h5 d' hd'
    · rintro (⟨d', ⟨pre, post, he, hl⟩, rfl⟩ | ⟨h3, h4⟩)
      · cases pre with
        | nil =>
          simp only [List.nil_append, List.cons.injEq] at he
          obtain ⟨rfl, rfl⟩ := he
          exact .inr ⟨.inl rfl, hl⟩
        | cons p pre =>
          simp only [List.cons_append, List.cons.injEq] at he
          exact .inl ⟨d', ⟨pre, post, he.2, hl⟩, rfl⟩
      · refine .inr ⟨.inr ⟨h3, fun hx => ?_⟩, fun d' hd' => h4 d' (List.mem_cons_of_mem _ hd')⟩
        exact h4 d (List.mem_cons_self ..) hx.symm

theorem fold_remove (undefs : List String) : ∀ (m : List (String × Def K)),
    undefs.foldl (fun m u => m.filter fun e => decide (e.1 ≠ u)) m =
      m.filter fun e => decide (e.1 ∉ undefs) := by
  induction undefs with
  | nil => intro m; exact (List.filter_eq_self.2 (by simp)).symm
  | cons u us ih =>
    intro m
    rw [List.foldl_cons, ih, List.filter_filter]
    apply List.filter_congr
    intro e _
    simp only [List.mem_cons, not_or, ne_eq]
    by_cases h1 : e.1 = u <;> by_cases h2 : e.1 ∈ us <;> simp [h1, h2]

/-- The fields of the index are the last definitions of the names that are not excluded. -/
theorem indexFields_mem (defs : List (Def K)) (undefs : List String) (d : Def K) :
    d ∈ indexFields defs undefs ↔ IsLast defs d ∧ d.ident ∉ undefs := by
  unfold indexFields
  rw [fold_remove]
  have h := (fold_insert defs [] (by simp)).2
  simp only [List.mem_map, List.mem_filter, h, List.not_mem_nil, false_and, or_false]
  constructor
  · rintro ⟨e, ⟨⟨d', h1, rfl⟩, h2⟩, rfl⟩
    exact ⟨h1, by simpa using h2⟩
  · rintro ⟨h1, h2⟩
    exact ⟨(d.ident, d), ⟨⟨d, h1, rfl⟩, by simpa using h2⟩, rfl⟩

theorem map_key (defs : List (Def K)) : ∀ e ∈ defs.foldl mapInsert [], e.1 = e.2.ident := by
  intro e he
  have h := ((fold_insert defs [] (by simp)).2 e).1 he
  simp only [List.not_mem_nil, false_and, or_false] at h
  obtain ⟨d, _, rfl⟩ := h
  rfl

theorem indexFields_nodup (defs : List (Def K)) (undefs : List String) :
    ((indexFields defs undefs).map (·.ident)).Nodup := by
  unfold indexFields
  rw [fold_remove, List.map_map]
  have h1 := (fold_insert defs [] (by simp)).1
  have h2 := map_key defs
  have h3 : ∀ m : List (String × Def K), (∀ e ∈ m, e.1 = e.2.ident) → (m.map (·.1)).Nodup →
      ((m.filter fun e => decide (e.1 ∉ undefs)).map ((·.ident) ∘ (·.2))).Nodup := by
    intro m hk hn
    have : (m.filter fun e => decide (e.1 ∉ undefs)).map ((·.ident) ∘ (·.2)) =
        (m.filter fun e => decide (e.1 ∉ undefs)).map (·.1) := by
      apply List.map_congr_left
      intro e he
      exact (hk e (List.mem_filter.1 he).1).symm
    rw [this]
    exact List.Sublist.nodup (List.Sublist.map _ List.filter_sublist) hn
  exact h3 _ h2 h1

end Verif.Macros
