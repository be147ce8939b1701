import Verif.Pool.Spec
/-! # Lemmas for the thread pool macros -/
namespace Verif.Pool
variable {C : Type}

theorem structs_append (c : C) (xs ys : List (Item C)) : structs c (xs ++ ys) = structs c xs ++ structs c ys :=
  List.filterMap_append

theorem impls_append (xs ys : List (Item C)) : impls (xs ++ ys) = impls xs ++ impls ys :=
  List.filterMap_append

theorem lits_structs (c : C) (ns : List Nat) : structs c (ns.map Item.lit) = [] := by
  induction ns with
  | nil => rfl
  | cons n ns ih => simpa [structs] using ih

theorem lits_impls (ns : List Nat) : impls (ns.map (Item.lit (C := C))) = [] := by
  induction ns with
  | nil => rfl
  | cons n ns ih => simpa [impls] using ih

theorem tokens_structs (c : C) (camel : String → String) (i : Input C) : ∀ ts : List (Member C),
    structs c (ts.flatMap (defThrToken camel i)) =
      (ts.filter (·.on c)).map fun t => (camel t.name, [⟨"__priv", none, always⟩])
  | [] => rfl
  | t :: ts => by
    rw [List.flatMap_cons, structs_append, tokens_structs c camel i ts, List.filter_cons]
    by_cases h : t.on c = true <;> simp [structs, defThrToken, h, always]

theorem tokens_impls (camel : String → String) (i : Input C) : ∀ ts : List (Member C),
    impls (ts.flatMap (defThrToken camel i)) =
      ts.flatMap fun t => [("Token", camel t.name), ("ThrToken", camel t.name)]
  | [] => rfl
  | t :: ts => by
    rw [List.flatMap_cons, impls_append, tokens_impls camel i ts, List.flatMap_cons]
    simp [impls, defThrToken]

theorem pool_structs (c : C) (camel : String → String) (i : Input C) : structs c (pool camel i) =
    [(i.thr, [⟨"fib_chain", none, always⟩, ⟨"local", none, always⟩] ++
        (i.thrFields.filter (·.on c)).map fun f => ⟨f.name, none, f.on⟩),
     (i.local_, (i.localFields.filter (·.on c)).map fun f => ⟨f.name, none, f.on⟩),
     (i.index, (i.threads.filter (·.on c)).map fun t => ⟨t.name, some (camel t.name), t.on⟩)] ++
    (i.threads.filter (·.on c)).map fun t => (camel t.name, [⟨"__priv", none, always⟩]) := by
  unfold pool defThr defLocal defIndex
  simp only [structs_append, lits_structs, tokens_structs]
  simp only [structs, List.filterMap_cons, List.filterMap_nil, always, if_true, List.append_nil]
  simp [List.filter_cons, List.filter_map, Function.comp_def, always]

theorem pool_impls (camel : String → String) (i : Input C) : impls (pool camel i) =
    [("Thread", i.thr), ("Token", i.index)] ++
      i.threads.flatMap fun t => [("Token", camel t.name), ("ThrToken", camel t.name)] := by
  unfold pool defThr defLocal defIndex
  simp only [impls_append, lits_impls, tokens_impls]
  simp [impls]

/-- The only bound is `Thread`. -/
theorem bound_pool {camel : String → String} {i : Input C} {trait type : String}
    (h : Item.bound trait type ∈ pool camel i) : trait = "Thread" := by
  simp only [pool, defThr, defLocal, defIndex, defThrToken, List.mem_append, List.mem_cons, List.not_mem_nil, or_false,
    List.mem_map, List.mem_flatMap, reduceCtorEq, false_or, and_false, exists_const, Item.bound.injEq] at h
  obtain ⟨_, _, h, _⟩ := h
  exact h

theorem filter_all {α : Type} {p : α → Bool} {l : List α} (h : ∀ a ∈ l, p a = true) : l.filter p = l :=
  List.filter_eq_self.2 h

/-- The fields in a literal are those of the struct only if none is disabled. -/
theorem all_on {c : C} {l : List (Member C)} {pre : List String} (hn : (pre ++ l.map (·.name)).Nodup)
    (h : ∀ x, x ∈ pre ++ l.map (·.name) → x ∈ pre ++ (l.filter (·.on c)).map (·.name)) : ∀ m ∈ l, m.on c = true := by
  intro m hm
  rw [List.nodup_append] at hn
  have h1 := h m.name (List.mem_append_right _ (List.mem_map_of_mem hm))
  rcases List.mem_append.1 h1 with h1 | h1
  · exact absurd rfl (hn.2.2 _ h1 _ (List.mem_map_of_mem hm))
  · obtain ⟨m', hm', e⟩ := List.mem_map.1 h1
    obtain ⟨k1, k2⟩ := List.mem_filter.1 hm'
    have : m' = m := by
      have hp := List.pairwise_map.1 hn.2.1
      obtain ⟨a, ha, ha'⟩ := List.getElem_of_mem k1
      obtain ⟨b, hb, hb'⟩ := List.getElem_of_mem hm
      have hp' := List.pairwise_iff_getElem.1 hp
      rcases Nat.lt_trichotomy a b with hab | hab | hab
      · exact absurd (by rw [ha', hb']; exact e) (hp' a b ha hb hab)
      · subst hab; rw [← ha', ← hb']
      · exact absurd (by rw [ha', hb']; exact e.symm) (hp' b a hb ha hab)
    exact this ▸ k2

end Verif.Pool
