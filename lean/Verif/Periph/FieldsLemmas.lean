import Verif.Periph.Lemmas
/-! # `from_fields` and `into_fields` -/
namespace Verif.Periph

variable {V : Type}

theorem lookup_cons (a : FName × Option V) (l : List (FName × Option V)) (n : FName) :
    lookup (a :: l) n = if a.1 = n then some a.2 else lookup l n := by
  unfold lookup
  rw [List.find?_cons]
  by_cases h : a.1 = n <;> simp [h]

theorem lookup_none {l : List (FName × Option V)} {n : FName} (h : n ∉ l.map (·.1)) : lookup l n = none := by
  unfold lookup
  simp only [Option.map_eq_none_iff, List.find?_eq_none, decide_eq_true_eq]
  intro a ha e
  exact h (List.mem_map.2 ⟨a, ha, e⟩)

theorem lookup_some {l : List (FName × Option V)} (nd : (l.map (·.1)).Nodup) {n : FName} {x : Option V}
    (h : (n, x) ∈ l) : lookup l n = some x := by
  induction l with
  | nil => simp at h
  | cons a l ih =>
    simp only [List.map_cons, List.nodup_cons] at nd
    rw [lookup_cons]
    rcases List.mem_cons.1 h with rfl | h
    · simp
    · have : a.1 ≠ n := fun e => nd.1 (e ▸ List.mem_map.2 ⟨_, h, rfl⟩)
      rw [if_neg this]
      exact ih nd.2 h

theorem lookup_map {l : List FName} (F : FName → Option V) {a : FName} (h : a ∈ l) :
    lookup (l.map fun x => (x, F x)) a = some (F a) := by
  induction l with
  | nil => simp at h
  | cons b l ih =>
    rw [List.map_cons, lookup_cons]
    by_cases e : b = a
    · simp [e]
    · rw [if_neg e]
      rcases List.mem_cons.1 h with h | h
      · exact absurd h.symm e
      · exact ih h

theorem lookup_mem {l : List (FName × Option V)} {n : FName} (h : n ∈ l.map (·.1)) : ∃ x, lookup l n = some x := by
  induction l with
  | nil => simp at h
  | cons a l ih =>
    rw [lookup_cons]
    split
    · exact ⟨_, rfl⟩
    · rename_i hne
      rw [List.map_cons, List.mem_cons] at h
      rcases h with e | e
      · exact absurd e.symm hne
      · exact ih e

/-- A struct value is the list of its fields with their values. -/
theorem rec_eq {l : List (FName × Option V)} (nd : (l.map (·.1)).Nodup) :
    (l.map (·.1)).map (fun u => (u, (lookup l u).getD none)) = l := by
  rw [List.map_map]
  conv => rhs; rw [← List.map_id l]
  refine List.map_congr_left fun a ha => ?_
  have : lookup l a.1 = some a.2 := lookup_some nd ha
  simp [this]

/-- Variables bound by the pattern. -/
theorem lookup_env {toks : List (FName × Option FName)} (G : FName → Option V)
    (nd : (toks.filterMap (·.2)).Nodup) {u v : FName} (h : (u, some v) ∈ toks) :
    lookup (toks.filterMap fun t => t.2.map fun v => (v, G t.1)) v = some (G u) := by
  have e : (toks.filterMap fun t => t.2.map fun v => (v, G t.1)).map (·.1) = toks.filterMap (·.2) := by
    rw [List.map_filterMap]
    congr 1
    funext t
    cases t.2 <;> rfl
  refine lookup_some (by rw [e]; exact nd) ?_
  rw [List.mem_filterMap]
  exact ⟨_, h, rfl⟩

theorem lookup_env' {rtoks : List FName} {r : Rec V} {v : FName} (h : v ∈ rtoks) :
    lookup (rtoks.filterMap fun v => (lookup r v).map fun x => (v, x)) v = lookup r v := by
  induction rtoks with
  | nil => simp at h
  | cons a l ih =>
    rw [List.filterMap_cons]
    by_cases e : a = v
    · subst e
      cases hl : lookup r a with
      | some x => simp [lookup_cons]
      | none =>
        simp only [Option.map_none]
        apply lookup_none
        intro hm
        obtain ⟨⟨b, y⟩, hb, rfl⟩ := List.mem_map.1 hm
        obtain ⟨c, hc, e2⟩ := List.mem_filterMap.1 hb
        cases hl2 : lookup r c with
        | none => rw [hl2] at e2; simp at e2
        | some z => rw [hl2] at e2; simp at e2; rw [e2.1] at hl2; rw [hl] at hl2; cases hl2
    · have hv : v ∈ l := by
        rcases List.mem_cons.1 h with h | h
        · exact absurd h.symm e
        · exact h
      cases hl : lookup r a with
      | none => simp only [Option.map_none]; exact ih hv
      | some x => simp only [Option.map_some, lookup_cons, if_neg e]; exact ih hv

theorem find_tok {toks : List (FName × Option FName)} (nd : (toks.map (·.1)).Nodup) {u : FName} {o : Option FName}
    (h : (u, o) ∈ toks) : toks.find? (fun t => t.1 = u) = some (u, o) := by
  induction toks with
  | nil => simp at h
  | cons a l ih =>
    simp only [List.map_cons, List.nodup_cons] at nd
    rw [List.find?_cons]
    rcases List.mem_cons.1 h with rfl | h
    · simp
    · have : a.1 ≠ u := fun e => nd.1 (e ▸ List.mem_map.2 ⟨_, h, rfl⟩)
      simp only [this, decide_false]
      exact ih nd.2 h

/-- The tokens of the two structs fit together. -/
structure Match (toks : List (FName × Option FName)) (rtoks ufs rfs : List FName) : Prop where
  u : (toks.map (·.1)).Perm ufs
  und : ufs.Nodup
  vnd : (toks.filterMap (·.2)).Nodup
  r : rtoks.Perm rfs
  rnd : rfs.Nodup
  bound : ∀ v ∈ rtoks, v = .marker ∨ ∃ u, (u, some v) ∈ toks
  used : ∀ u v, (u, some v) ∈ toks → v ∈ rtoks ∧ v ≠ .marker

variable {toks : List (FName × Option FName)} {rtoks ufs rfs : List FName}

theorem patOk_perm {pat vars fields : List FName} (h : pat.Perm fields) (nd : fields.Nodup) (nv : vars.Nodup) :
    patOk pat vars fields = true := by
  unfold patOk
  simp only [Bool.and_eq_true, List.all_eq_true, decide_eq_true_eq]
  exact ⟨⟨⟨fun a ha => h.mem_iff.1 ha, fun a ha => h.mem_iff.2 ha⟩, h.nodup_iff.2 nd⟩, nv⟩

/-- `from_fields` is accepted, and what it computes. -/
theorem from_eq (h : Match toks rtoks ufs rfs) (m : Rec V) :
    ∃ r, fromFields toks rtoks ufs rfs m = some r ∧ r.map (·.1) = rfs ∧
      (∀ u v, (u, some v) ∈ toks → lookup r v = some ((lookup m u).getD none)) ∧
      (.marker ∈ rfs → lookup r .marker = some none) := by
  unfold fromFields
  dsimp only
  rw [if_pos]
  · refine ⟨_, rfl, by simp [Function.comp_def], ?_, ?_⟩
    · intro u v huv
      have hv : v ∈ rfs := h.r.mem_iff.1 (h.used u v huv).1
      rw [lookup_map _ hv, lookup_env (fun u => (lookup m u).getD none) h.vnd huv]
      rfl
    · intro hr
      rw [lookup_map _ hr, lookup_none]
      · rfl
      · intro hmem
        obtain ⟨⟨b, y⟩, hb, e⟩ := List.mem_map.1 hmem
        obtain ⟨⟨c, o⟩, hc, e2⟩ := List.mem_filterMap.1 hb
        cases o with
        | none => simp at e2
        | some v =>
          simp only [Option.map_some, Option.some.injEq, Prod.mk.injEq] at e2
          exact (h.used c v hc).2 (e2.1.trans e)
  · rw [patOk_perm h.u h.und h.vnd, patOk_perm h.r h.rnd (by simp)]
    simp only [Bool.true_and, List.all_eq_true, Bool.or_eq_true, decide_eq_true_eq]
    intro v hv
    rcases h.bound v hv with e | ⟨u, hu⟩
    · exact .inl e
    · refine .inr ?_
      rw [lookup_env (fun u => (lookup m u).getD none) h.vnd hu]; rfl

/-- `into_fields` is accepted, and what it computes. -/
theorem into_eq (h : Match toks rtoks ufs rfs) (r : Rec V) (hr : r.map (·.1) = rfs) :
    ∃ m, intoFields toks rtoks ufs rfs r = some m ∧ m.map (·.1) = ufs ∧
      (∀ u v, (u, some v) ∈ toks → lookup m u = some ((lookup r v).getD none)) ∧
      (∀ u, (u, none) ∈ toks → lookup m u = some none) := by
  have nd : (toks.map (·.1)).Nodup := h.u.nodup_iff.2 h.und
  unfold intoFields
  dsimp only
  rw [if_pos]
  · refine ⟨_, rfl, by simp [Function.comp_def], ?_, ?_⟩
    · intro u v huv
      have hu : u ∈ ufs := h.u.mem_iff.1 (List.mem_map.2 ⟨_, huv, rfl⟩)
      rw [lookup_map _ hu, find_tok nd huv]
      simp only
      rw [lookup_env' (h.used u v huv).1]
    · intro u huv
      have hu : u ∈ ufs := h.u.mem_iff.1 (List.mem_map.2 ⟨_, huv, rfl⟩)
      rw [lookup_map _ hu, find_tok nd huv]
  · rw [patOk_perm h.u h.und (by simp), patOk_perm h.r h.rnd (h.r.nodup_iff.2 h.rnd)]
    simp only [Bool.true_and, List.all_eq_true]
    rintro ⟨u, o⟩ ht
    cases o with
    | none => rfl
    | some v =>
      have hv := (h.used u v ht).1
      simp only
      rw [lookup_env' hv]
      obtain ⟨x, hx⟩ := lookup_mem (l := r) (n := v) (by rw [hr]; exact h.r.mem_iff.1 hv)
      rw [hx]; rfl

theorem rec_ext {a b : Rec V} (nd : (a.map (·.1)).Nodup) (hk : a.map (·.1) = b.map (·.1))
    (h : ∀ n ∈ a.map (·.1), lookup a n = lookup b n) : a = b := by
  have ea := rec_eq nd
  have eb := rec_eq (l := b) (hk ▸ nd)
  rw [← hk] at eb
  refine ea.symm.trans (Eq.trans ?_ eb)
  refine List.map_congr_left fun u hu => ?_
  rw [h u hu]

/-- Round trip from the map. -/
theorem from_into (h : Match toks rtoks ufs rfs) (m : Rec V) (hm : m.map (·.1) = ufs)
    (hn : ∀ u, (u, none) ∈ toks → lookup m u = some none) {r : Rec V} (hf : fromFields toks rtoks ufs rfs m = some r) :
    intoFields toks rtoks ufs rfs r = some m := by
  obtain ⟨r', e1, e2, e3, -⟩ := from_eq h m
  rw [hf] at e1
  obtain rfl := Option.some.inj e1
  obtain ⟨m', f1, f2, f3, f4⟩ := into_eq h r e2
  rw [f1]
  congr 1
  refine rec_ext (by rw [f2]; exact h.und) (by rw [f2, hm]) ?_
  intro n hn'
  rw [f2] at hn'
  obtain ⟨⟨u, o⟩, ht, rfl⟩ := List.mem_map.1 (h.u.mem_iff.2 hn')
  cases o with
  | none => rw [f4 u ht, hn u ht]
  | some v =>
    obtain ⟨x, hx⟩ := lookup_mem (l := m) (n := u) (by rw [hm]; exact hn')
    rw [f3 u v ht, e3 u v ht, hx]; rfl

/-- Round trip from the register. -/
theorem into_from (h : Match toks rtoks ufs rfs) (r : Rec V) (hr : r.map (·.1) = rfs)
    (hn : .marker ∈ rfs → lookup r .marker = some none) {m : Rec V} (hf : intoFields toks rtoks ufs rfs r = some m) :
    fromFields toks rtoks ufs rfs m = some r := by
  obtain ⟨m', f1, f2, f3, f4⟩ := into_eq h r hr
  rw [hf] at f1
  obtain rfl := Option.some.inj f1
  obtain ⟨r', e1, e2, e3, e4⟩ := from_eq h m
  rw [e1]
  congr 1
  refine rec_ext (by rw [e2]; exact h.rnd) (by rw [e2, hr]) ?_
  intro n hn'
  rw [e2] at hn'
  rcases h.bound n (h.r.mem_iff.2 hn') with rfl | ⟨u, hu⟩
  · rw [e4 hn', hn hn']
  · obtain ⟨x, hx⟩ := lookup_mem (l := r) (n := n) (by rw [hr]; exact hn')
    rw [e3 u n hu, f3 u n hu, hx]; rfl

end Verif.Periph
