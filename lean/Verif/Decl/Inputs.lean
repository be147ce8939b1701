import Verif.Decl.Lemmas
/-! # The inputs of the four macros -/
namespace Verif.Decl

def heapTab : List (String × Sort_) := [("layout", .name), ("metadata", .head), ("instance", .head), ("enable_trace_stream", .int)]
def streamTab : List (String × Sort_) := [("layout", .name), ("metadata", .head), ("instance", .head), ("global", .bool)]
def poolTab : List (String × Sort_) := [("thread", .block), ("local", .block), ("index", .head), ("threads", .threads), ("resume", .path)]
def softTab : List (String × Sort_) :=
  [("thread", .rawBlock), ("local", .rawBlock), ("index", .head), ("threads", .rawThreads), ("resume", .path), ("set_pending", .path)]

theorem heap_table : Table heapKeys heapTab :=
  ⟨_, _, rfl, rfl, good_name, _, _, rfl, rfl, good_head, _, _, rfl, rfl, good_head, _, _, rfl, rfl, good_int, rfl⟩

theorem stream_table : Table streamKeys streamTab :=
  ⟨_, _, rfl, rfl, good_name, _, _, rfl, rfl, good_head, _, _, rfl, rfl, good_head, _, _, rfl, rfl, good_bool, rfl⟩

theorem pool_table : Table poolKeys poolTab :=
  ⟨_, _, rfl, rfl, good_block, _, _, rfl, rfl, good_block, _, _, rfl, rfl, good_head, _, _, rfl, rfl, good_threads, _, _, rfl, rfl, good_path, rfl⟩

theorem soft_table : Table softKeys softTab :=
  ⟨_, _, rfl, rfl, good_rawBlock, _, _, rfl, rfl, good_rawBlock, _, _, rfl, rfl, good_head, _, _, rfl, rfl, good_rawThreads, _, _, rfl, rfl, good_path,
    _, _, rfl, rfl, good_path, rfl⟩

/-- A value found under a key has the sort of the key. -/
theorem sort_of_lookup {tab : List (String × Sort_)} {es : List (String × Val)} (h : ∀ e ∈ es, tab.lookup e.1 = some (sortOf e.2)) {k : String} {v : Val}
    (hv : es.lookup k = some v) : tab.lookup k = some (sortOf v) := h _ (mem_of_lookup hv)

/-- Keys outside the table are not found. -/
theorem lookup_outside {tab : List (String × Sort_)} {es : List (String × Val)} (h : ∀ e ∈ es, tab.lookup e.1 = some (sortOf e.2)) {k : String}
    (hk : tab.lookup k = none) : es.lookup k = none := by
  cases e : es.lookup k with
  | none => rfl
  | some v => rw [sort_of_lookup h e] at hk; cases hk

/-- The form in which the parsers use the entries. -/
theorem written_iff {ks : List Key} {tab : List (String × Sort_)} (ht : Table ks tab) (hn : (tab.map Prod.fst).Nodup) {ts : List Tok}
    {es : List (String × Val)} (hd : (es.map Prod.fst).Nodup) (hs : ∀ e ∈ es, tab.lookup e.1 = some (sortOf e.2)) :
    Written es ts ↔ ∃ es', keys ks ts.length [] ts = some es' ∧ ∀ k ∈ tab.map Prod.fst, es'.lookup k = es.lookup k := by
  constructor
  · rintro ⟨es', l, hp, h1, h2⟩
    have hd' := (hp.map Prod.fst).symm.nodup hd
    exact ⟨es', (input_iff ht hn).2 ⟨⟨l, h1, h2⟩, fun e he => hs e (hp.mem_iff.1 he), hd'⟩, fun k _ => lookup_of_perm hd' hp k⟩
  · rintro ⟨es', hk, hl⟩
    obtain ⟨⟨l, h1, h2⟩, hs', hd'⟩ := (input_iff ht hn).1 hk
    refine ⟨es', l, perm_of_lookup hd' hd fun k => ?_, h1, h2⟩
    by_cases hm : k ∈ tab.map Prod.fst
    · exact hl k hm
    · rw [lookup_outside hs' (lookup_none.2 hm), lookup_outside hs (lookup_none.2 hm)]

theorem heap_iff {ts : List Tok} {i : Heap} : heap ts = some i ↔ Written i.entries ts := by
  obtain ⟨l, m, n, t⟩ := i
  rw [written_iff heap_table (by decide) (by cases t <;> simp [Heap.entries]) (by cases t <;> simp [Heap.entries, heapTab, sortOf, List.lookup])]
  simp only [heap, heapTab, List.map_cons, List.map_nil, List.mem_cons, List.not_mem_nil, or_false, forall_eq_or_imp, forall_eq]
  constructor
  · intro h
    split at h
    · cases h
    · rename_i f hf
      refine ⟨f, hf, ?_⟩
      split at h <;> cases h <;> simp_all [-List.lookup_eq_none_iff, Heap.entries, List.lookup]
  · rintro ⟨f, hf, h1, h2, h3, h4⟩
    rw [hf]
    simp only [h1, h2, h3, h4]
    cases t <;> simp [Heap.entries, List.lookup]

theorem stream_iff {ts : List Tok} {i : Stream} : stream ts = some i ↔ ∃ b, Written (i.entries b) ts := by
  obtain ⟨l, m, n, g⟩ := i
  have : ∀ b, Written (Stream.entries ⟨l, m, n, g⟩ b) ts ↔ _ := fun b =>
    written_iff stream_table (by decide) (by cases g <;> cases b <;> simp [Stream.entries])
      (by cases g <;> cases b <;> simp [Stream.entries, streamTab, sortOf, List.lookup])
  simp only [this]
  simp only [stream, streamTab, List.map_cons, List.map_nil, List.mem_cons, List.not_mem_nil, or_false, forall_eq_or_imp, forall_eq]
  clear this
  constructor
  · intro h
    split at h
    · cases h
    · rename_i f hf
      split at h <;> cases h
      · exact ⟨false, f, hf, by simp_all [-List.lookup_eq_none_iff, Stream.entries, List.lookup]⟩
      · exact ⟨true, f, hf, by simp_all [-List.lookup_eq_none_iff, Stream.entries, List.lookup]⟩
  · rintro ⟨b, f, hf, h1, h2, h3, h4⟩
    rw [hf]
    simp only [h1, h2, h3, h4]
    cases g <;> cases b <;> simp [Stream.entries, List.lookup]

theorem pool_iff {ts : List Tok} {i : Pool} : pool ts = some i ↔ Written i.entries ts := by
  obtain ⟨t, l, n, ths, r⟩ := i
  rw [written_iff pool_table (by decide) (by cases r <;> simp [Pool.entries, optional]) (by cases r <;> simp [Pool.entries, optional, poolTab, sortOf, List.lookup])]
  simp only [pool, poolTab, List.map_cons, List.map_nil, List.mem_cons, List.not_mem_nil, or_false, forall_eq_or_imp, forall_eq]
  constructor
  · intro h
    split at h
    · cases h
    · rename_i f hf
      refine ⟨f, hf, ?_⟩
      split at h <;> cases h <;> simp_all [-List.lookup_eq_none_iff, Pool.entries, optional, List.lookup]
  · rintro ⟨f, hf, h1, h2, h3, h4, h5⟩
    rw [hf]
    simp only [h1, h2, h3, h4, h5]
    cases r <;> simp [Pool.entries, optional, List.lookup]

theorem optPath_iff {v : Option Val} {r : Option String} : optPath v = some r ↔ v = r.map .path := by
  cases v with
  | none => cases r <;> simp [optPath]
  | some v => cases v <;> cases r <;> simp [optPath]

theorem soft_iff {ts : List Tok} {i : Soft} : soft ts = some i ↔ Written i.entries ts := by
  obtain ⟨t, l, n, ths, r, p⟩ := i
  rw [written_iff soft_table (by decide) (by cases r <;> cases p <;> simp [Soft.entries, optional])
    (by cases r <;> cases p <;> simp [Soft.entries, optional, softTab, sortOf, List.lookup])]
  simp only [soft, softTab, List.map_cons, List.map_nil, List.mem_cons, List.not_mem_nil, or_false, forall_eq_or_imp, forall_eq]
  constructor
  · intro h
    split at h
    · cases h
    · rename_i f hf
      refine ⟨f, hf, ?_⟩
      split at h
      · rename_i h1 h2 h3 h4 h5 h6
        rw [optPath_iff] at h5 h6
        cases h
        rw [h1, h2, h3, h4, h5, h6]
        cases r <;> cases p <;> simp [Soft.entries, optional, List.lookup]
      · cases h
  · rintro ⟨f, hf, h1, h2, h3, h4, h5, h6⟩
    rw [hf]
    simp only [h1, h2, h3, h4, h5, h6]
    cases r <;> cases p <;> simp [Soft.entries, optional, List.lookup, optPath]

end Verif.Decl
