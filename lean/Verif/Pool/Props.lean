import Verif.Pool.Lemmas
/-! # C75: thread pool macros -/
namespace Verif.Pool
variable {C : Type}

/-- **C75.** The code of `thr::pool!` compiles in a configuration exactly if nothing in the declaration is
disabled by a condition, all type names and all field names are distinct (with `fib_chain` and `local`
taken), and there are fewer than 65536 threads. -/
theorem C75_compiles_iff (camel : String → String) (i : Input C) (c : C) :
    accepts c (pool camel i) ↔ Legal camel i c := by
  unfold accepts
  rw [pool_structs, pool_impls]
  constructor
  · rintro ⟨h1, h2, h3⟩
    have names : ∀ (f : Member C → Option String) (l : List (Member C)),
        (l.map fun m => (⟨m.name, f m, m.on⟩ : Field C)).map (·.name) = l.map (·.name) := by
      intro f l; rw [List.map_map]; rfl
    simp only [List.map_append, List.map_cons, List.map_nil, List.map_map, List.cons_append, List.nil_append] at h1
    have hne : i.thr ≠ i.local_ ∧ i.thr ≠ i.index ∧ i.local_ ≠ i.index := by
      simp only [List.nodup_cons, List.mem_cons, not_or] at h1
      exact ⟨h1.1.1, h1.1.2.1, h1.2.1.1⟩
    have hnot : ∀ t ∈ i.threads, t.on c = true → camel t.name ≠ i.thr ∧ camel t.name ≠ i.local_ ∧ camel t.name ≠ i.index := by
      intro t ht hon
      have hm : camel t.name ∈ (i.threads.filter (·.on c)).map ((·.1) ∘ fun t => (camel t.name, ([⟨"__priv", none, always⟩] : List (Field C)))) :=
        List.mem_map.2 ⟨t, List.mem_filter.2 ⟨ht, hon⟩, rfl⟩
      simp only [List.nodup_cons, List.mem_cons, not_or] at h1
      exact ⟨fun e => h1.1.2.2 (e ▸ hm), fun e => h1.2.1.2 (e ▸ hm), fun e => h1.2.2.1 (e ▸ hm)⟩
    -- the constructors
    have hthr := h3 (.ctor i.thr (["fib_chain", "local"] ++ i.thrFields.map (·.name))) (by simp [pool, defThr])
    have hloc := h3 (.ctor i.local_ (i.localFields.map (·.name))) (by simp [pool, defLocal])
    have hidx := h3 (.ctor i.index (i.threads.map (·.name))) (by simp [pool, defIndex])
    have hcnt := h3 (.lit i.threads.length) (by simp [pool, defThr])
    have who : ∀ {n : String} {fs : List (Field C)}, (n, fs) ∈ (i.threads.filter (·.on c)).map
        (fun t => (camel t.name, ([⟨"__priv", none, always⟩] : List (Field C)))) → n ≠ i.thr ∧ n ≠ i.local_ ∧ n ≠ i.index := by
      intro n fs hm
      obtain ⟨t, ht, e⟩ := List.mem_map.1 hm
      obtain ⟨ht1, ht2⟩ := List.mem_filter.1 ht
      have e1 : camel t.name = n := congrArg Prod.fst e
      rw [← e1]
      exact hnot t ht1 ht2
    obtain ⟨fs1, m1, n1, x1⟩ := hthr
    obtain ⟨fs2, m2, n2, x2⟩ := hloc
    obtain ⟨fs3, m3, n3, x3⟩ := hidx
    simp only [List.cons_append, List.nil_append, List.mem_cons, Prod.mk.injEq] at m1 m2 m3
    have e1 : fs1 = [⟨"fib_chain", none, always⟩, ⟨"local", none, always⟩] ++
        (i.thrFields.filter (·.on c)).map fun f => ⟨f.name, none, f.on⟩ := by
      rcases m1 with ⟨-, e⟩ | ⟨e, -⟩ | ⟨e, -⟩ | m
      · exact e
      · exact absurd e hne.1
      · exact absurd e hne.2.1
      · exact absurd rfl (who m).1
    have e2 : fs2 = (i.localFields.filter (·.on c)).map fun f => ⟨f.name, none, f.on⟩ := by
      rcases m2 with ⟨e, -⟩ | ⟨-, e⟩ | ⟨e, -⟩ | m
      · exact absurd e.symm hne.1
      · exact e
      · exact absurd e hne.2.2
      · exact absurd rfl (who m).2.1
    have e3 : fs3 = (i.threads.filter (·.on c)).map fun t => ⟨t.name, some (camel t.name), t.on⟩ := by
      rcases m3 with ⟨e, -⟩ | ⟨e, -⟩ | ⟨-, e⟩ | m
      · exact absurd e.symm hne.2.1
      · exact absurd e.symm hne.2.2
      · exact e
      · exact absurd rfl (who m).2.2
    subst e1 e2 e3
    have t1 : ∀ t ∈ i.threads, t.on c = true :=
      all_on (pre := []) n3 fun x hx => by
        have := (x3 x).1 hx
        rw [names] at this
        exact this
    have hfil : i.threads.filter (·.on c) = i.threads := filter_all t1
    refine ⟨t1, ?_, ?_, ?_, n3, n1, n2, hcnt⟩
    · refine all_on n1 fun x hx => ?_
      have := (x1 x).1 hx
      rw [List.map_append, names] at this
      exact this
    · exact all_on (pre := []) n2 fun x hx => by
        have := (x2 x).1 hx
        rw [names] at this
        exact this
    · rw [hfil] at h1
      exact h1
  · intro h
    rw [filter_all h.threads_on, filter_all h.thr_on, filter_all h.local_on]
    have hcam : (i.threads.map fun t => camel t.name).Nodup :=
      (List.nodup_cons.1 (List.nodup_cons.1 (List.nodup_cons.1 h.types).2).2).2
    have hix : i.index ∉ i.threads.map fun t => camel t.name :=
      (List.nodup_cons.1 (List.nodup_cons.1 (List.nodup_cons.1 h.types).2).2).1
    refine ⟨?_, ?_, ?_⟩
    · simp only [List.map_append, List.map_cons, List.map_nil, List.map_map, List.cons_append, List.nil_append]
      exact h.types
    · have hin : ∀ p, p ∈ i.threads.flatMap (fun t => [("Token", camel t.name), ("ThrToken", camel t.name)]) →
          p.2 ∈ (i.threads.map fun t => camel t.name) ∧ p.1 ≠ "Thread" := by
        intro p hp
        obtain ⟨t, ht, hp⟩ := List.mem_flatMap.1 hp
        simp only [List.mem_cons, List.not_mem_nil, or_false] at hp
        rcases hp with rfl | rfl
        · exact ⟨List.mem_map.2 ⟨t, ht, rfl⟩, by simp⟩
        · exact ⟨List.mem_map.2 ⟨t, ht, rfl⟩, by simp⟩
      simp only [List.cons_append, List.nil_append, List.nodup_cons, List.mem_cons, not_or]
      refine ⟨⟨fun e => absurd (congrArg Prod.fst e) (by simp), fun hm => (hin _ hm).2 rfl⟩,
        fun hm => hix (hin _ hm).1, ?_⟩
      unfold List.Nodup
      rw [List.pairwise_flatMap]
      refine ⟨fun t _ => by simp, ?_⟩
      refine (List.pairwise_map.1 hcam).imp fun {a b} hab x hx y hy e => hab ?_
      subst e
      simp only [List.mem_cons, List.not_mem_nil, or_false] at hx hy
      rcases hx with rfl | rfl <;> rcases hy with h | h <;>
        first | exact congrArg Prod.snd h | exact absurd (congrArg Prod.fst h) (by simp)
    · intro it hit
      have st : ∀ t ∈ i.threads, camel t.name ∈ List.map (·.1)
          ([(i.thr, [⟨"fib_chain", none, always⟩, ⟨"local", none, always⟩] ++
            i.thrFields.map fun f => (⟨f.name, none, f.on⟩ : Field C)),
           (i.local_, i.localFields.map fun f => ⟨f.name, none, f.on⟩),
           (i.index, i.threads.map fun t => ⟨t.name, some (camel t.name), t.on⟩)] ++
          i.threads.map fun t => (camel t.name, [⟨"__priv", none, always⟩])) := by
        intro t ht
        rw [List.map_append]
        refine List.mem_append_right _ ?_
        rw [List.map_map]
        exact List.mem_map.2 ⟨t, ht, rfl⟩
      simp only [pool, defThr, defLocal, defIndex, List.mem_append, List.mem_cons, List.not_mem_nil, or_false,
        List.mem_map, List.mem_range, List.mem_flatMap] at hit
      rcases hit with (((rfl | rfl | rfl | rfl) | ⟨k, hk, rfl⟩) | rfl | rfl) | (rfl | rfl | rfl) | ⟨t, ht, hit⟩
      · intro _
        have hf : List.filter (fun a : Field C => a.on c) ([⟨"fib_chain", none, always⟩, ⟨"local", none, always⟩] ++
            i.thrFields.map fun f => (⟨f.name, none, f.on⟩ : Field C)) =
            [⟨"fib_chain", none, always⟩, ⟨"local", none, always⟩] ++
            i.thrFields.map fun f => (⟨f.name, none, f.on⟩ : Field C) := by
          refine filter_all fun a ha => ?_
          simp only [List.mem_append, List.mem_cons, List.not_mem_nil, or_false, List.mem_map] at ha
          rcases ha with (rfl | rfl) | ⟨f, hf, rfl⟩
          · rfl
          · rfl
          · exact h.thr_on f hf
        rw [hf]
        refine ⟨?_, fun f hf t ht => ?_⟩
        · rw [List.map_append, List.map_map]
          exact h.thr_names
        · simp only [List.mem_append, List.mem_cons, List.not_mem_nil, or_false, List.mem_map] at hf
          rcases hf with (rfl | rfl) | ⟨f, hf, rfl⟩ <;> cases ht
      · refine ⟨_, List.mem_append_left _ List.mem_cons_self, h.thr_names, fun x => ?_⟩
        rw [List.map_append, List.map_map]
        exact Iff.rfl
      · exact ⟨by simp, by simp⟩
      · exact h.count
      · have := h.count
        show k < 65536
        omega
      · intro _
        have hf : (i.localFields.map fun f => (⟨f.name, none, f.on⟩ : Field C)).filter (·.on c) =
            i.localFields.map fun f => (⟨f.name, none, f.on⟩ : Field C) := by
          refine filter_all fun a ha => ?_
          obtain ⟨f, hf, rfl⟩ := List.mem_map.1 ha
          exact h.local_on f hf
        rw [hf]
        refine ⟨?_, fun f hf t ht => ?_⟩
        · rw [List.map_map]
          exact h.local_names
        · obtain ⟨f, hf, rfl⟩ := List.mem_map.1 hf
          cases ht
      · refine ⟨i.localFields.map fun f => ⟨f.name, none, f.on⟩, by simp, h.local_names, fun x => ?_⟩
        rw [List.map_map]
        exact Iff.rfl
      · intro _
        have hf : (i.threads.map fun t => (⟨t.name, some (camel t.name), t.on⟩ : Field C)).filter (·.on c) =
            i.threads.map fun t => (⟨t.name, some (camel t.name), t.on⟩ : Field C) := by
          refine filter_all fun a ha => ?_
          obtain ⟨f, hf, rfl⟩ := List.mem_map.1 ha
          exact h.threads_on f hf
        rw [hf]
        refine ⟨?_, fun f hf t ht => ?_⟩
        · rw [List.map_map]
          exact h.threads_names
        · obtain ⟨u, hu, rfl⟩ := List.mem_map.1 hf
          cases ht
          exact st u hu
      · exact ⟨by simp, by simp⟩
      · refine ⟨i.threads.map fun t => ⟨t.name, some (camel t.name), t.on⟩, by simp, h.threads_names, fun x => ?_⟩
        rw [List.map_map]
        exact Iff.rfl
      · simp only [defThrToken, List.mem_cons, List.not_mem_nil, or_false] at hit
        rcases hit with rfl | rfl | rfl | rfl | rfl
        · intro _
          refine ⟨((List.filter_sublist (l := [(⟨"__priv", none, always⟩ : Field C)])).map (·.name)).nodup (by simp), fun f hf u hu => ?_⟩
          have := (List.mem_filter.1 hf).1
          rw [List.mem_singleton] at this
          subst this
          cases hu
        · exact ⟨st t ht, by simp⟩
        · refine ⟨[⟨"__priv", none, always⟩], List.mem_append_right _ (List.mem_map.2 ⟨t, ht, rfl⟩), by simp, by simp⟩
        · exact ⟨st t ht, by simp⟩
        · exact List.mem_append_left _ List.mem_cons_self

/-- The example of the documentation (src/thr/mod.rs 20–49). -/
def docInput : Input Unit where
  thr := "Thr"
  local_ := "ThrLocal"
  index := "Thrs"
  thrFields := [⟨"foo", always⟩]
  localFields := [⟨"bar", always⟩]
  threads := [⟨"thread1", always⟩, ⟨"thread2", always⟩]

example : Legal (fun s => if s = "thread1" then "Thread1" else "Thread2") docInput () where
  threads_on := by simp [docInput, always]
  thr_on := by simp [docInput, always]
  local_on := by simp [docInput, always]
  types := by decide
  threads_names := by decide
  thr_names := by decide
  local_names := by decide
  count := by decide

/-- C75: a declaration with a thread that is disabled in some configuration does not compile there,
although the attribute is accepted. -/
theorem C75_false : ∃ (camel : String → String) (i : Input Bool),
    accepts true (pool camel i) ∧ ¬ accepts false (pool camel i) := by
  refine ⟨fun s => s ++ "T", ⟨"Thr", "ThrLocal", "Thrs", [], [], [⟨"a", always⟩, ⟨"b", id⟩]⟩, ?_, ?_⟩
  · rw [C75_compiles_iff]
    exact ⟨by simp [always], by simp, by simp, by decide, by decide, by decide, by decide, by decide⟩
  · rw [C75_compiles_iff]
    intro h
    have := h.threads_on ⟨"b", id⟩ (by simp)
    simp at this

/-- C75: the token of a thread refers to an existing element of the array, the one that was made
with the position of the thread; so different tokens refer to different threads. -/
theorem C75_tokens (i : Input C) (k : Nat) (hk : k < i.threads.length) :
    toThr i k = some ⟨k⟩ ∧ (threadsArray i).length = i.threads.length := by
  have h : thrIdx i k = some k := by
    simp [thrIdx, List.getElem?_zipIdx, hk]
  refine ⟨?_, by simp [threadsArray]⟩
  simp [toThr, h, threadsArray, hk]

theorem C75_tokens_distinct (i : Input C) (j k : Nat) (hj : j < i.threads.length) (hk : k < i.threads.length)
    (h : toThr i j = toThr i k) : j = k := by
  rw [(C75_tokens i j hj).1, (C75_tokens i k hk).1] at h
  cases h; rfl

example : 1 < docInput.threads.length ∧ toThr docInput 1 = some ⟨1⟩ := by decide

/-- C75: `thr::soft!` adds a field `priority`, so this name is taken as well. -/
theorem C75_soft_iff (camel : String → String) (i : Input C) (c : C) :
    accepts c (soft camel i) ↔ Legal camel i c ∧ ∀ f ∈ i.thrFields, f.name ≠ "priority" := by
  have key := C75_compiles_iff camel { i with thrFields := ⟨"priority", always⟩ :: i.thrFields } c
  have hleg : Legal camel { i with thrFields := ⟨"priority", always⟩ :: i.thrFields } c ↔
      Legal camel i c ∧ ∀ f ∈ i.thrFields, f.name ≠ "priority" := by
    constructor
    · rintro ⟨h1, h2, h3, h4, h5, h6, h7, h8⟩
      have h6' : (["fib_chain", "local"] ++ "priority" :: i.thrFields.map (·.name)).Nodup := h6
      simp only [List.cons_append, List.nil_append, List.nodup_cons, List.mem_cons, not_or] at h6'
      refine ⟨⟨h1, fun f hf => h2 f (List.mem_cons_of_mem _ hf), h3, h4, h5, ?_, h7, h8⟩, fun f hf e => ?_⟩
      · simp only [List.cons_append, List.nil_append, List.nodup_cons, List.mem_cons, not_or]
        exact ⟨⟨h6'.1.1, h6'.1.2.2⟩, h6'.2.1.2, h6'.2.2.2⟩
      · exact h6'.2.2.1 (List.mem_map.2 ⟨f, hf, e⟩)
    · rintro ⟨⟨h1, h2, h3, h4, h5, h6, h7, h8⟩, hp⟩
      simp only [List.cons_append, List.nil_append, List.nodup_cons, List.mem_cons, not_or] at h6
      refine ⟨h1, fun f hf => ?_, h3, h4, h5, ?_, h7, h8⟩
      · rcases List.mem_cons.1 hf with rfl | hf
        · rfl
        · exact h2 f hf
      · simp only [List.map_cons, List.cons_append, List.nil_append, List.nodup_cons, List.mem_cons, not_or]
        refine ⟨⟨h6.1.1, by decide, h6.1.2⟩, ⟨by decide, h6.2.1⟩, fun hm => ?_, h6.2.2⟩
        obtain ⟨f, hf, e⟩ := List.mem_map.1 hm
        exact hp f hf e
  rw [← hleg, ← key]
  unfold soft accepts
  rw [structs_append, impls_append]
  have hs : structs c [Item.impl (C := C) "SoftThread" i.thr []] = [] := rfl
  have hi : impls [Item.impl (C := C) "SoftThread" i.thr []] = [("SoftThread", i.thr)] := rfl
  rw [hs, hi, List.append_nil]
  have hthr : i.thr ∈ (structs c (pool camel { i with thrFields := ⟨"priority", always⟩ :: i.thrFields })).map (·.1) := by
    rw [pool_structs]; simp
  constructor
  · rintro ⟨h1, h2, h3⟩
    refine ⟨h1, (List.nodup_append.1 h2).1, fun it hit => ?_⟩
    have hok := h3 it (List.mem_append_left _ hit)
    cases it with
    | bound trait type =>
      rcases List.mem_append.1 hok with h | h
      · exact h
      · have := bound_pool hit
        subst this
        exact absurd (congrArg Prod.fst (List.mem_singleton.1 h)) (by simp)
    | _ => exact hok
  · rintro ⟨h1, h2, h3⟩
    refine ⟨h1, List.nodup_append.2 ⟨h2, by simp, fun a ha b hb e => ?_⟩, fun it hit => ?_⟩
    · rw [List.mem_singleton] at hb
      subst hb e
      rw [pool_impls] at ha
      simp only [List.mem_append, List.mem_cons, List.not_mem_nil, or_false, List.mem_flatMap] at ha
      rcases ha with (ha | ha) | ⟨t, -, ha | ha⟩ <;> exact absurd (congrArg Prod.fst ha) (by simp)
    · rcases List.mem_append.1 hit with hit | hit
      · have hok := h3 it hit
        cases it with
        | bound trait type => exact List.mem_append_left _ hok
        | _ => exact hok
      · rw [List.mem_singleton] at hit
        subst hit
        exact ⟨hthr, by simp⟩

end Verif.Pool
