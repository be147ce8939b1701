import Verif.Local.Spec
/-! # Lemmas for thread-local storage -/
namespace Verif.Local

/-- The index that stands for a thread in `CURRENT`. -/
def enc : Option Thr → Nat
  | none => 0
  | some t => t.idx + 1

/-- What the frames will write back. -/
def SavedOk : List Frame → Prop
  | [] => True
  | f :: fs => (∀ t, f.me = some t → f.saved = enc (innermost t.pool fs)) ∧ SavedOk fs

theorem innermost_pool {p : Nat} {t : Thr} : ∀ {fs : List Frame}, innermost p fs = some t → t.pool = p
  | f :: fs, h => by
    unfold innermost at h
    split at h
    · split at h
      · cases h; assumption
      · exact innermost_pool h
    · exact innermost_pool h

theorem innermost_none {p : Nat} : ∀ {fs : List Frame}, (¬ ∃ f ∈ fs, ∃ t, f.me = some t ∧ t.pool = p) →
    innermost p fs = none
  | [], _ => rfl
  | f :: fs, h => by
    have ih := innermost_none (p := p) (fs := fs) (fun ⟨g, hg, r⟩ => h ⟨g, List.mem_cons_of_mem _ hg, r⟩)
    unfold innermost
    split
    · rename_i t ht
      rw [if_neg (fun hp => h ⟨f, List.mem_cons_self, t, ht, hp⟩)]
      exact ih
    · exact ih

/-- The two statics and the stack fit together. -/
structure Sync (s : State) : Prop where
  nonempty : s.stack ≠ []
  current : ∀ p, s.current p = enc (innermost p s.stack)
  saved : SavedOk s.stack

theorem localOf_eq {s : State} (h : ∀ p, s.current p = enc (innermost p s.stack)) (p : Nat) :
    s.localOf p = innermost p s.stack := by
  unfold State.localOf
  rw [h p]
  cases hi : innermost p s.stack with
  | none => rfl
  | some t =>
    have := innermost_pool hi
    subst this
    rfl

theorem init_sync : Sync init :=
  ⟨by simp [init], fun p => rfl, ⟨fun t h => (nomatch h), trivial⟩⟩

theorem innermost_cons_some (p : Nat) (t : Thr) (n : Nat) (v : List Thr) (fs : List Frame) :
    innermost p (⟨some t, n, v⟩ :: fs) = if t.pool = p then some t else innermost p fs := rfl

theorem innermost_cons_none (p n : Nat) (v : List Thr) (fs : List Frame) :
    innermost p (⟨none, n, v⟩ :: fs) = innermost p fs := rfl

theorem step_sync {s : State} (h : Sync s) (op : Op) : Sync (step s op).1 := by
  obtain ⟨h1, h2, h3⟩ := h
  unfold step
  split
  · exact ⟨h1, h2, h3⟩
  rename_i f rest hst
  cases op with
  | call t =>
    simp only
    split
    · exact ⟨h1, h2, h3⟩
    · refine ⟨List.cons_ne_nil _ _, fun p => ?_, fun u hu => ?_, h3⟩
      · simp only [innermost_cons_some, setNat]
        by_cases hp : p = t.pool
        · subst hp; simp [enc]
        · rw [if_neg hp, if_neg (Ne.symm hp)]; exact h2 p
      · cases hu; exact h2 _
  | irq => exact ⟨List.cons_ne_nil _ _, h2, fun u hu => (nomatch hu), h3⟩
  | ret =>
    simp only
    split
    · exact ⟨h1, h2, h3⟩
    · rename_i g gs
      rw [hst] at h2 h3
      obtain ⟨fm, fsv, fv⟩ := f
      cases fm with
      | none => exact ⟨List.cons_ne_nil _ _, h2, h3.2⟩
      | some t =>
        refine ⟨List.cons_ne_nil _ _, fun p => ?_, h3.2⟩
        have hs : fsv = _ := h3.1 t rfl
        simp only [setNat]
        by_cases hp : p = t.pool
        · subst hp; rw [if_pos rfl, hs]
        · rw [if_neg hp, h2 p, innermost_cons_some, if_neg (Ne.symm hp)]
  | loc pool =>
    simp only
    split
    · exact ⟨h1, h2, h3⟩
    · rw [hst] at h2 h3
      obtain ⟨fm, fsv, fv⟩ := f
      refine ⟨List.cons_ne_nil _ _, ?_, h3⟩
      cases fm <;> exact h2
  | use j =>
    simp only
    split <;> exact ⟨h1, h2, h3⟩
  | addFib t => exact ⟨h1, h2, h3⟩
  | addFactory t pools => exact ⟨h1, h2, h3⟩
  | fiber j pools stays =>
    simp only
    split
    · exact ⟨h1, h2, h3⟩
    · split
      · exact ⟨h1, h2, h3⟩
      · exact ⟨h1, h2, h3⟩

theorem run_cons (s : State) (op : Op) (ops : List Op) :
    run s (op :: ops) = ((run (step s op).1 ops).1, (step s op).2 ++ (run (step s op).1 ops).2) := rfl

theorem run_sync : ∀ (ops : List Op) {s : State}, Sync s → Sync (run s ops).1
  | [], _, h => h
  | op :: ops, _, h => run_sync ops (step_sync h op)

/-- Handles are where they belong. -/
structure Home (s : State) : Prop where
  vars : ∀ f ∈ s.stack, ∀ h ∈ f.vars, f.me = some h
  chain : ∀ t, ∀ hs ∈ s.chain t, ∀ h ∈ hs, h = t

theorem init_home : Home init := by
  refine ⟨fun f hf h hh => ?_, fun _ _ h => (nomatch h)⟩
  simp only [init, List.mem_singleton] at hf
  subst hf
  cases hh

/-- In its own pool a thread gets its own storage. -/
theorem ownPool_local {s : State} (hs : Sync s) {p : Nat} (ho : OwnPool s p) {t : Thr}
    (ht : s.localOf p = some t) : s.me = some t := by
  rw [localOf_eq hs.current] at ht
  rcases ho with ⟨u, hu, hp⟩ | ho
  · unfold State.me at hu ⊢
    cases hst : s.stack with
    | nil => exact absurd hst hs.nonempty
    | cons f fs =>
      rw [hst] at hu ht
      have hu : f.me = some u := hu
      unfold innermost at ht
      rw [hu] at ht
      simp only [if_pos hp] at ht
      cases ht
      exact hu
  · rw [innermost_none ho] at ht; cases ht

theorem step_home {s : State} (hs : Sync s) (hh : Home s) {op : Op} (hc : Careful s op) :
    Home (step s op).1 ∧ Confined (step s op).2 := by
  have hnil : Confined [] := fun u hu => (nomatch hu)
  obtain ⟨h1, h2⟩ := hh
  unfold step
  split
  · exact ⟨⟨h1, h2⟩, hnil⟩
  rename_i f rest hst
  have hme : s.me = f.me := by simp [State.me, hst]
  cases op with
  | call t =>
    simp only
    split
    · exact ⟨⟨h1, h2⟩, hnil⟩
    · refine ⟨⟨fun g hg h hh => ?_, h2⟩, hnil⟩
      rcases List.mem_cons.1 hg with rfl | hg
      · cases hh
      · exact h1 g hg h hh
  | irq =>
    refine ⟨⟨fun g hg h hh => ?_, h2⟩, hnil⟩
    rcases List.mem_cons.1 hg with rfl | hg
    · cases hh
    · exact h1 g hg h hh
  | ret =>
    simp only
    split
    · exact ⟨⟨h1, h2⟩, hnil⟩
    · split
      · exact ⟨⟨fun g hg h hh => h1 g (by rw [hst]; exact List.mem_cons_of_mem _ hg) h hh, h2⟩, hnil⟩
      · exact ⟨⟨fun g hg h hh => h1 g (by rw [hst]; exact List.mem_cons_of_mem _ hg) h hh, h2⟩, hnil⟩
  | loc pool =>
    simp only
    split
    · exact ⟨⟨h1, h2⟩, hnil⟩
    · rename_i t ht
      have hown := ownPool_local hs hc ht
      refine ⟨⟨fun g hg h hh => ?_, h2⟩, hnil⟩
      rcases List.mem_cons.1 hg with rfl | hg
      · rcases List.mem_append.1 hh with hh | hh
        · exact h1 f (by rw [hst]; exact List.mem_cons_self) h hh
        · rw [List.mem_singleton] at hh
          subst hh
          exact hme ▸ hown
      · exact h1 g (by rw [hst]; exact List.mem_cons_of_mem _ hg) h hh
  | use j =>
    simp only
    split
    · exact ⟨⟨h1, h2⟩, hnil⟩
    · rename_i t ht
      refine ⟨⟨h1, h2⟩, fun u hu => ?_⟩
      rw [List.mem_singleton] at hu
      subst hu
      exact h1 f (by rw [hst]; exact List.mem_cons_self) t (List.mem_of_getElem? ht)
  | addFib t =>
    refine ⟨⟨h1, fun u hs hhs h hh => ?_⟩, hnil⟩
    simp only [setChain] at hhs
    split at hhs
    · rename_i e
      rcases List.mem_cons.1 hhs with rfl | hhs
      · cases hh
      · rw [← e] at hhs; exact h2 u hs hhs h hh
    · exact h2 u hs hhs h hh
  | addFactory t pools =>
    refine ⟨⟨h1, fun u l hl h hh => ?_⟩, hnil⟩
    simp only [setChain] at hl
    split at hl
    · rename_i e
      subst e
      rcases List.mem_cons.1 hl with rfl | hl
      · obtain ⟨p, hp, hl⟩ := List.mem_filterMap.1 hh
        rcases hc p hp with ⟨g1, g2⟩ | g
        · have := ownPool_local hs (.inl ⟨u, g1, g2⟩) hl
          rw [g1] at this
          cases this; rfl
        · have := ownPool_local hs (.inr g) hl
          rw [localOf_eq hs.current, innermost_none g] at hl
          cases hl
      · exact h2 u l hl h hh
    · exact h2 u l hl h hh
  | fiber j pools stays =>
    simp only
    split
    · exact ⟨⟨h1, h2⟩, hnil⟩
    rename_i t ht
    split
    · exact ⟨⟨h1, h2⟩, hnil⟩
    rename_i l hl
    have hl' := List.mem_of_getElem? hl
    refine ⟨⟨h1, fun u m hm h hh => ?_⟩, fun u hu => ?_⟩
    · simp only [setChain] at hm
      split at hm
      · rename_i e
        subst e
        split at hm
        · rcases List.mem_or_eq_of_mem_set hm with hm | rfl
          · exact h2 u m hm h hh
          · rcases List.mem_append.1 hh with hh | hh
            · exact h2 u l hl' h hh
            · obtain ⟨p, hp, hh⟩ := List.mem_filterMap.1 hh
              have := ownPool_local hs (hc p hp) hh
              rw [hme, ht] at this
              cases this; rfl
        · exact h2 u m (List.mem_of_mem_eraseIdx hm) h hh
      · exact h2 u m hm h hh
    · obtain ⟨h, hh, rfl⟩ := List.mem_map.1 hu
      rw [h2 t l hl' h hh]

theorem run_home : ∀ (ops : List Op) {s : State}, Sync s → Home s → CarefulRun s ops → Confined (run s ops).2
  | [], _, _, _, _ => fun _ hu => (nomatch hu)
  | op :: ops, s, hs, hh, hc => by
    obtain ⟨g1, g2⟩ := step_home hs hh hc.1
    have := run_home ops (step_sync hs op) g1 hc.2
    rw [run_cons]
    intro u hu
    rcases List.mem_append.1 hu with hu | hu
    · exact g2 u hu
    · exact this u hu

end Verif.Local
