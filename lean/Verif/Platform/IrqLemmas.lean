import Verif.Platform.IrqSpec
/-! # Lemmas about critical sections -/
namespace Verif.Platform.Irq

variable {off c : BitVec 32}

def ids (s : State) : List Nat := s.live.map (·.1)

/-- Handle numbers are fresh and distinct. -/
structure Fresh (s : State) : Prop where
  lt : ∀ h ∈ s.live, h.1 < s.next
  nodup : (ids s).Nodup

/-- The oldest handle saved `c`, the others saved `off`; interrupts are off. -/
structure Good (off c : BitVec 32) (s : State) : Prop where
  none : s.live = [] → s.cpu = c
  some : ∀ h t, s.live = h :: t → h.2 = c ∧ (∀ x ∈ t, x.2 = off) ∧ s.cpu = off

theorem init_fresh : Fresh (init c) := ⟨by simp [init], by simp [init, ids]⟩

theorem init_good : Good off c (init c) := ⟨by simp [init], by simp [init]⟩

theorem filter_ids (s : State) (i : Nat) :
    (s.live.filter (fun h => h.1 ≠ i)).map (·.1) = (ids s).filter (· ≠ i) := by
  unfold ids
  induction s.live with
  | nil => rfl
  | cons a l ih =>
    simp only [List.filter_cons, List.map_cons]
    split <;> simp_all

theorem step_fresh {s s' : State} {o : Op} (f : Fresh s) (h : step off s o = some s') : Fresh s' := by
  cases o with
  | pause =>
    simp only [step, Option.some.injEq] at h
    subst h
    refine ⟨?_, ?_⟩
    · intro x hx
      simp only [State.pause, List.mem_append, List.mem_singleton] at hx ⊢
      rcases hx with hx | hx
      · have := f.lt x hx; omega
      · subst hx; simp
    · simp only [ids, State.pause, List.map_append, List.map_cons, List.map_nil]
      rw [List.nodup_append]
      refine ⟨f.nodup, by simp, ?_⟩
      intro a ha b hb
      simp at hb
      subst hb
      simp only [List.mem_map] at ha
      obtain ⟨x, hx, rfl⟩ := ha
      have := f.lt x hx
      omega
  | drop i =>
    simp only [step, State.drop] at h
    split at h
    · simp at h
    · simp only [Option.some.injEq] at h
      subst h
      refine ⟨fun x hx => f.lt x (List.mem_filter.1 hx).1, ?_⟩
      simp only [ids]
      rw [filter_ids]
      exact f.nodup.filter _

/-- The handles alive, as the specification tracks them. -/
theorem step_ids {s s' : State} {o : Op} (h : step off s o = some s') :
    (ids s', s'.next) = (match o with | .pause => (ids s ++ [s.next], s.next + 1) | .drop i => ((ids s).filter (· ≠ i), s.next)) := by
  cases o with
  | pause => simp only [step, Option.some.injEq] at h; subst h; simp [ids, State.pause]
  | drop i =>
    simp only [step, State.drop] at h
    split at h
    · simp at h
    · simp only [Option.some.injEq] at h
      subst h
      have := filter_ids s i
      simp only [ids] at this ⊢
      rw [this]

theorem head_notin {h : Nat × BitVec 32} {t : List (Nat × BitVec 32)} {i : Nat} (nd : ((h :: t).map (·.1)).Nodup)
    (hi : h.1 = i) : t.filter (fun x => x.1 ≠ i) = t := by
  rw [List.filter_eq_self]
  intro x hx
  simp only [List.map_cons, List.nodup_cons, List.mem_map] at nd
  simp only [ne_eq, decide_eq_true_eq]
  intro e
  exact nd.1 ⟨x, hx, by omega⟩

/-- A step that does not drop the oldest of several handles keeps `Good`. -/
theorem step_good {s s' : State} {o : Op} (f : Fresh s) (g : Good off c s) (h : step off s o = some s')
    (ok : ∀ i, o = .drop i → (ids s).head? = some i → ids s = [i]) : Good off c s' := by
  cases o with
  | pause =>
    simp only [step, Option.some.injEq] at h
    subst h
    refine ⟨by simp [State.pause], ?_⟩
    intro h t e
    simp only [State.pause] at e ⊢
    cases hl : s.live with
    | nil =>
      rw [hl] at e
      simp at e
      obtain ⟨rfl, rfl⟩ := e
      exact ⟨g.none hl, by simp, trivial⟩
    | cons a l =>
      rw [hl] at e
      simp at e
      obtain ⟨rfl, rfl⟩ := e
      obtain ⟨g1, g2, g3⟩ := g.some _ _ hl
      refine ⟨g1, ?_, trivial⟩
      intro x hx
      simp at hx
      rcases hx with hx | hx
      · exact g2 x hx
      · subst hx; exact g3
  | drop i =>
    have ok := ok i rfl
    simp only [step, State.drop] at h
    split at h
    · simp at h
    rename_i x hf
    simp only [Option.some.injEq] at h
    subst h
    have hx := List.mem_of_find?_eq_some hf
    have hxi := List.find?_some hf
    simp only [decide_eq_true_eq] at hxi
    cases hl : s.live with
    | nil => rw [hl] at hx; simp at hx
    | cons a l =>
      obtain ⟨g1, g2, g3⟩ := g.some _ _ hl
      by_cases ha : a.1 = i
      · have hone : ids s = [i] := ok (by simp [ids, hl, ha])
        simp only [ids, hl, List.map_cons, List.cons.injEq, List.map_eq_nil_iff] at hone
        obtain ⟨-, rfl⟩ := hone
        rw [hl] at hf
        simp [ha] at hf
        subst hf
        exact ⟨fun _ => g1, by simp [ha]⟩
      · have hxl : x ∈ l := by
          rw [hl] at hx
          simp at hx
          rcases hx with rfl | hx
          · exact absurd hxi ha
          · exact hx
        refine ⟨by simp [ha], ?_⟩
        intro h t e
        simp [ha] at e
        obtain ⟨rfl, rfl⟩ := e
        exact ⟨g1, fun y hy => g2 y (List.mem_filter.1 hy).1, g2 x hxl⟩

theorem run_append {s : State} {a b : List Op} : run off s (a ++ b) = (run off s a).bind fun s' => run off s' b := by
  induction a generalizing s with
  | nil => rfl
  | cons o os ih =>
    simp only [List.cons_append, run]
    cases step off s o with
    | none => rfl
    | some s' => simp [ih]

theorem run_good {s s' : State} {ops : List Op} (f : Fresh s) (g : Good off c s)
    (ol : OuterLast (ids s) s.next ops) (h : run off s ops = some s') : Good off c s' := by
  induction ops generalizing s with
  | nil => simp only [run, Option.some.injEq] at h; subst h; exact g
  | cons o os ih =>
    simp only [run, Option.bind_eq_some_iff] at h
    obtain ⟨s1, h1, h2⟩ := h
    have hid := step_ids h1
    refine ih (step_fresh f h1) (step_good f g h1 ?_) ?_ h2
    · intro i hi
      subst hi
      exact ol.1
    · cases o with
      | pause =>
        simp only [Prod.mk.injEq] at hid
        rw [hid.1, hid.2]; exact ol
      | drop i =>
        simp only [Prod.mk.injEq] at hid
        rw [hid.1, hid.2]; exact ol.2

/-- `OuterLast` passes to prefixes. -/
theorem OuterLast.prefix {l : List Nat} {n : Nat} {a b : List Op} (h : OuterLast l n (a ++ b)) : OuterLast l n a := by
  induction a generalizing l n with
  | nil => trivial
  | cons o os ih =>
    cases o with
    | pause => exact ih h
    | drop i => exact ⟨h.1, ih h.2⟩

/-- Dropping the oldest of several handles enables interrupts while the others are alive. -/
theorem outer_first {s : State} {i : Nat} (f : Fresh s) (g : Good off c s) (hh : (ids s).head? = some i)
    (hm : ids s ≠ [i]) : ∃ s', step off s (.drop i) = some s' ∧ s'.live ≠ [] ∧ s'.cpu = c := by
  cases hl : s.live with
  | nil => simp [ids, hl] at hh
  | cons a l =>
    simp [ids, hl] at hh hm
    have nd := f.nodup
    simp only [ids, hl] at nd
    refine ⟨_, by simp [step, State.drop, hl, hh]; rfl, ?_, ?_⟩
    · simp only []
      have := head_notin nd hh
      simp only [ne_eq] at this
      simp at this
      intro e
      have hm := hm hh
      cases l with
      | nil => simp at hm
      | cons b l =>
        simp at e
        have := this b.1 b.2 (by simp)
        exact this e.1
    · exact (g.some _ _ hl).1

theorem protected_outer {s : State} {ops : List Op} (f : Fresh s) (g : Good off c s) (hc : c ≠ off)
    (hrun : ∃ s', run off s ops = some s')
    (hp : ∀ pre s', pre <+: ops → run off s pre = some s' → s'.live ≠ [] → s'.cpu = off) :
    OuterLast (ids s) s.next ops := by
  induction ops generalizing s with
  | nil => trivial
  | cons o os ih =>
    obtain ⟨s', hrun⟩ := hrun
    simp only [run, Option.bind_eq_some_iff] at hrun
    obtain ⟨s1, h1, h2⟩ := hrun
    have ok : ∀ i, o = .drop i → (ids s).head? = some i → ids s = [i] := by
      intro i hi hh
      subst hi
      refine Classical.byContradiction fun hm => ?_
      obtain ⟨s2, e2, hne, hcpu⟩ := outer_first f g hh hm
      have := hp [.drop i] s2 (by simp) (by simp [run, e2]) hne
      exact hc (hcpu.symm.trans this)
    have := ih (step_fresh f h1) (step_good f g h1 ok) ⟨s', h2⟩ (by
      intro pre s2 hpre hr hne
      exact hp (o :: pre) s2 (by simpa using hpre) (by simp [run, h1, hr]) hne)
    have hid := step_ids h1
    cases o with
    | pause =>
      simp only [Prod.mk.injEq] at hid
      rw [hid.1, hid.2] at this
      exact this
    | drop i =>
      simp only [Prod.mk.injEq] at hid
      rw [hid.1, hid.2] at this
      exact ⟨ok i rfl, this⟩

theorem lifo_outer {l : List Nat} {n : Nat} {ops : List Op} (nd : l.Nodup) (lt : ∀ x ∈ l, x < n)
    (h : Lifo l n ops) : OuterLast l n ops := by
  induction ops generalizing l n with
  | nil => trivial
  | cons o os ih =>
    cases o with
    | pause =>
      refine ih ?_ ?_ h
      · rw [List.nodup_append]
        refine ⟨nd, by simp, ?_⟩
        intro a ha b hb
        simp at hb
        have := lt a ha
        omega
      · intro x hx
        simp at hx
        rcases hx with hx | hx
        · have := lt x hx; omega
        · omega
    | drop i =>
      refine ⟨?_, ih (nd.filter _) (fun x hx => lt x (List.mem_filter.1 hx).1) h.2⟩
      intro hh
      have hg := h.1
      cases l with
      | nil => simp at hh
      | cons a t =>
        simp at hh
        subst hh
        cases t with
        | nil => rfl
        | cons b t =>
          rw [List.getLast?_cons_cons] at hg
          have := List.mem_of_getLast? hg
          simp at nd
          simp at this
          rcases this with e | e
          · exact absurd e nd.1.1
          · exact absurd e nd.1.2

mutual
theorem exec_spec (d : Nat) (c0 c : BitVec 32) (hd : (d = 0 → c = c0) ∧ (0 < d → c = off)) (p : Code) :
    (exec off d c p).1 = c ∧ ∀ x ∈ (exec off d c p).2, (x.1 = 0 → x.2 = c0) ∧ (0 < x.1 → x.2 = off) := by
  cases p with
  | probe => simp [exec]; exact hd
  | paused body =>
    have := execAll_spec (d + 1) c0 off ⟨by omega, fun _ => rfl⟩ body
    simp only [exec, true_and]
    exact this.2

theorem execAll_spec (d : Nat) (c0 c : BitVec 32) (hd : (d = 0 → c = c0) ∧ (0 < d → c = off)) (ps : List Code) :
    (execAll off d c ps).1 = c ∧ ∀ x ∈ (execAll off d c ps).2, (x.1 = 0 → x.2 = c0) ∧ (0 < x.1 → x.2 = off) := by
  cases ps with
  | nil => simp [execAll]
  | cons p ps =>
    have h1 := exec_spec d c0 c hd p
    have h2 := execAll_spec d c0 c hd ps
    simp only [execAll, h1.1, h2.1, true_and, List.mem_append]
    rintro x (hx | hx)
    · exact h1.2 x hx
    · exact h2.2 x hx
end

end Verif.Platform.Irq
