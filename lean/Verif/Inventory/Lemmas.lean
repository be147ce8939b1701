import Verif.Inventory.Spec
/-! # Lemmas about inventories -/
namespace Verif.Inventory

theorem sum_set {l : List Inv} {i : Nat} {v w : Inv} (h : l[i]? = some v) :
    ((l.set i w).map (·.count)).sum + v.count = (l.map (·.count)).sum + w.count := by
  induction l generalizing i with
  | nil => simp at h
  | cons a l ih =>
    cases i with
    | zero => simp at h; subst h; simp; omega
    | succ i =>
      simp at h
      have := ih h
      simp only [List.set_cons_succ, List.map_cons, List.sum_cons]
      omega

theorem upd_some {s s' : State} {i : Nat} {c : Inv → Prop} [DecidablePred c] {f : Inv → Inv}
    (h : s.upd i c f = some s') :
    ∃ v, s.invs[i]? = some v ∧ c v ∧ s' = { s with invs := s.invs.set i (f v) } := by
  unfold State.upd at h
  split at h
  · simp at h
  · rename_i v hv
    split at h
    · simp only [Option.some.injEq] at h
      exact ⟨v, hv, ‹_›, h.symm⟩
    · simp at h

/-- What a call does to the sum of the counters, the tokens and the length. -/
theorem step_total {s s' : State} {o : Op} (h : step s o = some s') (e : s.tokens + s.lost = total s) :
    s'.tokens + s'.lost = total s' ∧ total s' + merged [o] = total s + shared [o] ∧
      s'.invs.length = s.invs.length + created [o] := by
  cases o <;> simp only [step] at h
  case new a =>
    simp only [Option.some.injEq] at h
    subst h
    simp [total, shared, merged, created] at e ⊢
    omega
  case share i k =>
    split at h
    · simp only [Option.map_eq_some_iff] at h
      obtain ⟨s1, h1, rfl⟩ := h
      obtain ⟨v, hv, -, rfl⟩ := upd_some h1
      have := sum_set (w := { v with count := v.count + k }) hv
      simp [total, shared, merged, created] at e this ⊢
      omega
    · simp at h
  case merge i k =>
    split at h
    · simp only [Option.map_eq_some_iff] at h
      obtain ⟨s1, h1, rfl⟩ := h
      obtain ⟨v, hv, hc, rfl⟩ := upd_some h1
      have := sum_set (w := { v with count := v.count - k }) hv
      have := hc.2
      simp [total, shared, merged, created] at *
      omega
    · simp at h
  case dropToken =>
    split at h
    · simp only [Option.some.injEq] at h
      subst h
      simp [total, shared, merged, created] at e ⊢
      omega
    · simp at h
  case revive =>
    split at h
    · simp only [Option.some.injEq] at h
      subst h
      simp [total, shared, merged, created] at e ⊢
      omega
    · simp at h
  case swap i j =>
    split at h
    · rename_i v w hv hw
      split at h
      · rename_i hc
        simp only [Option.some.injEq] at h
        subst h
        have h1 := sum_set (w := { v with active := w.active }) hv
        have h2 := sum_set (l := s.invs.set i { v with active := w.active }) (i := j) (v := w)
          (w := { w with active := v.active }) (by rw [List.getElem?_set_ne hc.1]; exact hw)
        simp [total, shared, merged, created] at *
        omega
      · simp at h
    · simp at h
  all_goals
    obtain ⟨v, hv, -, rfl⟩ := upd_some h
    refine ⟨?_, ?_, by simp [created]⟩
    all_goals
      simp only [total, shared, merged] at e ⊢
      have := sum_set (w := v) hv
      first
      | (have := sum_set (w := { v with active := true }) hv; simp at this; simp; omega)
      | (have := sum_set (w := { v with refs := v.refs + 1 }) hv; simp at this; simp; omega)
      | (have := sum_set (w := { v with refs := v.refs - 1 }) hv; simp at this; simp; omega)
      | (have := sum_set (w := { v with guard := some 0 }) hv; simp at this; simp; omega)
      | (have := sum_set (w := { v with guard := v.guard.map (· + 1) }) hv; simp at this; simp; omega)
      | (have := sum_set (w := { v with guard := v.guard.map (· - 1) }) hv; simp at this; simp; omega)
      | (have := sum_set (w := { v with guard := none, active := false }) hv; simp at this; simp; omega)
      | (have := sum_set (w := { v with active := false }) hv; simp at this; simp; omega)
      | (have := sum_set (w := { v with life := .freed }) hv; simp at this; simp; omega)
      | (have := sum_set (w := { v with life := .dropped }) hv; simp at this; simp; omega)

theorem cons_counts (o : Op) (os : List Op) : shared (o :: os) = shared [o] + shared os ∧
    merged (o :: os) = merged [o] + merged os ∧ created (o :: os) = created [o] + created os := by
  cases o <;> simp [shared, merged, created]

theorem run_total {s s' : State} {ops : List Op} (h : run s ops = some s') (e : s.tokens + s.lost = total s) :
    s'.tokens + s'.lost = total s' ∧ total s' + merged ops = total s + shared ops ∧
      s'.invs.length = s.invs.length + created ops := by
  induction ops generalizing s with
  | nil =>
    simp only [run, Option.some.injEq] at h; subst h
    exact ⟨e, by simp [merged, shared], by simp [created]⟩
  | cons o os ih =>
    simp only [run, Option.bind_eq_some_iff] at h
    obtain ⟨s1, h1, h2⟩ := h
    obtain ⟨a1, a2, a3⟩ := step_total h1 e
    obtain ⟨b1, b2, b3⟩ := ih h2 a1
    obtain ⟨c1, c2, c3⟩ := cons_counts o os
    exact ⟨b1, by omega, by omega⟩

/-- Borrow discipline of one inventory. -/
structure IOk (v : Inv) : Prop where
  guard : v.guard ≠ none → v.count = 0 ∧ v.refs = 0 ∧ v.life = .owned
  refs : 0 < v.refs → v.life = .owned
  freed : v.life = .freed → v.count = 0

theorem all_set {P : Inv → Prop} {l : List Inv} {i : Nat} {w : Inv} (h : ∀ v ∈ l, P v) (hw : P w) :
    ∀ v ∈ l.set i w, P v := by
  intro v hv
  rcases List.mem_or_eq_of_mem_set hv with hv | rfl
  · exact h v hv
  · exact hw

theorem step_ok {s s' : State} {o : Op} (h : step s o = some s') (hk : ∀ v ∈ s.invs, IOk v) :
    ∀ v ∈ s'.invs, IOk v := by
  cases o <;> simp only [step] at h
  case new a =>
    simp only [Option.some.injEq] at h
    subst h
    intro v hv
    simp at hv
    rcases hv with hv | rfl
    · exact hk v hv
    · exact ⟨by simp, by simp, by simp⟩
  case dropToken => split at h <;> simp at h; subst h; exact hk
  case revive => split at h <;> simp at h; subst h; exact hk
  case swap i j =>
    split at h
    · rename_i v w hv hw
      split at h
      · simp only [Option.some.injEq] at h
        subst h
        have k1 := hk v (List.mem_of_getElem? hv)
        have k2 := hk w (List.mem_of_getElem? hw)
        exact all_set (all_set hk ⟨k1.1, k1.2, k1.3⟩) ⟨k2.1, k2.2, k2.3⟩
      · simp at h
    · simp at h
  case share i k =>
    split at h
    · simp only [Option.map_eq_some_iff] at h
      obtain ⟨s1, h1, rfl⟩ := h
      obtain ⟨v, hv, hc, rfl⟩ := upd_some h1
      obtain ⟨c1, c2, c3⟩ := hc
      have k1 := hk v (List.mem_of_getElem? hv)
      exact all_set hk ⟨fun g => absurd c3 g, fun _ => c1, fun e => by simp [c1] at e⟩
    · simp at h
  case merge i k =>
    split at h
    · simp only [Option.map_eq_some_iff] at h
      obtain ⟨s1, h1, rfl⟩ := h
      obtain ⟨v, hv, ⟨⟨c1, c2, c3⟩, -⟩, rfl⟩ := upd_some h1
      exact all_set hk ⟨fun g => absurd c3 g, fun _ => c1, fun e => by simp [c1] at e⟩
    · simp at h
  all_goals
    obtain ⟨v, hv, hc, rfl⟩ := upd_some h
    have k1 := hk v (List.mem_of_getElem? hv)
    have g1 := k1.guard
    have g2 := k1.refs
    have g3 := k1.freed
    refine all_set hk ⟨?_, ?_, ?_⟩
    all_goals (try simp only [Inv.exclusive] at hc); simp_all
    try exact fun _ => g2 (by omega)

theorem run_ok {s s' : State} {ops : List Op} (h : run s ops = some s') (hk : ∀ v ∈ s.invs, IOk v) :
    ∀ v ∈ s'.invs, IOk v := by
  induction ops generalizing s with
  | nil => simp only [run, Option.some.injEq] at h; subst h; exact hk
  | cons o os ih =>
    simp only [run, Option.bind_eq_some_iff] at h
    obtain ⟨s1, h1, h2⟩ := h
    exact ih h2 (step_ok h1 hk)

theorem step_active {s s' : State} {o : Op} (h : step s o = some s') (hk : ∀ v ∈ s.invs, IOk v) (d : Duty s o)
    (ha : ∀ v ∈ s.invs, v.lent → v.active = true) : ∀ v ∈ s'.invs, v.lent → v.active = true := by
  cases o <;> simp only [step] at h
  case new a =>
    simp only [Option.some.injEq] at h
    subst h
    intro v hv
    simp at hv
    rcases hv with hv | rfl
    · exact ha v hv
    · simp [Inv.lent]
  case dropToken => split at h <;> simp at h; subst h; exact ha
  case revive => split at h <;> simp at h; subst h; exact ha
  case swap i j => exact d.elim
  case share i k =>
    split at h
    · simp only [Option.map_eq_some_iff] at h
      obtain ⟨s1, h1, rfl⟩ := h
      obtain ⟨v, hv, hc, rfl⟩ := upd_some h1
      exact all_set ha fun _ => d v hv
    · simp at h
  case merge i k =>
    split at h
    · simp only [Option.map_eq_some_iff] at h
      obtain ⟨s1, h1, rfl⟩ := h
      obtain ⟨v, hv, hc, rfl⟩ := upd_some h1
      refine all_set ha fun hl => ha v (List.mem_of_getElem? hv) ?_
      rcases hl with hl | hl
      · simp at hl; exact .inl (by omega)
      · exact .inr hl
    · simp at h
  case guard i =>
    obtain ⟨v, hv, hc, rfl⟩ := upd_some h
    exact all_set ha fun _ => d v hv
  case borrow i =>
    obtain ⟨v, hv, hc, rfl⟩ := upd_some h
    exact all_set ha fun _ => d v hv
  case setup i =>
    obtain ⟨v, hv, hc, rfl⟩ := upd_some h
    exact all_set ha fun _ => rfl
  case dropGuard i =>
    obtain ⟨v, hv, hc, rfl⟩ := upd_some h
    have k1 := (hk v (List.mem_of_getElem? hv)).guard (by simp [hc])
    refine all_set ha fun hl => ?_
    simp [Inv.lent, k1] at hl
  case teardown i =>
    obtain ⟨v, hv, hc, rfl⟩ := upd_some h
    refine all_set ha fun hl => ?_
    obtain ⟨⟨c1, c2, c3⟩, c4⟩ := hc
    simp [Inv.lent, c2, c3, c4] at hl
  all_goals
    obtain ⟨v, hv, hc, rfl⟩ := upd_some h
    refine all_set ha fun hl => ha v (List.mem_of_getElem? hv) ?_
    simp only [Inv.lent] at hl ⊢
    first
    | exact hl
    | (cases hg : v.guard <;> simp_all <;> done)
    | (rcases hl with hl | hl | hl
       · exact .inl hl
       · exact .inr (.inl (by omega))
       · exact .inr (.inr hl))

theorem run_active {s s' : State} {ops : List Op} (h : run s ops = some s') (hk : ∀ v ∈ s.invs, IOk v)
    (d : Dutiful s ops) (ha : ∀ v ∈ s.invs, v.lent → v.active = true) :
    ∀ v ∈ s'.invs, v.lent → v.active = true := by
  induction ops generalizing s with
  | nil => simp only [run, Option.some.injEq] at h; subst h; exact ha
  | cons o os ih =>
    simp only [run, Option.bind_eq_some_iff] at h
    obtain ⟨s1, h1, h2⟩ := h
    exact ih h2 (step_ok h1 hk) (d.2 s1 h1) (step_active h1 hk d.1 ha)

/-- References lent by the guard of inventory `i`. -/
def glent (s : State) (i : Nat) : Nat := ((s.invs[i]?).bind (·.guard)).getD 0

theorem glent_upd {s s' : State} {j : Nat} {c : Inv → Prop} [DecidablePred c] {f : Inv → Inv}
    (h : s.upd j c f = some s') (hf : ∀ v, c v → (f v).guard.getD 0 = v.guard.getD 0) (i : Nat) :
    glent s' i = glent s i := by
  obtain ⟨v, hv, hc, rfl⟩ := upd_some h
  simp only [glent, List.getElem?_set]
  split
  · next e =>
    subst e
    have hl : j < s.invs.length := (List.getElem?_eq_some_iff.1 hv).1
    have e : s.invs[j] = v := (List.getElem?_eq_some_iff.1 hv).2
    simp [hl, hf v hc, e]
  · rfl

theorem glent_upd' {s s' : State} {j : Nat} {c : Inv → Prop} [DecidablePred c] {f : Inv → Inv}
    (h : s.upd j c f = some s') (i : Nat) :
    ∃ v, s.invs[j]? = some v ∧ c v ∧ glent s j = v.guard.getD 0 ∧
      glent s' i = if j = i then (f v).guard.getD 0 else glent s i := by
  obtain ⟨v, hv, hc, rfl⟩ := upd_some h
  refine ⟨v, hv, hc, by simp [glent, hv], ?_⟩
  simp only [glent, List.getElem?_set]
  split
  · next e =>
    subst e
    have hl : j < s.invs.length := (List.getElem?_eq_some_iff.1 hv).1
    simp [hl]
  · rfl

theorem step_glent {s s' : State} {o : Op} (h : step s o = some s') (i : Nat) :
    glent s' i + (if o = .guardUnborrow i then 1 else 0) = glent s i + (if o = .guardBorrow i then 1 else 0) := by
  cases o with
  | new a =>
    simp only [step, Option.some.injEq] at h
    subst h
    simp only [glent, List.getElem?_append]
    split
    · simp
    · next hn =>
      have : s.invs[i]? = none := List.getElem?_eq_none (by omega)
      rw [this]
      rcases hk : i - s.invs.length with _ | k <;> simp
  | setup j => simpa using glent_upd h (fun v _ => rfl) i
  | share j k =>
    simp only [step] at h
    split at h
    · obtain ⟨t, ht, rfl⟩ := Option.map_eq_some_iff.1 h
      simpa [glent] using glent_upd ht (fun v _ => rfl) i
    · cases h
  | merge j k =>
    simp only [step] at h
    split at h
    · obtain ⟨t, ht, rfl⟩ := Option.map_eq_some_iff.1 h
      simpa [glent] using glent_upd ht (fun v _ => rfl) i
    · cases h
  | dropToken =>
    simp only [step] at h
    split at h
    · cases h; simp [glent]
    · cases h
  | revive =>
    simp only [step] at h
    split at h
    · cases h; simp [glent]
    · cases h
  | borrow j => simpa using glent_upd h (fun v _ => rfl) i
  | unborrow j => simpa using glent_upd h (fun v _ => rfl) i
  | guard j => simpa using glent_upd h (fun v hv => by simp [hv.1.2.2]) i
  | dropGuard j => simpa using glent_upd h (fun v hv => by simp [hv]) i
  | guardBorrow j =>
    obtain ⟨v, hv, hc, e1, e2⟩ := glent_upd' h i
    simp only [Op.guardBorrow.injEq, reduceCtorEq, if_false, Nat.add_zero]
    rw [e2]
    split
    · next e =>
      subst e
      rw [e1]
      cases hg : v.guard with
      | none => exact absurd hg hc
      | some n => simp
    · simp
  | guardUnborrow j =>
    obtain ⟨v, hv, hc, e1, e2⟩ := glent_upd' h i
    simp only [Op.guardUnborrow.injEq, reduceCtorEq, if_false, Nat.add_zero]
    rw [e2]
    split
    · next e =>
      subst e
      rw [e1]
      cases hg : v.guard with
      | none => simp [hg] at hc
      | some n => simp [hg] at hc ⊢; omega
    · simp
  | teardown j => simpa using glent_upd h (fun v _ => rfl) i
  | free j => simpa using glent_upd h (fun v _ => rfl) i
  | drop j => simpa using glent_upd h (fun v _ => rfl) i
  | swap j k =>
    simp only [step] at h
    split at h
    · next v w hv hw =>
      split at h
      · cases h
        have hj : j < s.invs.length := (List.getElem?_eq_some_iff.1 hv).1
        have hk : k < s.invs.length := (List.getElem?_eq_some_iff.1 hw).1
        simp only [glent, List.getElem?_set, List.length_set]
        by_cases e : k = i
        · subst e; simp [hk, (List.getElem?_eq_some_iff.1 hw).2]
        · by_cases e' : j = i
          · subst e'; simp [e, hj, (List.getElem?_eq_some_iff.1 hv).2]
          · simp [e, e']
      · cases h
    · cases h

theorem run_glent {ops : List Op} : ∀ {s s' : State}, run s ops = some s' → ∀ i,
    glent s' i + ops.count (.guardUnborrow i) = glent s i + ops.count (.guardBorrow i) := by
  induction ops with
  | nil => intro s s' h i; cases h; simp
  | cons o os ih =>
    intro s s' h i
    obtain ⟨t, ht, h⟩ := Option.bind_eq_some_iff.1 h
    have a := step_glent ht i
    have b := ih h i
    simp only [List.count_cons, beq_iff_eq]
    omega

end Verif.Inventory
