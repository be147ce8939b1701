import Verif.Mutex.FairSpec
import Verif.Mutex.Run
/-! # Lemmas for C87 -/
namespace Verif.Mutex

theorem wakes_append (a b : List Event) : wakes (a ++ b) = wakes a ++ wakes b := by
  induction a with
  | nil => rfl
  | cons e a ih => cases e <;> simp [wakes, ih]

theorem stored_append (a b : List Event) : stored (a ++ b) = stored a ++ stored b := by
  induction a with
  | nil => rfl
  | cons e a ih => cases e <;> simp [stored, ih]

theorem wakes_consumed {x : Nat × Waker} : ∀ {l : List Event}, x ∈ wakes l → x ∈ consumed l := by
  intro l
  induction l with
  | nil => simp [wakes]
  | cons e l ih =>
    cases e <;> simp only [wakes, consumed, List.mem_cons] <;> (try exact ih)
    · rintro (h | h)
      · exact .inl h
      · exact .inr (ih h)
    · exact fun h => .inr (ih h)

theorem consumed_append (a b : List Event) : consumed (a ++ b) = consumed a ++ consumed b := by
  induction a with
  | nil => rfl
  | cons e a ih => cases e <;> simp [consumed, ih]

/-- New nodes come first. -/
structure Desc (s : State) : Prop where
  list : s.list.Pairwise (· > ·)
  stored : ((stored s.log).map Prod.fst).Pairwise (· > ·)

theorem init_desc : Desc init := by constructor <;> simp [init, Mutex.stored]

theorem call_desc {s : State} (d : Desc s) (p : Nat) (op : Op) : Desc (call s p op) := by
  unfold call
  simp only
  split
  · exact d
  · cases op <;> simp only <;> (repeat' split) <;> exact ⟨d.list, d.stored⟩

theorem pstep_desc {s s' : State} (i : Inv s) (d : Desc s) {p : Nat} (hs : pstep s p = some s') : Desc s' := by
  have hl := i.n.live
  have hst : ∀ n ∈ (stored s.log).map Prod.fst, n < s.next := by
    intro n hn
    obtain ⟨⟨a, w⟩, h, rfl⟩ := List.mem_map.1 hn
    exact (i.m.sl _).1 ⟨w, h⟩
  unfold pstep at hs
  simp only at hs
  cases hpc : (s.client p).pc <;> simp only [hpc] at hs <;>
    step_cases <;>
    simp only [Option.some.injEq, reduceCtorEq] at hs <;> (try subst hs) <;>
      first
      | exact d
      | exact ⟨d.list, d.stored⟩
      | exact ⟨d.list.sublist List.erase_sublist, d.stored⟩
      | exact ⟨List.pairwise_cons.2 ⟨fun a ha => (hl a ha).1, d.list⟩, List.pairwise_cons.2 ⟨fun a ha => hst a ha, d.stored⟩⟩

theorem run_desc {acts : List Act} : ∀ {s s' : State}, Inv s → Desc s → run s acts = some s' → Desc s' := by
  induction acts with
  | nil => intro s s' _ d h; simp only [run, Option.some.injEq] at h; rw [← h]; exact d
  | cons a as ih =>
    intro s s' i d h
    simp only [run] at h
    split at h
    · simp at h
    · rename_i t ht
      refine ih (step_inv i ht) ?_ h
      cases a with
      | call p op => simp only [step, Option.some.injEq] at ht; subst ht; exact call_desc d p op
      | step p => exact pstep_desc i d ht

/-- The client may wake the owner of a node older than `n`. -/
def Pc.older (n : Nat) : Pc → Prop
  | .ulScan rest => n ∉ rest
  | .ulRead m => m ≤ n
  | .ulStore (some (m, _)) => m ≤ n
  | .ulWake m _ => m ≤ n
  | _ => False

theorem call_older {s : State} {n : Nat} (h : ∀ q, ¬ ((s.client q).pc.older n)) (p : Nat) (op : Op) :
    (∀ q, ¬ (((call s p op).client q).pc.older n)) ∧ ∃ l, (call s p op).log = l ++ s.log ∧ wakes l = [] := by
  have key : ∀ c : Client, ¬ c.pc.older n → ∀ q, ¬ ((upd s.client p c q).pc.older n) := by
    intro c hc q
    rw [upd_apply]
    split
    · exact hc
    · exact h q
  have hp := h p
  unfold call
  simp only
  split
  · exact ⟨h, [], rfl, rfl⟩
  · cases op <;> simp only <;> (repeat' split) <;>
      first
      | exact ⟨h, [], rfl, rfl⟩
      | exact ⟨key _ hp, [_], rfl, rfl⟩
      | exact ⟨key _ (fun h => h), [], rfl, rfl⟩
      | exact ⟨key _ (fun h => h), [_], rfl, rfl⟩

theorem taken_mono {s s' : State} {p n : Nat} (hs : pstep s p = some s') (hn : n < s.next) (h : (s'.node n).taken = false) :
    (s.node n).taken = false := by
  unfold pstep at hs
  simp only at hs
  cases hpc : (s.client p).pc <;> simp only [hpc] at hs <;>
    step_cases <;>
    simp only [Option.some.injEq, reduceCtorEq] at hs <;> (try subst hs) <;>
      first
      | exact h
      | (simp only [upd_apply] at h; split at h <;> (try subst n) <;> simp_all <;> omega)

theorem pstep_next {s s' : State} {p : Nat} (hs : pstep s p = some s') : s.next ≤ s'.next := by
  unfold pstep at hs
  simp only at hs
  cases hpc : (s.client p).pc <;> simp only [hpc] at hs <;>
    step_cases <;>
    simp only [Option.some.injEq, reduceCtorEq] at hs <;> (try subst hs) <;> first | exact Nat.le_refl _ | exact Nat.le_succ _

theorem pstep_older {s s' : State} (i : Inv s) (d : Desc s) {n : Nat} (hn : n < s.next) (h : ∀ q, ¬ ((s.client q).pc.older n)) {p : Nat}
    (hs : pstep s p = some s') (ht : (s'.node n).taken = false) :
    (∀ q, ¬ ((s'.client q).pc.older n)) ∧ ∃ l, s'.log = l ++ s.log ∧ ∀ x ∈ wakes l, n < x.1 := by
  have ht0 := taken_mono hs hn ht
  have hmem := (i.n.unt n hn ht0).1
  have hsuf := (i.n.cl p).suf
  have hp := h p
  have key : ∀ c : Client, ¬ c.pc.older n → ∀ q, ¬ ((upd s.client p c q).pc.older n) := by
    intro c hc q
    rw [upd_apply]
    split
    · exact hc
    · exact h q
  unfold pstep at hs
  simp only at hs
  cases hpc : (s.client p).pc with
  | ulScan l =>
    simp only [hpc, Pc.rest, Pc.older, Classical.not_not] at hs hsuf hp
    cases l with
    | nil => simp at hp
    | cons m rest =>
      simp only [swapTaken] at hs
      split at hs
      · cases hs
      · split at hs
        · rename_i h1 h2
          cases hs
          refine ⟨key _ ?_, [], rfl, by simp [wakes]⟩
          simp only [Pc.older, Classical.not_not]
          rcases List.mem_cons.1 hp with e | e
          · subst e; rw [ht0] at h2; cases h2
          · exact e
        · cases hs
          refine ⟨key _ ?_, [], rfl, by simp [wakes]⟩
          have hne : n ≠ m := by
            intro e; subst e
            simp [State.setN, State.goto, State.setC, upd_apply] at ht
          have hr : n ∈ rest := by
            rcases List.mem_cons.1 hp with e | e
            · exact absurd e hne
            · exact e
          have := (List.pairwise_cons.1 (d.list.sublist hsuf.sublist)).1 n hr
          simp only [Pc.older]
          omega
  | ulHead =>
    simp only [hpc, Option.some.injEq] at hs
    subst hs
    exact ⟨key _ (by simpa [Pc.older] using hmem), [], rfl, by simp [wakes]⟩
  | ulRead m =>
    simp only [hpc] at hs
    simp only [hpc, Pc.older] at hp
    split at hs
    · cases hs
    · split at hs
      · cases hs
      · cases hs
        exact ⟨key _ (by simpa [Pc.older] using hp), [], rfl, by simp [wakes]⟩
  | ulStore nw =>
    simp only [hpc] at hs
    simp only [hpc] at hp
    cases nw with
    | none => cases hs; exact ⟨key _ (by simp [Pc.older]), [], rfl, by simp [wakes]⟩
    | some x => cases hs; exact ⟨key _ (by simpa [Pc.older] using hp), [], rfl, by simp [wakes]⟩
  | ulWake m w =>
    simp only [hpc, Option.some.injEq] at hs
    simp only [hpc, Pc.older] at hp
    subst hs
    exact ⟨key _ (by simp [Pc.older]), [.woke m w], rfl, by simp [wakes]; omega⟩
  | _ =>
    simp only [hpc] at hs
    step_cases <;>
    simp only [Option.some.injEq, reduceCtorEq] at hs <;> (try subst hs) <;>
      first
      | exact ⟨h, [], rfl, by simp [wakes]⟩
      | exact ⟨key _ (by simp [Pc.older]), [], rfl, by simp [wakes]⟩
      | exact ⟨key _ (by simp [Pc.older]), [_], rfl, by simp [wakes]⟩
      | exact ⟨key _ (by simp [Pc.older]), [_, _], rfl, by simp [wakes]⟩

theorem run_taken {bs : List Act} : ∀ {s s' : State} {n : Nat}, run s bs = some s' → n < s.next → (s'.node n).taken = false →
    (s.node n).taken = false := by
  induction bs with
  | nil => intro s s' n h _ ht; simp only [run, Option.some.injEq] at h; rw [h]; exact ht
  | cons a as ih =>
    intro s s' n h hn ht
    simp only [run] at h
    split at h
    · simp at h
    · rename_i t hst
      cases a with
      | call p op =>
        simp only [step, Option.some.injEq] at hst
        subst hst
        have e : (call s p op).node = s.node ∧ (call s p op).next = s.next := by
          unfold call; simp only; split
          · exact ⟨rfl, rfl⟩
          · cases op <;> simp only <;> (repeat' split) <;> exact ⟨rfl, rfl⟩
        have := ih h (by rw [e.2]; exact hn) ht
        rw [e.1] at this
        exact this
      | step p => exact taken_mono hst hn (ih h (Nat.lt_of_lt_of_le hn (pstep_next hst)) ht)

theorem run_older {bs : List Act} : ∀ {s s' : State} {n : Nat}, Inv s → Desc s → n < s.next → (∀ q, ¬ ((s.client q).pc.older n)) →
    run s bs = some s' → (s'.node n).taken = false → ∃ l, s'.log = l ++ s.log ∧ ∀ x ∈ wakes l, n < x.1 := by
  induction bs with
  | nil => intro s s' n _ _ _ _ h _; simp only [run, Option.some.injEq] at h; exact ⟨[], by rw [h]; rfl, by simp [wakes]⟩
  | cons a as ih =>
    intro s s' n i d hn ho h ht
    have h0 := h
    simp only [run] at h
    split at h
    · simp at h
    · rename_i t hst
      have it := step_inv i hst
      have hnx : n < t.next := by
        cases a with
        | call p op =>
          simp only [step, Option.some.injEq] at hst
          subst hst
          have e : (call s p op).next = s.next := by
            unfold call; simp only; split
            · rfl
            · cases op <;> simp only <;> (repeat' split) <;> rfl
          omega
        | step p => have := pstep_next hst; omega
      have htt := run_taken h hnx ht
      have dt : Desc t := run_desc (acts := [a]) i d (by simp [run, hst])
      have hst' : (∀ q, ¬ ((t.client q).pc.older n)) ∧ ∃ l, t.log = l ++ s.log ∧ ∀ x ∈ wakes l, n < x.1 := by
        cases a with
        | call p op =>
          simp only [step, Option.some.injEq] at hst
          subst hst
          obtain ⟨h1, l, h2, h3⟩ := call_older ho p op
          exact ⟨h1, l, h2, by simp [h3]⟩
        | step p => exact pstep_older i d hn ho hst htt
      obtain ⟨l2, e2, w2⟩ := ih it dt hnx hst'.1 h ht
      obtain ⟨l1, e1, w1⟩ := hst'.2
      refine ⟨l2 ++ l1, by rw [e2, e1, List.append_assoc], ?_⟩
      intro x hx
      rw [wakes_append, List.mem_append] at hx
      exact hx.elim (w2 x) (w1 x)

end Verif.Mutex
