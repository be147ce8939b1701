import Verif.Mutex.Nodes
/-! # Invariants of the mutex: somebody is going to try again -/
namespace Verif.Mutex

/-- The nodes still to be tried. -/
def Pc.scanRest : Pc → List Nat
  | .ulScan l => l
  | _ => []

/-- The client will try to take the lock, or has to be woken to do so. -/
def tok (c : Client) (node : Nat → Node) : Prop :=
  (∃ n, c.waiter = some n ∧ (node n).taken = true) ∨ (∃ w, c.pc = .ppush w) ∨ c.pc = .p2 ∨
    (∃ n, c.pc = .dTake n ∧ (node n).taken = true) ∨ c.pc = .dTry

/-- The future waits and was not yet chosen to be woken. -/
def stuck (c : Client) (node : Nat → Node) (n : Nat) : Prop :=
  c.waiter = some n ∧ (node n).taken = false ∧ c.pc ≠ .p2

/-- If the lock is free, or an `unlock` is past the point where it starts to search,
and a future is stuck, then it is still to be found or somebody will try again. -/
def InvJ (s : State) : Prop :=
  s.locked = false ∨ (∃ o, (s.client o).pc.scanning = true) →
    ∀ p n, stuck (s.client p) s.node n → (∃ o, n ∈ (s.client o).pc.scanRest) ∨ ∃ q, tok (s.client q) s.node

theorem init_invJ : InvJ init := by intro _ p n h; simp [init, stuck] at h

theorem scanning_unl {pc : Pc} (h : pc.scanning = true) : pc.unl = 1 := by
  cases pc <;> simp_all [Pc.scanning, Pc.unl]

theorem scanRest_scanning {pc : Pc} {n : Nat} (h : n ∈ pc.scanRest) : pc.scanning = true := by
  cases pc <;> simp_all [Pc.scanning, Pc.scanRest]

/-- The premise does not hold. -/
theorem invJ_vac {s : State} (h1 : s.locked = true) (h2 : ∀ q, (s.client q).pc.scanning = false) : InvJ s := by
  rintro (h | ⟨o, h⟩)
  · rw [h1] at h; simp at h
  · rw [h2] at h; simp at h

/-- An owner that is not scanning: the premise does not hold. -/
theorem invJ_owner {s : State} (i : InvO s) {p : Nat} (h : own (s.client p) ≠ 0) (hs : (s.client p).pc.scanning = false) : InvJ s := by
  have hle := i.le p
  refine invJ_vac (i.locked.2 ⟨p, by omega⟩) fun q => ?_
  cases hq : (s.client q).pc.scanning
  · rfl
  · have := i.uniq h (q := q) (by simp [own, scanning_unl hq])
    subst this
    rw [hs] at hq; simp at hq

/-- A client and nodes changed, in a way that loses nothing. -/
theorem invJ_mono {s s' : State} (j : InvJ s) (p : Nat) {c : Client} (hc : s'.client = upd s.client p c)
    (hl : s'.locked = false → s.locked = false ∨ (s.client p).pc.scanning = true)
    (hsc : c.pc.scanning = true → s.locked = false ∨ (s.client p).pc.scanning = true)
    (hn : ∀ n, (s.node n).taken = true → (s'.node n).taken = true)
    (hn' : ∀ q n, q ≠ p → (s.client q).waiter = some n → (s'.node n).taken = false → (s.node n).taken = false)
    (hr : ∀ n, n ∈ (s.client p).pc.scanRest → (s'.node n).taken = false → n ∈ c.pc.scanRest ∨ ∃ q, tok (s'.client q) s'.node)
    (ht : tok (s.client p) s.node → tok c s'.node)
    (hst : ∀ n, stuck c s'.node n → stuck (s.client p) s.node n ∨ tok c s'.node) : InvJ s' := by
  intro hA q n hq
  have hA' : s.locked = false ∨ ∃ o, (s.client o).pc.scanning = true := by
    rcases hA with h | ⟨o, h⟩
    · exact (hl h).imp id fun h => ⟨p, h⟩
    · rw [hc, upd_apply] at h
      split at h
      · exact (hsc h).imp id fun h => ⟨p, h⟩
      · exact .inr ⟨o, h⟩
  have hT : (∃ q, tok (s.client q) s.node) → ∃ q, tok (s'.client q) s'.node := by
    rintro ⟨r, h⟩
    by_cases e : r = p
    · subst e; exact ⟨r, by rw [hc, upd_apply, if_pos rfl]; exact ht h⟩
    · refine ⟨r, ?_⟩
      rw [hc, upd_apply, if_neg e]
      rcases h with ⟨n, a, b⟩ | h | h | ⟨n, a, b⟩ | h
      · exact .inl ⟨n, a, hn n b⟩
      · exact .inr (.inl h)
      · exact .inr (.inr (.inl h))
      · exact .inr (.inr (.inr (.inl ⟨n, a, hn n b⟩)))
      · exact .inr (.inr (.inr (.inr h)))
  have hS : (∃ r, stuck (s.client r) s.node n) ∨ ∃ q, tok (s'.client q) s'.node := by
    rw [hc, upd_apply] at hq
    split at hq
    · exact (hst n hq).imp (fun h => ⟨p, h⟩) (fun h => ⟨p, by rw [hc, upd_apply, if_pos rfl]; exact h⟩)
    · rename_i hne
      obtain ⟨a, b, c⟩ := hq
      exact .inl ⟨q, a, hn' q n hne a b, c⟩
  rcases hS with ⟨r, h⟩ | h
  · rcases j hA' r n h with ⟨o, h'⟩ | h'
    · by_cases e : o = p
      · subst e
        refine (hr n h' ?_).imp (fun h => ⟨o, by rw [hc, upd_apply, if_pos rfl]; exact h⟩) id
        exact hq.2.1
      · exact .inl ⟨o, by rw [hc, upd_apply, if_neg e]; exact h'⟩
    · exact .inr (hT h')
  · exact .inr h

theorem call_invJ {s : State} (i : InvN s) (j : InvJ s) (p : Nat) (op : Op) : InvJ (call s p op) := by
  have hf := (i.cl p).fut
  unfold call
  simp only
  split
  · exact j
  · rename_i hi
    simp only [Classical.not_not] at hi
    cases op <;> simp only <;> (repeat' split) <;>
      first
      | exact j
      | (refine invJ_mono j p rfl ?_ ?_ ?_ ?_ ?_ ?_ ?_ <;>
          simp only [State.goto, State.setC, State.emit, hi, Pc.scanning, Pc.scanRest, stuck, tok] <;> grind)

theorem pstep_invJ {s s' : State} (o : InvO s) (i : InvN s) (j : InvJ s) {p : Nat} (ht : Timely s (.step p))
    (hs : pstep s p = some s') : InvJ s' := by
  have o' := pstep_invO o hs
  have hO : ∀ pc, (s.client p).pc = pc → pc.unl = 1 → s.locked = true ∧ ∀ q, q ≠ p → (s.client q).pc.scanning = false := by
    intro pc e hu
    have : own (s.client p) ≠ 0 := by simp [own, e, hu]
    have hle := o.le p
    refine ⟨o.locked.2 ⟨p, by omega⟩, fun q hq => ?_⟩
    cases h : (s.client q).pc.scanning
    · rfl
    · exact absurd (o.uniq (by simp [own, scanning_unl h]) this) hq
  have hun : s.locked = false → ∀ q, (s.client q).pc.scanning = false := by
    intro e q
    have := o.unlocked e q
    cases h : (s.client q).pc.scanning
    · rfl
    · simp [own, scanning_unl h] at this
  have htk := o.tk p
  simp only [Timely] at ht
  obtain ⟨c1, c2, c3, c4, c5, c6, c7, c8, c9, c10, c11⟩ := i.cl p
  unfold pstep at hs
  simp only at hs
  cases hpc : (s.client p).pc <;> simp only [hpc] at hs <;>
    simp only [hpc, Pc.own, Pc.polling, Pc.read, Pc.rest, Pc.taking] at c1 c2 c3 c4 c5 c6 c7 c8 c9 c10 c11 htk ht
  case p1take n =>
    have := htk trivial
    step_cases <;> simp only [Option.some.injEq, reduceCtorEq] at hs <;> (try subst hs) <;>
      (refine invJ_owner o' (p := p) ?_ ?_ <;> simp [upd_apply, own, Pc.scanning, Pc.unl, this])
  case p1read n =>
    have := htk trivial
    step_cases <;> simp only [Option.some.injEq, reduceCtorEq] at hs <;> (try subst hs) <;>
      (refine invJ_owner o' (p := p) ?_ ?_ <;> simp [upd_apply, own, Pc.scanning, Pc.unl, this])
  case ulLoad =>
    step_cases <;> simp only [Option.some.injEq, reduceCtorEq] at hs <;> (try subst hs) <;>
      (refine invJ_owner o' (p := p) ?_ ?_ <;> simp [upd_apply, own, Pc.scanning, Pc.unl])
  case ulDrain l =>
    step_cases <;> simp only [Option.some.injEq, reduceCtorEq] at hs <;> (try subst hs) <;>
      (refine invJ_owner o' (p := p) ?_ ?_ <;> simp [upd_apply, own, Pc.scanning, Pc.unl])
  case ulCut n l =>
    step_cases <;> simp only [Option.some.injEq, reduceCtorEq] at hs <;> (try subst hs) <;>
      (refine invJ_owner o' (p := p) ?_ ?_ <;> simp [upd_apply, own, Pc.scanning, Pc.unl])
  case ulHead =>
    step_cases <;> simp only [Option.some.injEq, reduceCtorEq] at hs <;> (try subst hs)
    intro _ q n h
    left
    refine ⟨p, ?_⟩
    simp only [upd_apply, if_true, Pc.scanRest]
    obtain ⟨a, b, -⟩ := h
    have a' : (s.client q).waiter = some n := by
      simp only [upd_apply] at a
      split at a
      · subst q; exact a
      · exact a
    exact (i.unt n ((i.cl q).wlt n a') b).1
  case ulScan l =>
    cases l with
    | nil =>
      step_cases <;> simp only [Option.some.injEq, reduceCtorEq] at hs <;> (try subst hs)
      refine invJ_mono j p rfl ?_ ?_ ?_ ?_ ?_ ?_ ?_ <;>
          simp only [hpc, Pc.scanning, Pc.scanRest, stuck, tok] <;> grind
    | cons m l =>
      have hm := suffix_mem c8
      step_cases <;> simp only [Option.some.injEq, reduceCtorEq] at hs <;> (try subst hs)
      · refine invJ_mono j p rfl ?_ ?_ ?_ ?_ ?_ ?_ ?_ <;>
          simp only [hpc, Pc.scanning, Pc.scanRest, stuck, tok] <;> grind
      · rename_i htn
        have htn : (s.node m).taken = false := by simpa using htn
        obtain ⟨-, -, r, hr⟩ := i.unt m (i.live m hm.1).1 htn
        have hT : ∃ q, tok (upd s.client p { s.client p with pc := .ulRead m } q)
            (upd s.node m { s.node m with taken := true }) := by
          refine ⟨r, ?_⟩
          rw [upd_apply]
          split
          · subst r
            rw [hpc] at hr
            simp only [Pc.take, reduceCtorEq, or_false] at hr
            exact .inl ⟨m, hr, by simp [upd_apply]⟩
          · rcases hr with hr | hr
            · exact .inl ⟨m, hr, by simp [upd_apply]⟩
            · cases hrc : (s.client r).pc <;> rw [hrc] at hr <;> simp only [Pc.take, reduceCtorEq, Option.some.injEq] at hr
              · rename_i hne n'
                have := o.uniq (p := r) (q := p) (by have := o.tk r (by rw [hrc]; rfl); simp [own, this])
                  (by simp [own, hpc, Pc.unl])
                exact absurd this hne
              · subst hr
                exact .inr (.inr (.inr (.inl ⟨_, hrc, by simp [upd_apply]⟩)))
        refine invJ_mono j p rfl ?_ ?_ ?_ ?_ ?_ ?_ ?_
        · simp only [hpc, Pc.scanning]; grind
        · simp only [hpc, Pc.scanning]; grind
        · simp only [upd_apply]; grind
        · simp only [upd_apply]; grind
        · exact fun _ _ _ => .inr hT
        · simp only [hpc, tok, upd_apply]; grind
        · simp only [hpc, stuck, upd_apply]; grind
  case ulStore nw =>
    cases nw <;> step_cases <;> simp only [Option.some.injEq, reduceCtorEq] at hs <;> (try subst hs) <;>
    (refine invJ_mono j p rfl ?_ ?_ ?_ ?_ ?_ ?_ ?_ <;>
          simp only [hpc, Pc.scanning, Pc.scanRest, stuck, tok] <;> grind)
  case ulRead n =>
    step_cases <;> simp only [Option.some.injEq, reduceCtorEq] at hs <;> (try subst hs) <;>
    (refine invJ_mono j p rfl ?_ ?_ ?_ ?_ ?_ ?_ ?_ <;>
          simp only [hpc, Pc.scanning, Pc.scanRest, stuck, tok, upd_apply] <;> grind)
  case ppush w =>
    step_cases <;> simp only [Option.some.injEq, reduceCtorEq] at hs <;> (try subst hs)
    exact fun _ _ _ _ => .inr ⟨p, .inr (.inr (.inl (by simp [upd_apply])))⟩
  all_goals
    step_cases <;>
    simp only [Option.some.injEq, reduceCtorEq] at hs <;> (try subst hs) <;>
      first
      | exact j
      | (refine invJ_owner o' (p := p) ?_ ?_ <;> simp [upd_apply, own, Pc.scanning, Pc.unl, hpc]; done)
      | (refine invJ_vac ?_ ?_ <;> grind [upd_apply, Pc.scanning])
      | (refine invJ_mono j p rfl ?_ ?_ ?_ ?_ ?_ ?_ ?_ <;>
          simp only [State.goto, State.setC, State.emit, hpc, Pc.scanning, Pc.scanRest, stuck, tok, upd_apply] <;> grind)

end Verif.Mutex
