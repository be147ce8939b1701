import Verif.Soft.Irq
import Verif.Soft.LevelSpec
/-! # Software threads: a thread is pending at one level only -/
namespace Verif.Soft

/-- A request is counted by its update of the cell only. -/
theorem frameStep_counts {count : Nat} {s s' : State} {f : Frame} {rest : List Frame} (h : frameStep count s rest f = some s') {t p : Nat}
    (hr : requests t p s.log < requests t p s'.log) : f = .req t (.cell p) := by
  cases f with
  | req thr pc =>
    cases pc <;> simp only [frameStep] at h
    · simp only [Option.some.injEq] at h; subst h; simp at hr
    · split at h
      · simp only [Option.some.injEq] at h; subst h
        simp only [requests] at hr
        split at hr
        · rename_i e; rw [e.1, e.2.1]
        · omega
      · simp at h
    · simp only [Option.some.injEq] at h; subst h; simp at hr
  | start =>
    simp only [frameStep] at h
    split at h <;> (simp only [Option.some.injEq] at h; subst h; simp at hr)
  | row r pc =>
    cases pc <;> simp only [frameStep] at h
    · split at h
      · split at h
        · split at h
          · simp only [Option.some.injEq] at h; subst h; simp at hr
          · simp at h
        · simp only [Option.some.injEq] at h; subst h; simp at hr
      · simp at h
    · split at h
      · split at h
        · simp only [Option.some.injEq] at h; subst h; simp [requests] at hr
        · simp at h
      · simp only [Option.some.injEq] at h; subst h; simp at hr
    · split at h <;> (simp only [Option.some.injEq] at h; subst h; simp at hr)
    · simp only [Option.some.injEq] at h; subst h; simp at hr
  | clear thr q =>
    cases q <;> simp only [frameStep] at h
    · simp only [Option.some.injEq] at h; subst h; simp at hr
    · split at h
      · simp only [Option.some.injEq] at h; subst h; simp [requests] at hr
      · simp at h
  | plain thr c =>
    simp only [frameStep] at h
    split at h <;> (simp only [Option.some.injEq] at h; subst h; simp at hr)

theorem advance_row (count : Nat) (r : Row) (thr : Nat) (cell bit : U32) : ∃ r' pc, advance count r thr cell bit = .row r' pc := by
  unfold advance
  split
  · exact ⟨_, _, rfl⟩
  · split <;> exact ⟨_, _, rfl⟩

/-- A request comes to its update of the cell from its load of the priority. -/
theorem frameStep_cell {count : Nat} {s s' : State} {f : Frame} {rest : List Frame} (h : frameStep count s rest f = some s') {t p : Nat}
    (hm : .req t (.cell p) ∈ s'.stack) : .req t (.cell p) ∈ rest ∨ p = s.prio t := by
  cases f with
  | req thr pc =>
    cases pc <;> simp only [frameStep] at h
    · simp only [Option.some.injEq] at h; subst h
      simp only [List.mem_cons, Frame.req.injEq, Req.cell.injEq] at hm
      rcases hm with ⟨rfl, rfl⟩ | hm
      · exact .inr rfl
      · exact .inl hm
    · split at h
      · simp only [Option.some.injEq] at h; subst h
        dsimp only at hm
        split at hm <;> (try simp at hm) <;> exact .inl hm
      · simp at h
    · simp only [Option.some.injEq] at h; subst h
      dsimp only at hm
      split at hm <;> (try simp at hm) <;> exact .inl hm
  | start =>
    simp only [frameStep] at h
    split at h <;> (simp only [Option.some.injEq] at h; subst h; simp at hm; exact .inl hm)
  | row r pc =>
    cases pc with
    | load thr =>
      simp only [frameStep] at h
      split at h
      · split at h
        · split at h
          · simp only [Option.some.injEq] at h; subst h
            dsimp only at hm
            split at hm <;> (try simp at hm) <;> exact .inl hm
          · simp at h
        · simp only [Option.some.injEq] at h; subst h; simp at hm; exact .inl hm
      · simp at h
    | bits thr cell bit =>
      obtain ⟨r', pc', e⟩ := advance_row count r thr cell bit
      simp only [frameStep, e] at h
      split at h
      · split at h
        · simp only [Option.some.injEq] at h; subst h; simp at hm; exact .inl hm
        · simp at h
      · simp only [Option.some.injEq] at h; subst h; simp at hm; exact .inl hm
    | call thr cell bit c =>
      obtain ⟨r', pc', e⟩ := advance_row count r thr cell bit
      simp only [frameStep, e] at h
      split at h <;> (simp only [Option.some.injEq] at h; subst h; simp at hm; exact .inl hm)
    | next =>
      simp only [frameStep, Option.some.injEq] at h
      subst h
      dsimp only at hm
      split at hm
      · exact .inl hm
      · split at hm <;> (try simp at hm) <;> exact .inl hm
  | clear thr q =>
    cases q <;> simp only [frameStep] at h
    · simp only [Option.some.injEq] at h; subst h; simp at hm; exact .inl hm
    · split at h
      · simp only [Option.some.injEq] at h; subst h; exact .inl hm
      · simp at h
  | plain thr c =>
    simp only [frameStep] at h
    split at h <;> (simp only [Option.some.injEq] at h; subst h)
    · simp at hm; exact .inl hm
    · exact .inl hm

/-- Thread `t` is pending at most at its own level. -/
structure InvU (t : Nat) (s : State) : Prop where
  one : ∀ p, p < 27 → (s.mem (27 - p)).getLsbD t = true → p = s.prio t
  cell : ∀ p, .req t (.cell p) ∈ s.stack → p = s.prio t

theorem init_invU (t : Nat) (prio : Nat → Nat) : InvU t (init prio) := by
  constructor <;> simp [init]

theorem ret_cell {t p : Nat} : ∀ {st : List Frame}, .req t (.cell p) ∈ ret st → .req t (.cell p) ∈ st := by
  intro st h
  unfold ret at h
  split at h
  · simpa using h
  · simpa using h
  · exact h

theorem step_invU {count t : Nat} (hc : count ≤ 32) (ht : t < count) {s s' : State} {a : Act} (hs : Settled count t s a) (i : InvA count s)
    (u : InvU t s) (h : step count s a = some s') : InvU t s' := by
  obtain ⟨u1, u2⟩ := u
  cases a <;> simp only [step] at h
  case step =>
    cases hst : s.stack with
    | nil => simp only [hst, Option.some.injEq] at h; subst h; exact ⟨u1, u2⟩
    | cons f rest =>
      simp only [hst] at h
      have hpr := frameStep_prio h
      refine ⟨?_, ?_⟩
      · intro p hp hb
        rw [hpr]
        rcases frameStep_bit hc i hst h ht hp hb with hb | hb
        · exact u1 p hp hb
        · have := frameStep_counts h hb
          exact u2 p (by rw [hst, this]; simp)
      · intro p hm
        rw [hpr]
        rcases frameStep_cell h hm with hm | hm
        · exact u2 p (by rw [hst]; simp [hm])
        · exact hm
  case ret =>
    simp only [Option.some.injEq] at h
    subst h
    exact ⟨u1, fun p hm => u2 p (ret_cell hm)⟩
  case setPrio v q =>
    split at h
    · simp only [Option.some.injEq] at h
      subst h
      by_cases e : v = t
      · obtain ⟨a, b⟩ := hs e
        refine ⟨?_, ?_⟩
        · intro p hp hb
          exact absurd ((pending_iff hc ht hp).2 hb) (a p hp)
        · intro p hm; exact absurd hm (b p)
      · have e' : t ≠ v := fun h => e h.symm
        refine ⟨?_, ?_⟩
        · intro p hp hb
          simp only [upd, e', ↓reduceIte]
          exact u1 p hp hb
        · intro p hm
          simp only [upd, e', ↓reduceIte]
          exact u2 p hm
    · simp at h
  all_goals
    simp only [Option.some.injEq] at h
    try split at h
    all_goals subst h
    all_goals first
      | exact ⟨u1, u2⟩
      | exact ⟨u1, fun p hm => u2 p (by simpa using hm)⟩

/-- At most one event is logged. -/
theorem step_log {count : Nat} {s s' : State} {a : Act} (h : step count s a = some s') :
    s'.log = s.log ∨ ∃ e, s'.log = e :: s.log ∧ a = .step := by
  cases a <;> simp only [step] at h
  case step =>
    split at h
    · simp only [Option.some.injEq] at h; subst h; exact .inl rfl
    · rcases frameStep_log h with h | ⟨e, h⟩
      · exact .inl h
      · exact .inr ⟨e, h, rfl⟩
  case ret => simp only [Option.some.injEq] at h; subst h; exact .inl rfl
  case setPrio =>
    split at h
    · simp only [Option.some.injEq] at h; subst h; exact .inl rfl
    · simp at h
  all_goals
    simp only [Option.some.injEq] at h
    try split at h
    all_goals (subst h; exact .inl rfl)

theorem step_prio {count : Nat} {s s' : State} (h : step count s .step = some s') : s'.prio = s.prio := by
  simp only [step] at h
  split at h
  · simp only [Option.some.injEq] at h; subst h; rfl
  · exact frameStep_prio h

/-- A request that was counted was at an existing level. -/
theorem step_req_level {count : Nat} {s s' : State} {t p : Nat} (i : InvA count s) (h : step count s .step = some s')
    (hl : s'.log = .req t p true :: s.log) : p < 27 := by
  cases hst : s.stack with
  | nil =>
    simp only [step, hst, Option.some.injEq] at h; subst h
    have := congrArg List.length hl; simp at this
  | cons f rest =>
    simp only [step, hst] at h
    have := frameStep_counts h (t := t) (p := p) (by rw [hl]; simp [requests])
    have j := i.ok
    rw [hst, this] at j
    exact j.1.2

theorem step_total {count t : Nat} (hc : count ≤ 32) (ht : t < count) {s s' : State} {a : Act} (hs : Settled count t s a) (ha : ∀ t, a ≠ .clear t)
    (i : InvA count s) (u : InvU t s) (k : InvR count s) (h : step count s a = some s')
    (e : requestsOf t s.log = runsOf t s.log + ((s.mem (27 - s.prio t)).getLsbD t).toNat) :
    requestsOf t s'.log = runsOf t s'.log + ((s'.mem (27 - s'.prio t)).getLsbD t).toNat := by
  have u' := step_invU hc ht hs i u h
  have k' := step_invR hc ha i k h
  have i' := step_invA hc i h
  have hp := i.pr t
  have hp' := i'.pr t
  have q := k.acc t (s.prio t) ht hp
  have q' := k'.acc t (s'.prio t) ht hp'
  -- nothing about this thread was logged
  have same : (∀ p, requests t p s'.log = requests t p s.log) → (∀ p, runs t p s'.log = runs t p s.log) →
      requestsOf t s'.log = requestsOf t s.log → runsOf t s'.log = runsOf t s.log →
      requestsOf t s'.log = runsOf t s'.log + ((s'.mem (27 - s'.prio t)).getLsbD t).toNat := by
    intro h1 h2 h3 h4
    rw [h3, h4, e]
    have hb : ∀ p, p < 27 → (s'.mem (27 - p)).getLsbD t = (s.mem (27 - p)).getLsbD t := by
      intro p hp
      have q := k.acc t p ht hp
      have q' := k'.acc t p ht hp
      rw [h1 p, h2 p, q] at q'
      cases hx : (s'.mem (27 - p)).getLsbD t <;> cases hy : (s.mem (27 - p)).getLsbD t <;> simp [hx, hy] at q' ⊢
    rw [hb _ hp']
    by_cases hpr : s'.prio t = s.prio t
    · rw [hpr]
    · cases hx : (s.mem (27 - s.prio t)).getLsbD t
      · cases hy : (s.mem (27 - s'.prio t)).getLsbD t
        · rfl
        · exact absurd (u.one _ hp' hy) hpr
      · have := u'.one (s.prio t) hp (by rw [hb _ hp]; exact hx)
        exact absurd this.symm hpr
  rcases step_log h with hl | ⟨ev, hl, rfl⟩
  · exact same (fun p => by rw [hl]) (fun p => by rw [hl]) (by rw [hl]) (by rw [hl])
  · have hpr : s'.prio t = s.prio t := by rw [step_prio h]
    cases ev with
    | req v p fresh =>
      by_cases ev : v = t ∧ fresh = true
      · obtain ⟨rfl, rfl⟩ := ev
        have hpl := step_req_level i h hl
        have a := k.acc v p ht hpl
        have a' := k'.acc v p ht hpl
        simp only [hl, requests, runs, and_self, ↓reduceIte] at a'
        have hx : (s.mem (27 - p)).getLsbD v = false := by
          cases hx : (s.mem (27 - p)).getLsbD v
          · rfl
          · rw [hx] at a; split at a' <;> simp at a <;> omega
        have hy : (s'.mem (27 - p)).getLsbD v = true := by
          rw [hx] at a
          cases hy : (s'.mem (27 - p)).getLsbD v
          · rw [hy] at a'; simp at a a'; omega
          · rfl
        have hpp := u'.one p hpl hy
        rw [← hpp, hy, hl]
        rw [← hpr, ← hpp, hx] at e
        simp only [requestsOf, runsOf, and_self, ↓reduceIte, e, Bool.toNat_true, Bool.toNat_false]
        omega
      · refine same (fun p' => ?_) (fun p' => ?_) ?_ ?_ <;> rw [hl]
        · simp only [requests]
          rw [if_neg (fun h => ev ⟨h.1, h.2.2⟩)]; omega
        · simp only [runs]
        · simp only [requestsOf]
          rw [if_neg ev]; omega
        · simp only [runsOf]
    | run v p =>
      by_cases ev : v = t
      · subst ev
        obtain ⟨-, r, cell, bit, rest, hst, hpe, -⟩ := run_event h hl
        have hpl : p < 27 := by
          have j := i.ok
          rw [hst] at j
          obtain ⟨⟨k1, k2, k3, k4, k5, k6⟩, -⟩ := j
          omega
        have a := k.acc v p ht hpl
        have a' := k'.acc v p ht hpl
        simp only [hl, requests, runs, and_self, ↓reduceIte] at a'
        have hx : (s.mem (27 - p)).getLsbD v = true := by
          cases hx : (s.mem (27 - p)).getLsbD v
          · rw [hx] at a; simp at a; split at a' <;> omega
          · rfl
        have hy : (s'.mem (27 - p)).getLsbD v = false := by
          rw [hx] at a
          cases hy : (s'.mem (27 - p)).getLsbD v
          · rfl
          · rw [hy] at a'; simp at a a'; omega
        have hpp := u.one p hpl hx
        rw [hpr, ← hpp, hy, hl]
        rw [← hpp, hx] at e
        simp only [requestsOf, runsOf, ↓reduceIte, e, Bool.toNat_true, Bool.toNat_false]
        omega
      · refine same (fun p' => ?_) (fun p' => ?_) ?_ ?_ <;> rw [hl]
        · simp only [requests]
        · simp only [runs]
          rw [if_neg (fun h => ev h.1)]; omega
        · simp only [requestsOf]
        · simp only [runsOf]
          rw [if_neg ev]; omega
    | clear v p =>
      refine same (fun p' => ?_) (fun p' => ?_) ?_ ?_ <;> rw [hl] <;> simp only [requests, runs, requestsOf, runsOf]

theorem run_total {count t : Nat} (hc : count ≤ 32) (ht : t < count) : ∀ {acts : List Act} {s s' : State}, Always count (Settled count t) s acts →
    NoClear acts → InvA count s → InvU t s → InvR count s →
    requestsOf t s.log = runsOf t s.log + ((s.mem (27 - s.prio t)).getLsbD t).toNat → run count s acts = some s' →
    InvA count s' ∧ InvU t s' ∧ requestsOf t s'.log = runsOf t s'.log + ((s'.mem (27 - s'.prio t)).getLsbD t).toNat
  | [], s, s', _, _, i, u, _, e, h => by simp only [run, Option.some.injEq] at h; exact h ▸ ⟨i, u, e⟩
  | a :: as, s, s', w, n, i, u, k, e, h => by
    simp only [run] at h
    split at h
    · simp at h
    · rename_i m hm
      have ha : ∀ t, a ≠ .clear t := fun t e => n t (by simp [e])
      exact run_total hc ht (w.2 m hm) (fun t ht => n t (by simp [ht])) (step_invA hc i hm) (step_invU hc ht w.1 i u hm)
        (step_invR hc ha i k hm) (step_total hc ht w.1 ha i u k hm e) h

end Verif.Soft
