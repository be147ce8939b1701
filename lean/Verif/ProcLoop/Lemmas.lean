import Verif.ProcLoop.Spec
/-! # Lemmas about the process loop -/
namespace Verif.ProcLoop

variable {Cmd CmdRes Req ReqRes σ Err : Type} {L : Code Cmd CmdRes Req ReqRes σ}

/-- The last part of the log. -/
inductive Tail (L : Code Cmd CmdRes Req ReqRes σ) :
    Fib ReqRes σ → Call Cmd Req → List (Ev Cmd CmdRes Req ReqRes Err) → Prop where
  | none : Tail L .waitCmd .none []
  | fresh (c : Cmd) : Tail L .waitCmd (.fresh c) []
  | waiting {c : Cmd} {l : List (Req × ReqRes)} {q : Req} {p : σ} {k : ReqRes → σ}
      (h : Reqs L (L.start c) l p) (hp : L.look p = .inl (q, k)) :
      Tail L (.waitRes k) (.waiting q) (.cmd c :: talk l ++ [.req q])
  | broken {c : Cmd} {l : List (Req × ReqRes)} {q : Req} {p : σ} {k : ReqRes → σ}
      (h : Reqs L (L.start c) l p) (hp : L.look p = .inl (q, k)) (ev : Ev Cmd CmdRes Req ReqRes Err)
      (hb : ev.isBreak = true) (call : Call Cmd Req) (hc : ∀ q, call ≠ .waiting q) :
      Tail L (.waitRes k) call (.cmd c :: talk l ++ [.req q] ++ [ev])

/-- The shape of a reachable state. -/
def Shape (L : Code Cmd CmdRes Req ReqRes σ) (s : State Cmd CmdRes Req ReqRes σ Err) : Prop :=
  ∃ ds t, (∀ c l r, (c, l, r) ∈ ds → Returns L c l r) ∧ s.log.reverse = sessions ds ++ t ∧ Tail L s.fib s.call t

theorem Reqs.snoc {p p' : σ} {l : List (Req × ReqRes)} {q : Req} {k : ReqRes → σ} (r : ReqRes)
    (h : Reqs L p l p') (hp : L.look p' = .inl (q, k)) : Reqs L p (l ++ [(q, r)]) (k r) := by
  induction h with
  | nil p => exact .cons hp (.nil _)
  | cons h t ih => exact .cons h (ih hp)

theorem talk_append (a b : List (Req × ReqRes)) :
    (talk (a ++ b) : List (Ev Cmd CmdRes Req ReqRes Err)) = talk a ++ talk b := by
  induction a with
  | nil => rfl
  | cons x a ih => simp [talk, ih]

theorem sessions_append (a b : List (Cmd × List (Req × ReqRes) × CmdRes)) :
    (sessions (a ++ b) : List (Ev Cmd CmdRes Req ReqRes Err)) = sessions a ++ sessions b := by
  induction a with
  | nil => rfl
  | cons x a ih => obtain ⟨c, l, r⟩ := x; simp [sessions, ih]

theorem init_shape : Shape L (init : State Cmd CmdRes Req ReqRes σ Err) :=
  ⟨[], [], by simp, by simp [init, sessions], .none⟩

/-- The fiber continues from `p` inside a command. -/
theorem settle_shape {ds : List (Cmd × List (Req × ReqRes) × CmdRes)} {c : Cmd} {l : List (Req × ReqRes)} {p : σ}
    {log : List (Ev Cmd CmdRes Req ReqRes Err)}
    (hd : ∀ c l r, (c, l, r) ∈ ds → Returns L c l r) (hl : log.reverse = sessions ds ++ (.cmd c :: talk l))
    (h : Reqs L (L.start c) l p) {s' : State Cmd CmdRes Req ReqRes σ Err}
    (e : (match some (L.settle p) with
      | none => none
      | some (f, .req q) => some (⟨f, .waiting q, .req q :: log⟩ : State Cmd CmdRes Req ReqRes σ Err)
      | some (f, .cmdRes r) => some ⟨f, .none, .ok r :: log⟩) = some s') : Shape L s' := by
  unfold Code.settle at e
  cases hp : L.look p with
  | inl qk =>
    obtain ⟨q, k⟩ := qk
    rw [hp] at e
    simp only [Option.some.injEq] at e
    subst e
    exact ⟨ds, _, hd, by simp [hl], .waiting h hp⟩
  | inr r =>
    rw [hp] at e
    simp only [Option.some.injEq] at e
    subst e
    refine ⟨ds ++ [(c, l, r)], [], ?_, ?_, .none⟩
    · intro c' l' r' hm
      simp at hm
      rcases hm with hm | ⟨rfl, rfl, rfl⟩
      · exact hd _ _ _ hm
      · exact ⟨p, h, hp⟩
    · simp [hl, sessions_append, sessions, session]

theorem step_shape {s s' : State Cmd CmdRes Req ReqRes σ Err} {a : Act Cmd ReqRes Err} (g : Shape L s)
    (h : step L s a = some s') : Shape L s' := by
  obtain ⟨ds, t, hd, hl, ht⟩ := g
  obtain ⟨fib, call, log⟩ := s
  simp only at hl ht
  cases a <;> simp only [step] at h
  case call c =>
    cases ht with
    | none =>
      simp only [Option.some.injEq] at h; subst h
      exact ⟨ds, _, hd, hl, .fresh c⟩
    | fresh c' =>
      simp only [Option.some.injEq] at h; subst h
      exact ⟨ds, _, hd, hl, .fresh c'⟩
    | waiting h1 h2 =>
      simp only [Option.some.injEq] at h; subst h
      exact ⟨ds, _, hd, hl, .waiting h1 h2⟩
    | broken h1 h2 ev hb _ hc =>
      cases call <;> simp only [Option.some.injEq] at h <;> subst h
      · exact ⟨ds, _, hd, hl, .broken h1 h2 ev hb _ (by simp)⟩
      · exact ⟨ds, _, hd, hl, .broken h1 h2 ev hb _ (by simp)⟩
      · exact absurd rfl (hc _)
  case begin =>
    cases ht with
    | none => simp only [Option.some.injEq] at h; subst h; exact ⟨ds, _, hd, hl, .none⟩
    | fresh c =>
      simp only [State.feed, Code.resume] at h
      exact settle_shape (l := []) (c := c) hd (by simp [hl, talk]) (.nil _) h
    | waiting h1 h2 => simp only [Option.some.injEq] at h; subst h; exact ⟨ds, _, hd, hl, .waiting h1 h2⟩
    | broken h1 h2 ev hb _ hc =>
      cases call
      · simp only [Option.some.injEq] at h; subst h
        exact ⟨ds, _, hd, hl, .broken h1 h2 ev hb _ (by simp)⟩
      · simp [State.feed, Code.resume] at h
      · exact absurd rfl (hc _)
  case answer r =>
    cases ht with
    | none => simp only [Option.some.injEq] at h; subst h; exact ⟨ds, _, hd, hl, .none⟩
    | fresh c => simp only [Option.some.injEq] at h; subst h; exact ⟨ds, _, hd, hl, .fresh c⟩
    | waiting h1 h2 =>
      simp only [State.feed, Code.resume] at h
      exact settle_shape hd (by simp [hl, talk_append, talk]) (h1.snoc r h2) h
    | broken h1 h2 ev hb _ hc =>
      cases call <;> simp only [Option.some.injEq] at h
      · subst h; exact ⟨ds, _, hd, hl, .broken h1 h2 ev hb _ (by simp)⟩
      · subst h; exact ⟨ds, _, hd, hl, .broken h1 h2 ev hb _ (by simp)⟩
      · exact absurd rfl (hc _)
  case fail e =>
    cases ht with
    | none => simp only [Option.some.injEq] at h; subst h; exact ⟨ds, _, hd, hl, .none⟩
    | fresh c => simp only [Option.some.injEq] at h; subst h; exact ⟨ds, _, hd, hl, .fresh c⟩
    | waiting h1 h2 =>
      simp only [Option.some.injEq] at h; subst h
      exact ⟨ds, _, hd, by simp [hl], .broken h1 h2 (.err e) rfl _ (by simp)⟩
    | broken h1 h2 ev hb _ hc =>
      cases call <;> simp only [Option.some.injEq] at h
      · subst h; exact ⟨ds, _, hd, hl, .broken h1 h2 ev hb _ (by simp)⟩
      · subst h; exact ⟨ds, _, hd, hl, .broken h1 h2 ev hb _ (by simp)⟩
      · exact absurd rfl (hc _)
  case forget =>
    cases ht with
    | none => simp only [Option.some.injEq] at h; subst h; exact ⟨ds, _, hd, hl, .none⟩
    | fresh c => simp only [Option.some.injEq] at h; subst h; exact ⟨ds, _, hd, hl, .none⟩
    | waiting h1 h2 => simp only [Option.some.injEq] at h; subst h; exact ⟨ds, _, hd, hl, .waiting h1 h2⟩
    | broken h1 h2 ev hb _ hc =>
      cases call <;> simp only [Option.some.injEq] at h
      · subst h; exact ⟨ds, _, hd, hl, .broken h1 h2 ev hb _ (by simp)⟩
      · subst h; exact ⟨ds, _, hd, hl, .broken h1 h2 ev hb _ (by simp)⟩
      · exact absurd rfl (hc _)
  case abandon =>
    cases ht with
    | none => simp only [Option.some.injEq] at h; subst h; exact ⟨ds, _, hd, hl, .none⟩
    | fresh c => simp only [Option.some.injEq] at h; subst h; exact ⟨ds, _, hd, hl, .fresh c⟩
    | waiting h1 h2 =>
      simp only [Option.some.injEq] at h; subst h
      exact ⟨ds, _, hd, by simp [hl], .broken h1 h2 .drop rfl _ (by simp)⟩
    | broken h1 h2 ev hb _ hc =>
      cases call <;> simp only [Option.some.injEq] at h
      · subst h; exact ⟨ds, _, hd, hl, .broken h1 h2 ev hb _ (by simp)⟩
      · subst h; exact ⟨ds, _, hd, hl, .broken h1 h2 ev hb _ (by simp)⟩
      · exact absurd rfl (hc _)

theorem run_shape {s s' : State Cmd CmdRes Req ReqRes σ Err} {acts : List (Act Cmd ReqRes Err)} (g : Shape L s)
    (h : run L s acts = some s') : Shape L s' := by
  induction acts generalizing s with
  | nil => simp only [run, Option.some.injEq] at h; subst h; exact g
  | cons a as ih =>
    simp only [run, Option.bind_eq_some_iff] at h
    obtain ⟨s1, h1, h2⟩ := h
    exact ih (step_shape g h1) h2

theorem talk_calm (l : List (Req × ReqRes)) : ∀ e ∈ (talk l : List (Ev Cmd CmdRes Req ReqRes Err)), e.isBreak = false := by
  induction l with
  | nil => simp [talk]
  | cons x l ih => obtain ⟨q, r⟩ := x; simp only [talk, List.mem_cons]; rintro e (rfl | rfl | h); rfl; rfl; exact ih e h

theorem sessions_calm (ds : List (Cmd × List (Req × ReqRes) × CmdRes)) :
    ∀ e ∈ (sessions ds : List (Ev Cmd CmdRes Req ReqRes Err)), e.isBreak = false := by
  induction ds with
  | nil => simp [sessions]
  | cons x ds ih =>
    obtain ⟨c, l, r⟩ := x
    simp only [sessions, session, List.mem_append, List.mem_cons, List.cons_append, List.not_mem_nil, or_false]
    rintro e (rfl | h | h)
    · rfl
    · rcases h with h | rfl
      · exact talk_calm l e h
      · rfl
    · exact ih e h

/-- Events that break the protocol occur exactly in the broken shape. -/
theorem break_iff {s : State Cmd CmdRes Req ReqRes σ Err} (g : Shape L s) :
    (∃ ev ∈ s.log, ev.isBreak = true) ↔ ((∃ k, s.fib = .waitRes k) ∧ ∀ q, s.call ≠ .waiting q) := by
  obtain ⟨ds, t, hd, hl, ht⟩ := g
  have hm : ∀ ev, ev ∈ s.log ↔ ev ∈ sessions ds ++ t := by intro ev; rw [← hl]; simp
  simp only [hm, List.mem_append]
  have hs := sessions_calm (Err := Err) ds
  constructor
  · rintro ⟨ev, h | h, hb⟩
    · rw [hs ev h] at hb; simp at hb
    · generalize s.fib = f at ht ⊢
      generalize s.call = cl at ht ⊢
      cases ht with
      | none => simp at h
      | fresh => simp at h
      | waiting h1 h2 =>
        simp at h
        rcases h with rfl | h | rfl
        · simp [Ev.isBreak] at hb
        · rw [talk_calm _ ev h] at hb; simp at hb
        · simp [Ev.isBreak] at hb
      | broken h1 h2 ev hb _ hc => exact ⟨⟨_, rfl⟩, hc⟩
  · rintro ⟨⟨k, hk⟩, hc⟩
    generalize s.fib = f at ht hk
    generalize s.call = cl at ht hc
    cases ht with
    | none => simp at hk
    | fresh => simp at hk
    | waiting h1 h2 => exact absurd rfl (hc _)
    | broken h1 h2 ev hb _ hc => exact ⟨ev, .inr (by simp), hb⟩

/-- When a step is undefined. -/
theorem step_none {s : State Cmd CmdRes Req ReqRes σ Err} {a : Act Cmd ReqRes Err} (g : Shape L s) :
    step L s a = none ↔ (∃ k, s.fib = .waitRes k) ∧ (∃ c, s.call = .fresh c) ∧ (∃ _ : a = .begin, True) := by
  obtain ⟨ds, t, hd, hl, ht⟩ := g
  obtain ⟨fib, call, log⟩ := s
  simp only at ht ⊢
  cases ht with
  | none => cases a <;> simp [step]
  | fresh c =>
    cases a <;> simp [step]
    simp only [State.feed, Code.resume, Code.settle]
    cases L.look (L.start c) <;> simp
  | waiting h1 h2 =>
    rename_i c l q p k
    cases a <;> simp [step]
    rename_i r
    simp only [State.feed, Code.resume, Code.settle]
    cases L.look (k r) <;> simp
  | broken h1 h2 ev hb _ hc =>
    cases call with
    | waiting q => exact absurd rfl (hc q)
    | none => cases a <;> simp [step]
    | fresh c => cases a <;> simp [step, State.feed, Code.resume]

/-- No break happens in calm steps. -/
theorem step_calm {s s' : State Cmd CmdRes Req ReqRes σ Err} {a : Act Cmd ReqRes Err} (hc : a.calm)
    (h : step L s a = some s') (hb : ∀ ev ∈ s.log, ev.isBreak = false) : ∀ ev ∈ s'.log, ev.isBreak = false := by
  have feed : ∀ (i : In Cmd ReqRes) (e : Ev Cmd CmdRes Req ReqRes Err), e.isBreak = false →
      { s with log := e :: s.log }.feed L i = some s' → ∀ ev ∈ s'.log, ev.isBreak = false := by
    intro i e he h
    unfold State.feed at h
    split at h
    · simp at h
    · simp only [Option.some.injEq] at h; subst h
      intro ev hv
      simp at hv
      rcases hv with rfl | rfl | hv
      · rfl
      · exact he
      · exact hb ev hv
    · simp only [Option.some.injEq] at h; subst h
      intro ev hv
      simp at hv
      rcases hv with rfl | rfl | hv
      · rfl
      · exact he
      · exact hb ev hv
  cases a <;> simp only [step, Act.calm] at h hc
  all_goals (split at h)
  all_goals first
    | exact feed _ _ rfl h
    | (simp only [Option.some.injEq] at h; subst h; exact hb)

theorem run_append {s : State Cmd CmdRes Req ReqRes σ Err} {a b : List (Act Cmd ReqRes Err)} :
    run L s (a ++ b) = (run L s a).bind fun s' => run L s' b := by
  induction a generalizing s with
  | nil => rfl
  | cons o os ih =>
    simp only [List.cons_append, run]
    cases step L s o with
    | none => rfl
    | some s' => simp [ih]

/-- The loop of `cmd` from a state of the code. -/
theorem loop_run {p p' : σ} {l : List (Req × ReqRes)} {r : CmdRes} (h : Reqs L p l p') (hr : L.look p' = .inr r)
    (log : List (Ev Cmd CmdRes Req ReqRes Err)) (f : Fib ReqRes σ) (i : In Cmd ReqRes) (cl : Call Cmd Req)
    (hf : L.resume f i = some (L.settle p)) :
    ((⟨f, cl, log⟩ : State Cmd CmdRes Req ReqRes σ Err).feed L i).bind (fun s => run L s (l.map fun x => .answer x.2)) =
      some ⟨.waitCmd, .none, .ok r :: (talk l).reverse ++ log⟩ := by
  induction h generalizing log f i cl with
  | nil p => simp [State.feed, hf, Code.settle, hr, run, talk]
  | cons hp t ih =>
    rename_i p p' q k a l
    simp only [State.feed, hf, Code.settle, hp, Option.bind_some, List.map_cons, run, step]
    have := ih hr (.res a :: .req q :: log) (.waitRes k) (.reqRes a) (.waiting q) rfl
    simp only [State.feed] at this
    rw [this]
    simp [talk]

end Verif.ProcLoop
