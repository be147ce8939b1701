import Verif.Soft.WideSnap
import Verif.Soft.WideSpec
/-! # Software threads: pools of every size in which `row_next` never goes to another level -/
namespace Verif.Soft

/-- `row_next` of the code, in a quiet history. -/
theorem next_quiet {count : Nat} {s : State} {r : Row} {rest : List Frame} (i : InvAW count s) (hst : s.stack = .row r .next :: rest) (hq : Quiet s .step) :
    frameStep count s rest (.row r .next) = some { s with mem := upd s.mem 0 (setPriority (s.mem 0) r.prev), stack := rest } := by
  have j := i.ok
  rw [hst] at j
  obtain ⟨⟨k1, k2, k3, k4, k6⟩, j2⟩ := j
  have sp := findPriority_spec (s.mem 0) r.prev (r.priority - 1) (by omega) (by omega)
  simp only [frameStep]
  cases hf : findPriority (s.mem 0) r.prev (r.priority - 1) with
  | mk new next =>
    rw [hf] at sp
    cases new with
    | none =>
      simp only at sp
      simp only [sp.1, ↓reduceIte, Option.getD]
    | some new =>
      simp only at sp
      obtain ⟨a1, a2, a3, -⟩ := sp
      have := hq rfl r rest hst (next - 1) (by omega) (by omega)
      rw [this] at a3
      simp at a3

theorem step_quiet_invA {count : Nat} {s s' : State} {a : Act} (i : InvAW count s) (hq : Quiet s a) (h : step count s a = some s') : InvAW count s' := by
  by_cases e : a = .step
  · subst e
    cases hst : s.stack with
    | nil => exact stepW_invA (a := .step) i (by simp only [stepW, hst]; simp only [step, hst] at h; exact h)
    | cons f rest =>
      simp only [step, hst] at h
      by_cases hn : ∃ r, f = .row r .next
      · obtain ⟨r, rfl⟩ := hn
        rw [next_quiet i hst hq] at h
        obtain ⟨i1, i2, i3, i4⟩ := i
        rw [hst] at i2
        obtain ⟨⟨k1, k2, k3, k4, k6⟩, j2⟩ := i2
        simp only [Option.some.injEq] at h
        subst h
        refine ⟨?_, j2, i3, fun _ _ _ => k1⟩
        simp only [recorded, upd, ↓reduceIte]
        rw [cur_setPriority (by omega), k2]
      · rw [← frameStepW_eq (fun r e => hn ⟨r, e⟩)] at h
        exact frameStepW_invA i hst h
  · rw [← stepW_eq e] at h
    exact stepW_invA i h

theorem step_quiet_invS {count : Nat} {s s' : State} {a : Act} (ha : ∀ t, a ≠ .clear t) (i : InvAW count s) (k : InvS count s) (hq : Quiet s a)
    (h : step count s a = some s') : InvS count s' := by
  by_cases e : a = .step
  · subst e
    cases hst : s.stack with
    | nil => exact stepW_invS (a := .step) ha i k (by simp only [stepW, hst]; simp only [step, hst] at h; exact h)
    | cons f rest =>
      simp only [step, hst] at h
      by_cases hn : ∃ r, f = .row r .next
      · obtain ⟨r, rfl⟩ := hn
        rw [next_quiet i hst hq] at h
        simp only [Option.some.injEq] at h
        subst h
        have j := i.ok
        rw [hst] at j
        refine invS_top k j.2 hst ?_ (.inl rfl) ?_
        · intro t q _ _ _ hb; dsimp only; rw [bitOf_header]; exact hb
        · intro t q ht hq; dsimp only; rw [bitOf_header]; exact k.acc t q ht hq
      · rw [← frameStepW_eq (fun r e => hn ⟨r, e⟩)] at h
        exact frameStepW_invS i k hst h
  · rw [← stepW_eq e] at h
    exact stepW_invS ha i k h

theorem step_quiet_some {count : Nat} (hc : count ≤ 65504) {s : State} {a : Act} (i : InvAW count s) (ha : ∀ t p, a = .setPrio t p → p < 27) :
    ∃ s', step count s a = some s' := by
  by_cases e : a = .step
  · subst e
    cases hst : s.stack with
    | nil => exact ⟨s, by simp only [step, hst]⟩
    | cons f rest =>
      by_cases hn : ∃ r, f = .row r .next
      · obtain ⟨r, rfl⟩ := hn
        simp only [step, hst]
        exact ⟨_, rfl⟩
      · obtain ⟨m, hm⟩ := stepW_some hc i ha
        simp only [stepW, hst, frameStepW_eq (fun r e => hn ⟨r, e⟩)] at hm
        exact ⟨m, by simp only [step, hst]; exact hm⟩
  · rw [← stepW_eq e]
    exact stepW_some hc i ha

theorem run_quiet_inv {count : Nat} : ∀ {acts : List Act} {s s' : State}, Always count Quiet s acts → NoClear acts → InvAW count s → InvS count s →
    run count s acts = some s' → InvAW count s' ∧ InvS count s'
  | [], s, s', _, _, i, k, h => by simp only [run, Option.some.injEq] at h; exact h ▸ ⟨i, k⟩
  | a :: as, s, s', q, n, i, k, h => by
    simp only [run] at h
    split at h
    · simp at h
    · rename_i m hm
      exact run_quiet_inv (q.2 m hm) (fun t ht => n t (by simp [ht])) (step_quiet_invA i q.1 hm)
        (step_quiet_invS (fun t e => n t (by simp [e])) i k q.1 hm) h

theorem run_quiet_some {count : Nat} (hc : count ≤ 65504) : ∀ {acts : List Act} {s : State}, Always count Quiet s acts → PrioOk acts → InvAW count s →
    ∃ s', run count s acts = some s'
  | [], s, _, _, _ => ⟨s, rfl⟩
  | a :: as, s, q, hp, i => by
    obtain ⟨m, hm⟩ := step_quiet_some hc i (a := a) (fun t p e => hp t p (by simp [e]))
    simp only [run, hm]
    exact run_quiet_some hc (q.2 m hm) (fun t p h => hp t p (by simp [h])) (step_quiet_invA i q.1 hm)

/-- In a calm history the repair changes nothing. -/
theorem stepW_calm {count : Nat} {s : State} {a : Act} (i : InvAW count s) (hq : Calm s a) : stepW count s a = step count s a := by
  by_cases e : a = .step
  · subst e
    cases hst : s.stack with
    | nil => simp only [stepW, step, hst]
    | cons f rest =>
      simp only [stepW, step, hst]
      by_cases hn : ∃ r, f = .row r .next
      · obtain ⟨r, rfl⟩ := hn
        rw [next_quiet i hst (fun h1 r' rest' h2 i h3 h4 => hq h1 r' rest' h2 i h3 (by omega))]
        cases hm : frameStepW count s rest (.row r .next) with
        | none => simp [frameStepW] at hm
        | some m =>
          rcases next_specW i hst hm with ⟨rfl, -⟩ | ⟨new, next, rfl, a1, a2, a4, a5, a6⟩
          · rfl
          · exfalso
            have j := i.ok
            rw [hst] at j
            obtain ⟨⟨k1, k2, k3, k4, k6⟩, -⟩ := j
            have sp := findPriority_spec (s.mem 0) r.prev r.priority (by omega) (by omega)
            simp only [frameStepW, Option.some.injEq] at hm
            cases hf : findPriority (s.mem 0) r.prev r.priority with
            | mk x y =>
              rw [hf] at sp hm
              cases x with
              | none =>
                simp only at sp
                simp only [sp.1, ↓reduceIte] at hm
                have := congrArg (fun s => s.stack.length) hm
                simp at this
              | some x =>
                simp only at sp
                have := hq rfl r rest hst (y - 1) (by omega) (by omega)
                rw [sp.2.2.1] at this
                simp at this
      · exact frameStepW_eq (fun r e => hn ⟨r, e⟩)
  · exact stepW_eq e

theorem runW_calm {count : Nat} : ∀ {acts : List Act} {s : State}, Always count Calm s acts → InvAW count s → runW count s acts = run count s acts
  | [], _, _, _ => rfl
  | a :: as, s, q, i => by
    simp only [runW, run, stepW_calm i q.1]
    cases hm : step count s a with
    | none => rfl
    | some m => exact runW_calm (q.2 m hm) (stepW_invA i (by rw [stepW_calm i q.1]; exact hm))

/-! ## All threads at one level -/

/-- The call is for level `p`. -/
def Frame.AtLevel (p : Nat) : Frame → Prop
  | .req _ (.cell q) => q = p
  | .req _ (.header q) => q = p
  | .row r _ => r.priority = p + 1
  | _ => True

/-- Everything happens at level `p`. -/
structure InvL (p : Nat) (s : State) : Prop where
  prio : ∀ t, s.prio t = p
  bits : ∀ i, i < 27 → (s.mem 0).getLsbD i = true → i = p
  frames : ∀ f ∈ s.stack, f.AtLevel p

theorem init_invL (p : Nat) : InvL p (init fun _ => p) := by
  refine ⟨fun _ => rfl, ?_, ?_⟩ <;> simp [init]

theorem invL_quiet {p : Nat} {s : State} {a : Act} (k : InvL p s) (hp : p < 27) : Quiet s a := by
  intro _ r rest hst i _ h2
  have h3 : r.priority = p + 1 := k.frames (.row r .next) (by rw [hst]; simp)
  refine Bool.eq_false_iff.2 fun hb => ?_
  have := k.bits i (by omega) hb
  omega

theorem invL_top {p : Nat} {s s' : State} {f : Frame} {rest : List Frame} (k : InvL p s) (hst : s.stack = f :: rest) (hpr : s'.prio = s.prio)
    (hb : ∀ i, i < 27 → (s'.mem 0).getLsbD i = true → (s.mem 0).getLsbD i = true ∨ i = p)
    (ht : s'.stack = rest ∨ ∃ g, s'.stack = g :: rest ∧ g.AtLevel p) : InvL p s' := by
  have hrest : ∀ g ∈ rest, g.AtLevel p := fun g hg => k.frames g (by rw [hst]; simp [hg])
  refine ⟨fun t => by rw [hpr]; exact k.prio t, ?_, ?_⟩
  · intro i hi h
    rcases hb i hi h with h | h
    · exact k.bits i hi h
    · exact h
  · rcases ht with e | ⟨g, e, hg⟩
    · rw [e]; exact hrest
    · rw [e]
      intro x hx
      rcases List.mem_cons.1 hx with rfl | hx
      · exact hg
      · exact hrest x hx

theorem advance_atLevel {count thr p : Nat} {r : Row} {cell bit : U32} (h : r.priority = p + 1) : (advance count r thr cell bit).AtLevel p := by
  unfold advance
  split
  · exact h
  · split <;> exact h

theorem frameStep_invL {count p : Nat} (hp : p < 27) {s s' : State} {f : Frame} {rest : List Frame} (i : InvAW count s) (k : InvL p s)
    (hst : s.stack = f :: rest) (h : frameStep count s rest f = some s') : InvL p s' := by
  have j := i.ok
  have hcur := i.cur
  rw [hst] at j hcur
  obtain ⟨j1, j2⟩ := j
  have hf := k.frames f (by rw [hst]; simp)
  have hcell : ∀ {t q x}, upd s.mem (cellIdx count t q) x 0 = s.mem 0 := by
    intro t q x; simp only [upd]; rw [if_neg (Ne.symm cellIdx_ne_zero)]
  cases f with
  | req thr pc =>
    cases pc with
    | load =>
      simp only [frameStep, Option.some.injEq] at h
      subst h
      exact invL_top k hst rfl (fun _ _ h => .inl h) (.inr ⟨_, rfl, k.prio thr⟩)
    | cell q =>
      simp only [frameStep, cellIdx_lt j1.1 j1.2, ↓reduceIte, Option.some.injEq] at h
      subst h
      refine invL_top k hst rfl (fun _ _ h => .inl ?_) ?_
      · dsimp only at h; rw [hcell] at h; exact h
      · dsimp only
        split
        · exact .inr ⟨_, rfl, hf⟩
        · exact .inl rfl
    | header q =>
      have : q = p := hf
      subst this
      simp only [frameStep, Option.some.injEq] at h
      subst h
      refine invL_top k hst rfl ?_ ?_
      · intro i hi hb
        simp only [upd, ↓reduceIte] at hb
        rw [getLsbD_or_bit (by omega)] at hb
        simpa using hb
      · dsimp only
        split
        · exact .inr ⟨_, rfl, trivial⟩
        · exact .inl rfl
  | start =>
    have hrun := running_leW j2
    have hcur' : (s.mem 0 >>> levels).toNat = running rest := hcur
    simp only [frameStep] at h
    rw [hcur', show levels = 27 from rfl] at h
    have sp := findPriority_spec (s.mem 0) (running rest) 27 hrun (by omega)
    split at h
    · simp only [Option.some.injEq] at h
      subst h
      exact invL_top k hst rfl (fun _ _ h => .inl h) (.inl rfl)
    · rename_i new q hq
      rw [hq] at sp
      obtain ⟨a1, a2, a3, a4, a5, a6⟩ := sp
      simp only [Option.some.injEq] at h
      subst h
      refine invL_top k hst rfl ?_ (.inr ⟨_, rfl, ?_⟩)
      · intro i hi hb
        simp only [upd, ↓reduceIte, a6 i hi, Bool.and_eq_true] at hb
        exact .inl hb.1
      · have := k.bits _ (by omega) a3
        show q = p + 1
        omega
  | row r pc =>
    obtain ⟨k1, k2, k3, k4, k6⟩ := j1
    cases pc with
    | load thr =>
      simp only [frameStep] at h
      split at h
      · split at h
        · split at h
          · simp only [Option.some.injEq] at h
            subst h
            refine invL_top k hst rfl (fun _ _ h => .inl h) (.inr ?_)
            dsimp only
            split
            · exact ⟨_, rfl, hf⟩
            · exact ⟨_, rfl, hf⟩
          · simp at h
        · simp only [Option.some.injEq] at h
          subst h
          exact invL_top k hst rfl (fun _ _ h => .inl h) (.inr ⟨_, rfl, hf⟩)
      · simp at h
    | bits thr cell bit =>
      obtain ⟨ht, hb, l3⟩ := k6
      have hi : r.ptr ≠ 0 := by
        have := @rowAt_ne_zero count r.priority
        omega
      simp only [frameStep] at h
      split at h
      · split at h
        · simp only [Option.some.injEq] at h
          subst h
          refine invL_top k hst rfl (fun _ _ h => .inl ?_) (.inr ⟨_, rfl, hf⟩)
          simp only [upd, if_neg (Ne.symm hi)] at h
          exact h
        · simp at h
      · simp only [Option.some.injEq] at h
        subst h
        exact invL_top k hst rfl (fun _ _ h => .inl h) (.inr ⟨_, rfl, advance_atLevel hf⟩)
    | call thr cell bit c =>
      simp only [frameStep] at h
      split at h <;> (simp only [Option.some.injEq] at h; subst h)
      · exact invL_top k hst rfl (fun _ _ h => .inl h) (.inr ⟨_, rfl, hf⟩)
      · exact invL_top k hst rfl (fun _ _ h => .inl h) (.inr ⟨_, rfl, advance_atLevel hf⟩)
    | next =>
      rw [next_quiet i hst (invL_quiet k hp)] at h
      simp only [Option.some.injEq] at h
      subst h
      refine invL_top k hst rfl (fun i hi h => .inl ?_) (.inl rfl)
      simp only [upd, ↓reduceIte, lvl_setPriority hi] at h
      exact h
  | clear thr q =>
    cases q with
    | none =>
      simp only [frameStep, Option.some.injEq] at h
      subst h
      exact invL_top k hst rfl (fun _ _ h => .inl h) (.inr ⟨_, rfl, trivial⟩)
    | some q =>
      simp only [frameStep, cellIdx_lt j1.1 (j1.2 q rfl), ↓reduceIte, Option.some.injEq] at h
      subst h
      refine invL_top k hst rfl (fun _ _ h => .inl ?_) (.inl rfl)
      dsimp only at h; rw [hcell] at h; exact h
  | plain thr c =>
    simp only [frameStep] at h
    split at h <;> (simp only [Option.some.injEq] at h; subst h)
    · exact invL_top k hst rfl (fun _ _ h => .inl h) (.inr ⟨_, rfl, trivial⟩)
    · exact invL_top k hst rfl (fun _ _ h => .inl h) (.inl rfl)

theorem step_invL {count p : Nat} (hp : p < 27) {s s' : State} {a : Act} (ha : ∀ t q, a = .setPrio t q → q = p) (i : InvAW count s) (k : InvL p s)
    (h : step count s a = some s') : InvL p s' := by
  cases a <;> simp only [step] at h
  case step =>
    split at h
    · simp only [Option.some.injEq] at h; exact h ▸ k
    · rename_i f rest hst; exact frameStep_invL hp i k hst h
  case ret =>
    simp only [Option.some.injEq] at h
    subst h
    unfold ret
    split <;> rename_i hst
    · have hf := k.frames _ (by rw [hst]; exact List.mem_cons_self ..)
      exact invL_top k hst rfl (fun _ _ h => .inl h) (.inr ⟨_, rfl, hf⟩)
    · exact invL_top k hst rfl (fun _ _ h => .inl h) (.inr ⟨_, rfl, trivial⟩)
    · exact k
  case setPrio t q =>
    have := ha t q rfl
    subst this
    split at h
    · simp only [Option.some.injEq] at h
      subst h
      refine ⟨?_, k.bits, k.frames⟩
      intro u
      simp only [upd]
      split
      · rfl
      · exact k.prio u
    · simp at h
  all_goals
    simp only [Option.some.injEq] at h
    try split at h
    all_goals subst h
    all_goals first
      | exact k
      | (refine ⟨k.prio, k.bits, ?_⟩
         intro f hf
         rcases List.mem_cons.1 hf with rfl | hf
         · trivial
         · exact k.frames f hf)

/-- With all threads at one level every history is quiet. -/
theorem always_quiet {count p : Nat} (hp : p < 27) : ∀ {acts : List Act} {s : State}, (∀ t q, .setPrio t q ∈ acts → q = p) → InvAW count s → InvL p s →
    Always count Quiet s acts
  | [], _, _, _, _ => trivial
  | a :: as, s, ha, i, k => by
    have hq := invL_quiet (a := a) k hp
    refine ⟨hq, fun m hm => ?_⟩
    exact always_quiet hp (fun t q h => ha t q (by simp [h])) (step_quiet_invA i hq hm) (step_invL hp (fun t q e => ha t q (by simp [e])) i k hm)

end Verif.Soft
