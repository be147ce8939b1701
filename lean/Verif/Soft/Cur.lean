import Verif.Soft.Inv
/-! # Invariants of the software threads: the current thread index -/
namespace Verif.Soft

/-- The `Thread::call` of a call in progress. -/
def Frame.call : Frame → Option (Nat × Call)
  | .row _ (.call thr _ _ c) => some (thr, c)
  | .plain thr c => some (thr, c)
  | _ => none

/-- The index stored by a `Thread::call`, if it has stored it and not yet restored. -/
def stored : Option (Nat × Call) → Option Nat
  | some (thr, .body _) => some (thr + 1)
  | some (thr, .restore _) => some (thr + 1)
  | _ => none

/-- The index that should be current. -/
def curOf : List Frame → Nat
  | [] => 0
  | f :: st => (stored f.call).getD (curOf st)

/-- The index saved by a `Thread::call`. -/
def saved : Option (Nat × Call) → Option Nat
  | some (_, .store p) => some p
  | some (_, .body p) => some p
  | some (_, .restore p) => some p
  | _ => none

/-- Every saved index is the one that should be current below. -/
def SavedOk : List Frame → Prop
  | [] => True
  | f :: st => (∀ p, saved f.call = some p → p = curOf st) ∧ SavedOk st

/-- The invariant of the current index. -/
structure InvC (s : State) : Prop where
  cur : s.current = curOf s.stack
  ok : SavedOk s.stack

theorem init_invC (prio : Nat → Nat) : InvC (init prio) := ⟨rfl, trivial⟩

theorem advance_call (count : Nat) (r : Row) (thr : Nat) (cell bit : U32) : (advance count r thr cell bit).call = none := by
  unfold advance; split
  · rfl
  · split <;> rfl

/-- The call on top was replaced by one that is in no `Thread::call`. -/
theorem invC_none {s s' : State} {f : Frame} {rest : List Frame} (i : InvC s) (hst : s.stack = f :: rest) (hf : stored f.call = none)
    (hc : s'.current = s.current) (h : s'.stack = rest ∨ ∃ g, s'.stack = g :: rest ∧ g.call = none) : InvC s' := by
  obtain ⟨i1, i2⟩ := i
  rw [hst] at i1 i2
  simp only [curOf, hf, Option.getD] at i1
  rcases h with h | ⟨g, h, hg⟩
  · exact ⟨by rw [hc, h]; exact i1, by rw [h]; exact i2.2⟩
  · constructor
    · rw [hc, h]; simp only [curOf, hg, stored, Option.getD]; exact i1
    · rw [h]; exact ⟨by simp [hg, saved], i2.2⟩

/-- A step of a `Thread::call`. -/
theorem invC_call {s s' : State} {f : Frame} {rest : List Frame} (i : InvC s) (hst : s.stack = f :: rest) {thr : Nat} {c : Call}
    (hf : f.call = some (thr, c)) (hc : s'.current = (callStep s.current thr c).1)
    (h : match (callStep s.current thr c).2 with
      | none => s'.stack = rest ∨ ∃ g, s'.stack = g :: rest ∧ g.call = none
      | some c' => ∃ g, s'.stack = g :: rest ∧ g.call = some (thr, c')) : InvC s' := by
  obtain ⟨i1, i2⟩ := i
  rw [hst] at i1 i2
  obtain ⟨i2, i3⟩ := i2
  simp only [curOf, hf] at i1
  rw [hf] at i2
  cases c with
  | load =>
    simp only [callStep] at hc h
    obtain ⟨g, h, hg⟩ := h
    simp only [stored, Option.getD] at i1
    exact ⟨by rw [hc, h]; simp only [curOf, hg, stored, Option.getD]; exact i1,
      by rw [h]; exact ⟨by intro p hp; simp only [hg, saved, Option.some.injEq] at hp; rw [← hp]; exact i1, i3⟩⟩
  | store p =>
    simp only [callStep] at hc h
    obtain ⟨g, h, hg⟩ := h
    exact ⟨by rw [hc, h]; simp only [curOf, hg, stored, Option.getD],
      by rw [h]; exact ⟨by intro q hq; rw [hg] at hq; exact i2 q hq, i3⟩⟩
  | body p =>
    simp only [callStep] at hc h
    obtain ⟨g, h, hg⟩ := h
    simp only [stored, Option.getD] at i1
    exact ⟨by rw [hc, h]; simp only [curOf, hg, stored, Option.getD]; exact i1,
      by rw [h]; exact ⟨by intro q hq; rw [hg] at hq; exact i2 q hq, i3⟩⟩
  | restore p =>
    simp only [callStep] at hc h
    have hp := i2 p rfl
    rcases h with h | ⟨g, h, hg⟩
    · exact ⟨by rw [hc, h]; exact hp, by rw [h]; exact i3⟩
    · exact ⟨by rw [hc, h]; simp only [curOf, hg, stored, Option.getD]; exact hp, by rw [h]; exact ⟨by simp [hg, saved], i3⟩⟩

theorem frameStep_invC {count : Nat} {s s' : State} {f : Frame} {rest : List Frame} (i : InvC s)
    (hst : s.stack = f :: rest) (h : frameStep count s rest f = some s') : InvC s' := by
  cases f with
  | req thr pc =>
    cases pc with
    | load =>
      simp only [frameStep, Option.some.injEq] at h; subst h
      exact invC_none i hst rfl rfl (.inr ⟨_, rfl, rfl⟩)
    | cell p =>
      simp only [frameStep] at h
      split at h
      · simp only [Option.some.injEq] at h; subst h
        refine invC_none i hst rfl rfl ?_
        dsimp only; split
        · exact .inr ⟨_, rfl, rfl⟩
        · exact .inl rfl
      · simp at h
    | header p =>
      simp only [frameStep, Option.some.injEq] at h; subst h
      refine invC_none i hst rfl rfl ?_
      dsimp only; split
      · exact .inr ⟨_, rfl, rfl⟩
      · exact .inl rfl
  | start =>
    simp only [frameStep] at h
    split at h <;> (simp only [Option.some.injEq] at h; subst h)
    · exact invC_none i hst rfl rfl (.inl rfl)
    · exact invC_none i hst rfl rfl (.inr ⟨_, rfl, rfl⟩)
  | row r pc =>
    cases pc with
    | load thr =>
      simp only [frameStep] at h
      split at h
      · split at h
        · split at h
          · simp only [Option.some.injEq] at h; subst h
            refine invC_none i hst rfl rfl ?_
            dsimp only; split <;> exact .inr ⟨_, rfl, rfl⟩
          · simp at h
        · simp only [Option.some.injEq] at h; subst h
          exact invC_none i hst rfl rfl (.inr ⟨_, rfl, rfl⟩)
      · simp at h
    | bits thr cell bit =>
      simp only [frameStep] at h
      split at h
      · split at h
        · simp only [Option.some.injEq] at h; subst h
          obtain ⟨i1, i2⟩ := i
          rw [hst] at i1 i2
          exact ⟨i1, ⟨by intro p hp; simp [Frame.call, saved] at hp, i2.2⟩⟩
        · simp at h
      · simp only [Option.some.injEq] at h; subst h
        exact invC_none i hst rfl rfl (.inr ⟨_, rfl, advance_call ..⟩)
    | call thr cell bit c =>
      simp only [frameStep] at h
      split at h <;> (rename_i hcs; simp only [Option.some.injEq] at h; subst h)
      · refine invC_call i hst (thr := thr) (c := c) rfl (by rw [hcs]) ?_
        rw [hcs]
        exact ⟨_, rfl, rfl⟩
      · refine invC_call i hst (thr := thr) (c := c) rfl (by rw [hcs]) ?_
        rw [hcs]
        exact .inr ⟨_, rfl, advance_call ..⟩
    | next =>
      simp only [frameStep, Option.some.injEq] at h; subst h
      refine invC_none i hst rfl rfl ?_
      dsimp only
      split
      · exact .inl rfl
      · split <;> exact .inr ⟨_, rfl, rfl⟩
  | clear thr p =>
    cases p with
    | none =>
      simp only [frameStep, Option.some.injEq] at h; subst h
      exact invC_none i hst rfl rfl (.inr ⟨_, rfl, rfl⟩)
    | some p =>
      simp only [frameStep] at h
      split at h
      · simp only [Option.some.injEq] at h; subst h
        exact invC_none i hst rfl rfl (.inl rfl)
      · simp at h
  | plain thr c =>
    simp only [frameStep] at h
    split at h <;> (rename_i hcs; simp only [Option.some.injEq] at h; subst h)
    · refine invC_call i hst (thr := thr) (c := c) rfl (by rw [hcs]) ?_
      rw [hcs]
      exact ⟨_, rfl, rfl⟩
    · refine invC_call i hst (thr := thr) (c := c) rfl (by rw [hcs]) ?_
      rw [hcs]
      exact .inl rfl

theorem step_invC {count : Nat} {s s' : State} {a : Act} (i : InvC s) (h : step count s a = some s') : InvC s' := by
  cases a <;> simp only [step] at h
  case step =>
    split at h
    · simp only [Option.some.injEq] at h; exact h ▸ i
    · rename_i f rest hst; exact frameStep_invC i hst h
  case ret =>
    simp only [Option.some.injEq] at h
    subst h
    obtain ⟨i1, i2⟩ := i
    unfold ret
    split <;> rename_i hst
    · rw [hst] at i1 i2
      exact ⟨i1, ⟨fun p hp => i2.1 p hp, i2.2⟩⟩
    · rw [hst] at i1 i2
      exact ⟨i1, ⟨fun p hp => i2.1 p hp, i2.2⟩⟩
    · exact ⟨i1, i2⟩
  case setPrio =>
    split at h
    · simp only [Option.some.injEq] at h; subst h; exact ⟨i.cur, i.ok⟩
    · simp at h
  all_goals
    simp only [Option.some.injEq] at h
    try split at h
    all_goals subst h
    all_goals first
      | exact i
      | exact ⟨i.cur, ⟨by intro p hp; simp [Frame.call, saved] at hp, i.ok⟩⟩

end Verif.Soft
