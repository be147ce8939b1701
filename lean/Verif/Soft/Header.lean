import Verif.Soft.Lemmas
/-! # Invariants of the software threads: the header, for pools of every size -/
namespace Verif.Soft

/-- The search for threads is at a thread of the pool, and at a cell of the array once the
cell was read. -/
def RowPc.InPool (count ptr : Nat) : RowPc → Prop
  | .load t => t < count
  | .bits t _ _ => t < count ∧ ptr < pendingSize count
  | .call t _ _ _ => t < count ∧ ptr < pendingSize count
  | .next => 0 < count

/-- Facts about a call in progress, above the calls `st`, that do not depend on the pool size. -/
def Frame.OkH (count : Nat) (st : List Frame) : Frame → Prop
  | .req t .load => t < count
  | .req t (.cell p) => t < count ∧ p < 27
  | .req t (.header p) => t < count ∧ p < 27
  | .start => True
  | .row r pc => r.prev = running st ∧ r.prev < r.priority ∧ r.priority ≤ 27 ∧ r.ptr ≠ 0 ∧ pc.InPool count r.ptr
  | .clear t none => t < count
  | .clear t (some p) => t < count ∧ p < 27
  | .plain _ _ => True

/-- Facts about the stack. -/
def StackOkH (count : Nat) : List Frame → Prop
  | [] => True
  | f :: st => f.OkH count st ∧ StackOkH count st

theorem running_leH {count : Nat} : ∀ {st : List Frame}, StackOkH count st → running st ≤ 27
  | [], _ => by simp [running]
  | f :: st, h => by
    have ih := running_leH h.2
    cases f <;> simp only [running, Frame.level, Option.getD] <;> first | exact ih | exact h.1.2.2.1

/-- The invariant of the header. -/
structure InvH (count : Nat) (s : State) : Prop where
  cur : recorded s = running s.stack
  ok : StackOkH count s.stack
  pr : ∀ t, s.prio t < 27
  hb : ∀ i, i < 27 → (s.mem 0).getLsbD i = true → 0 < count

theorem init_invH (count : Nat) {prio : Nat → Nat} (h : ∀ t, prio t < 27) : InvH count (init prio) := by
  refine ⟨?_, trivial, h, ?_⟩
  · simp [recorded, init, running]
  · intro i _; simp [init]

theorem cellIdx_pos (count t p : Nat) : cellIdx count t p ≠ 0 := by rw [cellIdx_eq]; omega

theorem advance_okH {count thr : Nat} {r : Row} {cell bit : U32} {st : List Frame} {pc : RowPc} (h : (Frame.row r pc).OkH count st) (ht : thr < count ∧ r.ptr < pendingSize count) :
    (advance count r thr cell bit).OkH count st ∧ (advance count r thr cell bit).level = some r.priority := by
  unfold advance
  obtain ⟨ht, hp⟩ := ht
  split
  · exact ⟨⟨h.1, h.2.1, h.2.2.1, h.2.2.2.1, by simp only [RowPc.InPool]; omega⟩, rfl⟩
  · have : thr + 1 < count := by omega
    split
    · exact ⟨⟨h.1, h.2.1, h.2.2.1, Nat.succ_ne_zero _, this⟩, rfl⟩
    · exact ⟨⟨h.1, h.2.1, h.2.2.1, h.2.2.2.1, this, hp⟩, rfl⟩

theorem frameStep_invH {count : Nat} {s s' : State} {f : Frame} {rest : List Frame} (i : InvH count s)
    (hst : s.stack = f :: rest) (h : frameStep count s rest f = some s') : InvH count s' := by
  obtain ⟨i1, i2, i3, i4⟩ := i
  rw [hst] at i1 i2
  obtain ⟨j1, j2⟩ := i2
  cases f with
  | req thr pc =>
    cases pc with
    | load =>
      simp only [frameStep, Option.some.injEq] at h
      subst h
      exact ⟨i1, ⟨⟨j1, i3 thr⟩, j2⟩, i3, i4⟩
    | cell p =>
      simp only [frameStep] at h
      split at h
      · simp only [Option.some.injEq] at h
        have hi := cellIdx_pos count thr p
        subst h
        refine ⟨?_, ?_, i3, ?_⟩
        · simp only [recorded, upd]
          rw [if_neg (Ne.symm hi)]
          refine Eq.trans i1 ?_
          split <;> rfl
        · dsimp only
          split
          · exact ⟨j1, j2⟩
          · exact j2
        · intro k hk
          simp only [upd, if_neg (Ne.symm hi)]
          exact i4 k hk
      · simp at h
    | header p =>
      simp only [frameStep, Option.some.injEq] at h
      subst h
      refine ⟨?_, ?_, i3, fun _ _ _ => Nat.zero_lt_of_lt j1.1⟩
      · simp only [recorded, upd, ↓reduceIte]
        rw [cur_or_bit j1.2]
        refine Eq.trans i1 ?_
        split <;> rfl
      · dsimp only
        split
        · exact ⟨trivial, j2⟩
        · exact j2
  | start =>
    simp only [frameStep] at h
    have hrun := running_leH j2
    have hcur : (s.mem 0 >>> levels).toNat = running rest := i1
    rw [hcur] at h
    have sp := findPriority_spec (s.mem 0) (running rest) 27 hrun (by omega)
    rw [show levels = 27 from rfl] at h
    split at h
    · simp only [Option.some.injEq] at h
      subst h
      exact ⟨i1, j2, i3, i4⟩
    · rename_i new p hf
      rw [hf] at sp
      obtain ⟨a1, a2, a3, a4, a5, a6⟩ := sp
      simp only [Option.some.injEq] at h
      subst h
      have h0 := i4 _ (by omega) a3
      refine ⟨?_, ⟨⟨rfl, a1, a2, ?_, h0⟩, j2⟩, i3, fun _ _ _ => h0⟩
      · simp only [recorded, upd, ↓reduceIte, a5, running, Frame.level, Option.getD]
      · simp only; omega
  | row r pc =>
    obtain ⟨k2, k3, k4, k5, k6⟩ := j1
    cases pc with
    | load thr =>
      simp only [frameStep] at h
      split at h
      · split at h
        · split at h
          · simp only [Option.some.injEq] at h
            subst h
            refine ⟨?_, ?_, i3, i4⟩
            · dsimp only
              refine Eq.trans i1 ?_
              split <;> rfl
            · dsimp only
              split
              · exact ⟨⟨k2, k3, k4, k5, Nat.zero_lt_of_lt k6⟩, j2⟩
              · exact ⟨⟨k2, k3, k4, Nat.succ_ne_zero _, by simp only [RowPc.InPool]; omega⟩, j2⟩
          · simp at h
        · simp only [Option.some.injEq] at h
          subst h
          exact ⟨i1, ⟨⟨k2, k3, k4, k5, k6, by assumption⟩, j2⟩, i3, i4⟩
      · simp at h
    | bits thr cell bit =>
      simp only [frameStep] at h
      split at h
      · split at h
        · simp only [Option.some.injEq] at h
          subst h
          refine ⟨?_, ⟨⟨k2, k3, k4, k5, k6⟩, j2⟩, i3, fun _ _ _ => Nat.zero_lt_of_lt k6.1⟩
          simp only [recorded, upd]
          rw [if_neg (Ne.symm k5)]
          exact i1
        · simp at h
      · simp only [Option.some.injEq] at h
        subst h
        have ha := advance_okH (count := count) (thr := thr) (cell := cell) (bit := bit) (pc := .next) (st := rest) (r := r) ⟨k2, k3, k4, k5, Nat.zero_lt_of_lt k6.1⟩ k6
        refine ⟨?_, ⟨ha.1, j2⟩, i3, i4⟩
        simp only [running, ha.2, Option.getD]
        exact i1
    | call thr cell bit c =>
      have ha := advance_okH (count := count) (thr := thr) (cell := cell) (bit := bit) (pc := .next) (st := rest) (r := r) ⟨k2, k3, k4, k5, Nat.zero_lt_of_lt k6.1⟩ k6
      simp only [frameStep] at h
      split at h <;> (simp only [Option.some.injEq] at h; subst h)
      · exact ⟨i1, ⟨⟨k2, k3, k4, k5, k6⟩, j2⟩, i3, i4⟩
      · refine ⟨?_, ⟨ha.1, j2⟩, i3, i4⟩
        simp only [running, ha.2, Option.getD]
        exact i1
    | next =>
      simp only [frameStep, Option.some.injEq] at h
      have sp := findPriority_spec (s.mem 0) r.prev (r.priority - 1) (by omega) (by omega)
      cases hf : findPriority (s.mem 0) r.prev (r.priority - 1) with
      | mk new next =>
        rw [hf] at sp h
        dsimp only at h
        cases new with
        | none =>
          simp only at sp
          simp only [sp.1, ↓reduceIte, Option.getD] at h
          subst h
          refine ⟨?_, j2, i3, fun _ _ _ => k6⟩
          simp only [recorded, upd, ↓reduceIte]
          rw [cur_setPriority (by omega), k2]
        | some new =>
          simp only at sp
          obtain ⟨a1, a2, a3, a4, a5, a6⟩ := sp
          have hne : next ≠ r.prev := by omega
          have hne2 : next ≠ r.priority := by omega
          simp only [hne, hne2, ne_eq, not_false_eq_true, ↓reduceIte, Option.getD] at h
          subst h
          refine ⟨?_, ⟨⟨k2, a1, ?_, ?_, k6⟩, j2⟩, i3, fun _ _ _ => k6⟩
          · simp only [recorded, upd, ↓reduceIte, a5, running, Frame.level, Option.getD]
          · simp only; omega
          · simp only; omega
  | clear thr p =>
    cases p with
    | none =>
      simp only [frameStep, Option.some.injEq] at h
      subst h
      exact ⟨i1, ⟨⟨j1, i3 thr⟩, j2⟩, i3, i4⟩
    | some p =>
      simp only [frameStep] at h
      split at h
      · have hi := cellIdx_pos count thr p
        simp only [Option.some.injEq] at h
        subst h
        refine ⟨?_, j2, i3, fun _ _ _ => Nat.zero_lt_of_lt j1.1⟩
        simp only [recorded, upd]
        rw [if_neg (Ne.symm hi)]
        exact i1
      · simp at h
  | plain thr c =>
    simp only [frameStep] at h
    split at h <;> (simp only [Option.some.injEq] at h; subst h)
    · exact ⟨i1, ⟨trivial, j2⟩, i3, i4⟩
    · exact ⟨i1, j2, i3, i4⟩

theorem ret_running (st : List Frame) : running (ret st) = running st := by
  unfold ret; split <;> rfl

theorem ret_okH {count : Nat} {st : List Frame} (h : StackOkH count st) : StackOkH count (ret st) := by
  unfold ret
  split
  · exact ⟨h.1, h.2⟩
  · exact ⟨h.1, h.2⟩
  · exact h

theorem step_invH {count : Nat} {s s' : State} {a : Act} (i : InvH count s) (h : step count s a = some s') : InvH count s' := by
  cases a <;> simp only [step] at h
  case step =>
    split at h
    · simp only [Option.some.injEq] at h; exact h ▸ i
    · rename_i f rest hst; exact frameStep_invH i hst h
  case ret =>
    simp only [Option.some.injEq] at h
    subst h
    exact ⟨by rw [ret_running]; exact i.cur, ret_okH i.ok, i.pr, i.hb⟩
  case setPrio =>
    split at h
    · simp only [Option.some.injEq] at h
      subst h
      refine ⟨i.cur, i.ok, ?_, i.hb⟩
      intro t
      simp only [upd]
      split
      · assumption
      · exact i.pr t
    · simp at h
  all_goals
    simp only [Option.some.injEq] at h
    try split at h
    all_goals subst h
    all_goals first
      | exact i
      | exact ⟨i.cur, ⟨by assumption, i.ok⟩, i.pr, i.hb⟩
      | exact ⟨i.cur, ⟨trivial, i.ok⟩, i.pr, i.hb⟩

theorem run_invH {count : Nat} : ∀ {acts : List Act} {s s' : State}, InvH count s → run count s acts = some s' → InvH count s'
  | [], s, s', i, h => by simp only [run, Option.some.injEq] at h; exact h ▸ i
  | a :: as, s, s', i, h => by
    simp only [run] at h
    split at h
    · simp at h
    · rename_i m hm
      exact run_invH (step_invH i hm) h

/-- The accesses that can be out of bounds, or overflow the `u16` index: those of the search
for the threads of a level. -/
theorem step_noneH {count : Nat} {s : State} {a : Act} (i : InvH count s) (hp : ∀ t p, a = .setPrio t p → p < 27) (h : step count s a = none) :
    a = .step ∧ ∃ r thr rest, s.stack = .row r (.load thr) :: rest ∧ (pendingSize count ≤ r.ptr ∨ thr < count ∧ 65536 ≤ thr + 32) := by
  cases a <;> simp only [step, reduceCtorEq] at h
  case setPrio t p =>
    have : p < levels := hp t p rfl
    rw [if_pos this] at h
    simp at h
  case step =>
    refine ⟨rfl, ?_⟩
    split at h
    · simp at h
    · rename_i f rest hst
      have j := i.ok
      rw [hst] at j
      replace j := j.1
      cases f with
      | req thr pc =>
        cases pc <;> simp only [frameStep, reduceCtorEq] at h
        rw [if_pos (cellIdx_lt j.1 j.2)] at h
        simp at h
      | start => simp only [frameStep] at h; split at h <;> simp at h
      | row r pc =>
        cases pc with
        | load thr =>
          refine ⟨r, thr, rest, hst, ?_⟩
          simp only [frameStep] at h
          split at h
          · split at h
            · split at h
              · simp at h
              · rename_i e
                rw [show (1 <<< colBits) = 32 from rfl] at e
                exact .inr ⟨j.2.2.2.2, by omega⟩
            · simp at h
          · exact .inl (by omega)
        | bits thr cell bit =>
          simp only [frameStep] at h
          rw [if_pos j.2.2.2.2.2] at h
          split at h <;> simp at h
        | call thr cell bit c => simp only [frameStep] at h; split at h <;> simp at h
        | next => simp [frameStep] at h
      | clear thr p =>
        cases p with
        | none => simp [frameStep] at h
        | some p =>
          simp only [frameStep] at h
          rw [if_pos (cellIdx_lt j.1 j.2)] at h
          simp at h
      | plain thr c => simp only [frameStep] at h; split at h <;> simp at h

end Verif.Soft
