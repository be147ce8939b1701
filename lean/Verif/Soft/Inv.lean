import Verif.Soft.Lemmas
/-! # Invariants of the software threads: the stack -/
namespace Verif.Soft

theorem rowSize_small {count : Nat} (h0 : 0 < count) (h : count ≤ 32) : rowSize count = 1 := by
  rw [rowSize_eq]
  by_cases e : count = 32
  · subst e; rfl
  · have : count / 32 = 0 := by omega
    have : count % 32 = count := by omega
    split <;> omega

theorem cellIdx_small {count thr p : Nat} (h : thr < count) (hc : count ≤ 32) (hp : p < 27) : cellIdx count thr p = 27 - p := by
  rw [cellIdx_eq, rowSize_small (by omega) hc]
  omega

theorem pendingSize_small {count : Nat} (h0 : 0 < count) (h : count ≤ 32) : pendingSize count = 28 := by
  rw [pendingSize, rowSize_small h0 h]; rfl

theorem pendingBit_small {thr : Nat} (h : thr < 32) : pendingBit thr = 1#32 <<< thr := by
  rw [pendingBit_eq, Nat.mod_eq_of_lt h]

/-- Facts about a scheduler loop. -/
def RowPc.Ok (count : Nat) : RowPc → Prop
  | .load thr => thr = 0
  | .bits thr _ bit => thr < count ∧ bit = 1#32 <<< thr
  | .call thr _ bit _ => thr < count ∧ bit = 1#32 <<< thr
  | .next => True

/-- Facts about a call in progress, above the calls `st`. -/
def Frame.Ok (count : Nat) (st : List Frame) : Frame → Prop
  | .req thr .load => thr < count
  | .req thr (.cell p) => thr < count ∧ p < 27
  | .req thr (.header p) => thr < count ∧ p < 27
  | .start => True
  | .row r pc => 0 < count ∧ r.prev = running st ∧ r.prev < r.priority ∧ r.priority ≤ 27 ∧ r.ptr = 28 - r.priority ∧ pc.Ok count
  | .clear thr p => thr < count ∧ ∀ q, p = some q → q < 27
  | .plain thr _ => thr < count

/-- Facts about the stack. -/
def StackOk (count : Nat) : List Frame → Prop
  | [] => True
  | f :: st => f.Ok count st ∧ StackOk count st

theorem running_le {count : Nat} : ∀ {st : List Frame}, StackOk count st → running st ≤ 27
  | [], _ => by simp [running]
  | f :: st, h => by
    have ih := running_le h.2
    cases f <;> simp only [running, Frame.level, Option.getD] <;> first | exact ih | exact h.1.2.2.2.1

theorem level_le {count : Nat} : ∀ {st : List Frame}, StackOk count st → ∀ f ∈ st, ∀ p, f.level = some p → p ≤ running st
  | f :: st, h, g, hg, p, hp => by
    rcases List.mem_cons.1 hg with rfl | hg
    · simp [running, hp]
    · have ih := level_le h.2 g hg p hp
      cases f with
      | row r pc =>
        simp only [running, Frame.level, Option.getD]
        have h1 := h.1.2.1
        have h2 := h.1.2.2.1
        omega
      | _ => exact ih

/-- The invariant of the stack and the header. -/
structure InvA (count : Nat) (s : State) : Prop where
  cur : recorded s = running s.stack
  ok : StackOk count s.stack
  pr : ∀ t, s.prio t < 27
  hb : ∀ i, i < 27 → (s.mem 0).getLsbD i = true → 0 < count

theorem init_invA (count : Nat) {prio : Nat → Nat} (h : ∀ t, prio t < 27) : InvA count (init prio) := by
  constructor
  · simp [recorded, init, running]
  · trivial
  · exact h
  · intro i _; simp [init]

theorem running_req {t : Nat} {pc : Req} {st : List Frame} : running (.req t pc :: st) = running st := rfl

theorem advance_small {count thr : Nat} (r : Row) (cell : U32) (hc : count ≤ 32) (ht : thr < count) :
    advance count r thr cell (1#32 <<< thr) = if thr + 1 = count then .row r .next else .row r (.bits (thr + 1) cell (1#32 <<< (thr + 1))) := by
  unfold advance
  split
  · rfl
  · have hs : (1#32 <<< thr) <<< 1 = 1#32 <<< (thr + 1) := by
      rw [← BitVec.shiftLeft_add]
    have hne : ¬ ((1#32 <<< thr) <<< 1 = 0) := by
      rw [hs]
      intro h
      have := congrArg (fun y => y.getLsbD (thr + 1)) h
      simp only [getLsbD_one_shift (show thr + 1 < 32 by omega), decide_true] at this
      simp at this
    rw [if_neg hne, hs]

theorem advance_ok {count thr : Nat} {r : Row} {cell bit : U32} {st : List Frame} (hc : count ≤ 32) {pc : RowPc}
    (h : (Frame.row r pc).Ok count st) (ht : thr < count ∧ bit = 1#32 <<< thr) :
    (advance count r thr cell bit).Ok count st ∧ (advance count r thr cell bit).level = some r.priority := by
  rw [ht.2, advance_small r cell hc ht.1]
  obtain ⟨a, b, c, d, e, _⟩ := h
  split
  · exact ⟨⟨a, b, c, d, e, trivial⟩, rfl⟩
  · have := ht.1
    exact ⟨⟨a, b, c, d, e, by omega, rfl⟩, rfl⟩

theorem recorded_upd {s : State} {i : Nat} {x : U32} {st : List Frame} {l : List Event} (h : i ≠ 0) :
    recorded { s with mem := upd s.mem i x, stack := st, log := l } = recorded s := by
  simp only [recorded, upd]
  rw [if_neg (Ne.symm h)]

theorem frameStep_invA {count : Nat} (hc : count ≤ 32) {s s' : State} {f : Frame} {rest : List Frame} (i : InvA count s)
    (hst : s.stack = f :: rest) (h : frameStep count s rest f = some s') : InvA count s' := by
  obtain ⟨i1, i2, i3, i4⟩ := i
  rw [hst] at i1 i2
  obtain ⟨j1, j2⟩ := i2
  cases f with
  | req thr pc =>
    cases pc with
    | load =>
      simp only [frameStep, Option.some.injEq] at h
      subst h
      exact ⟨i1, ⟨⟨j1, i3 thr⟩, j2⟩, i3, i4⟩
    | cell p =>
      simp only [frameStep] at h
      split at h
      · simp only [Option.some.injEq] at h
        have hi : cellIdx count thr p ≠ 0 := by rw [cellIdx_eq]; omega
        subst h
        refine ⟨?_, ?_, i3, ?_⟩
        · simp only [recorded, upd]
          rw [if_neg (Ne.symm hi)]
          refine Eq.trans i1 ?_
          split <;> rfl
        · dsimp only
          split
          · exact ⟨j1, j2⟩
          · exact j2
        · intro k hk
          simp only [upd, if_neg (Ne.symm hi)]
          exact i4 k hk
      · simp at h
    | header p =>
      simp only [frameStep, Option.some.injEq] at h
      subst h
      refine ⟨?_, ?_, i3, ?_⟩
      · simp only [recorded, upd, ↓reduceIte]
        rw [cur_or_bit j1.2]
        refine Eq.trans i1 ?_
        split <;> rfl
      · dsimp only
        split
        · exact ⟨trivial, j2⟩
        · exact j2
      · intro k hk _
        have := j1.1
        omega
  | start =>
    simp only [frameStep] at h
    have hrun := running_le j2
    have hcur : (s.mem 0 >>> levels).toNat = running rest := i1
    rw [hcur] at h
    have sp := findPriority_spec (s.mem 0) (running rest) 27 hrun (by omega)
    rw [show levels = 27 from rfl] at h
    split at h
    · simp only [Option.some.injEq] at h
      subst h
      exact ⟨i1, j2, i3, i4⟩
    · rename_i new p hf
      rw [hf] at sp
      obtain ⟨a1, a2, a3, a4, a5, a6⟩ := sp
      simp only [Option.some.injEq] at h
      subst h
      have h0 := i4 _ (by omega) a3
      refine ⟨?_, ⟨⟨h0, rfl, a1, a2, ?_, rfl⟩, j2⟩, i3, ?_⟩
      · simp only [recorded, upd, ↓reduceIte, a5, running, Frame.level, Option.getD]
      · rw [rowSize_small h0 hc]; simp only; omega
      · intro k hk _; exact h0
  | row r pc =>
    obtain ⟨k1, k2, k3, k4, k5, k6⟩ := j1
    cases pc with
    | load thr =>
      simp only [frameStep] at h
      split at h
      · split at h
        · split at h
          · simp only [Option.some.injEq] at h
            subst h
            have : ¬ (thr + (1 <<< colBits) < count) := by simp [colBits]; omega
            have hge : thr + (1 <<< colBits) ≥ count := by omega
            simp only [hge, ↓reduceIte]
            exact ⟨i1, ⟨⟨k1, k2, k3, k4, k5, trivial⟩, j2⟩, i3, i4⟩
          · simp at h
        · simp only [Option.some.injEq] at h
          subst h
          refine ⟨i1, ⟨⟨k1, k2, k3, k4, k5, ?_⟩, j2⟩, i3, i4⟩
          have : thr = 0 := k6
          subst this
          exact ⟨k1, by rfl⟩
      · simp at h
    | bits thr cell bit =>
      simp only [frameStep] at h
      split at h
      · split at h
        · simp only [Option.some.injEq] at h
          have hi : r.ptr ≠ 0 := by omega
          subst h
          refine ⟨?_, ⟨⟨k1, k2, k3, k4, k5, k6⟩, j2⟩, i3, ?_⟩
          · simp only [recorded, upd]
            rw [if_neg (Ne.symm hi)]
            exact i1
          · intro k hk
            simp only [upd, if_neg (Ne.symm hi)]
            exact i4 k hk
        · simp at h
      · simp only [Option.some.injEq] at h
        subst h
        have ha := advance_ok (st := rest) (cell := cell) hc (pc := .bits thr cell bit) ⟨k1, k2, k3, k4, k5, k6⟩ k6
        refine ⟨?_, ⟨ha.1, j2⟩, i3, i4⟩
        simp only [running, ha.2, Option.getD]
        exact i1
    | call thr cell bit c =>
      have ha := advance_ok (st := rest) (cell := cell) hc (pc := .call thr cell bit c) ⟨k1, k2, k3, k4, k5, k6⟩ k6
      simp only [frameStep] at h
      split at h
      · simp only [Option.some.injEq] at h
        subst h
        exact ⟨i1, ⟨⟨k1, k2, k3, k4, k5, k6⟩, j2⟩, i3, i4⟩
      · simp only [Option.some.injEq] at h
        subst h
        refine ⟨?_, ⟨ha.1, j2⟩, i3, i4⟩
        simp only [running, ha.2, Option.getD]
        exact i1
    | next =>
      simp only [frameStep, Option.some.injEq] at h
      have sp := findPriority_spec (s.mem 0) r.prev (r.priority - 1) (by omega) (by omega)
      cases hf : findPriority (s.mem 0) r.prev (r.priority - 1) with
      | mk new next =>
        rw [hf] at sp h
        dsimp only at h
        cases new with
        | none =>
          simp only at sp
          subst h
          simp only [sp.1, ↓reduceIte]
          refine ⟨?_, j2, i3, ?_⟩
          · simp only [recorded, upd, ↓reduceIte, Option.getD]
            rw [cur_setPriority (by omega), k2]
          · intro k hk _; exact k1
        | some new =>
          simp only at sp
          obtain ⟨a1, a2, a3, a4, a5, a6⟩ := sp
          have hne : next ≠ r.prev := by omega
          have hne' : next ≠ r.priority := by omega
          subst h
          simp only [hne, hne', ↓reduceIte, ne_eq, not_false_eq_true]
          refine ⟨?_, ⟨⟨k1, k2, a1, ?_, ?_, rfl⟩, j2⟩, i3, fun _ _ _ => k1⟩
          · simp only [recorded, upd, ↓reduceIte, Option.getD, a5, running, Frame.level]
          · simp only; omega
          · rw [rowSize_small k1 hc]; simp only; omega
  | clear thr p =>
    cases p with
    | none =>
      simp only [frameStep, Option.some.injEq] at h
      subst h
      refine ⟨i1, ⟨⟨j1.1, ?_⟩, j2⟩, i3, i4⟩
      intro q hq; rw [← Option.some.inj hq]; exact i3 thr
    | some p =>
      simp only [frameStep] at h
      split at h
      · have hi : cellIdx count thr p ≠ 0 := by rw [cellIdx_eq]; omega
        simp only [Option.some.injEq] at h
        subst h
        refine ⟨?_, j2, i3, ?_⟩
        · simp only [recorded, upd]
          rw [if_neg (Ne.symm hi)]
          exact i1
        · intro k hk
          simp only [upd, if_neg (Ne.symm hi)]
          exact i4 k hk
      · simp at h
  | plain thr c =>
    simp only [frameStep] at h
    split at h
    · simp only [Option.some.injEq] at h
      subst h
      exact ⟨i1, ⟨j1, j2⟩, i3, i4⟩
    · simp only [Option.some.injEq] at h
      subst h
      exact ⟨i1, j2, i3, i4⟩

theorem ret_level (st : List Frame) : running (ret st) = running st := by
  unfold ret; split <;> rfl

theorem ret_ok {count : Nat} {st : List Frame} (h : StackOk count st) : StackOk count (ret st) := by
  unfold ret
  split
  · exact ⟨h.1, h.2⟩
  · exact ⟨h.1, h.2⟩
  · exact h

theorem step_invA {count : Nat} (hc : count ≤ 32) {s s' : State} {a : Act} (i : InvA count s) (h : step count s a = some s') : InvA count s' := by
  cases a <;> simp only [step] at h
  case step =>
    split at h
    · simp only [Option.some.injEq] at h; exact h ▸ i
    · rename_i f rest hst; exact frameStep_invA hc i hst h
  case ret =>
    simp only [Option.some.injEq] at h
    subst h
    exact ⟨by rw [ret_level]; exact i.cur, ret_ok i.ok, i.pr, i.hb⟩
  case setPrio =>
    split at h
    · simp only [Option.some.injEq] at h
      subst h
      refine ⟨i.cur, i.ok, ?_, i.hb⟩
      intro t
      simp only [upd]
      split
      · assumption
      · exact i.pr t
    · simp at h
  all_goals
    simp only [Option.some.injEq] at h
    try split at h
    all_goals subst h
    all_goals first
      | exact i
      | exact ⟨i.cur, ⟨by first | assumption | trivial | exact ⟨by assumption, by simp⟩, i.ok⟩, i.pr, i.hb⟩

/-- No access is out of bounds, and no index overflows. -/
theorem frameStep_some {count : Nat} (hc : count ≤ 32) {s : State} {f : Frame} {rest : List Frame} (i : InvA count s)
    (hst : s.stack = f :: rest) : ∃ s', frameStep count s rest f = some s' := by
  have j1 := i.ok
  rw [hst] at j1
  have j1 := j1.1
  unfold frameStep
  cases f with
  | req thr pc =>
    cases pc with
    | load => exact ⟨_, rfl⟩
    | cell p => simp only [cellIdx_lt j1.1 j1.2, ↓reduceIte]; exact ⟨_, rfl⟩
    | header p => exact ⟨_, rfl⟩
  | start => dsimp only; split <;> exact ⟨_, rfl⟩
  | row r pc =>
    obtain ⟨k1, k2, k3, k4, k5, k6⟩ := j1
    have hp : r.ptr < pendingSize count := by rw [pendingSize_small k1 hc]; omega
    cases pc with
    | load thr =>
      have : thr = 0 := k6
      subst this
      simp only [hp, ↓reduceIte]
      split
      · simp only [colBits, show (0 + 1 <<< 5 < 65536) from by decide, ↓reduceIte]; exact ⟨_, rfl⟩
      · exact ⟨_, rfl⟩
    | bits thr cell bit =>
      simp only [hp, ↓reduceIte]
      split <;> exact ⟨_, rfl⟩
    | call thr cell bit c => dsimp only; split <;> exact ⟨_, rfl⟩
    | next => exact ⟨_, rfl⟩
  | clear thr p =>
    cases p with
    | none => exact ⟨_, rfl⟩
    | some p => simp only [cellIdx_lt j1.1 (j1.2 p rfl), ↓reduceIte]; exact ⟨_, rfl⟩
  | plain thr c => dsimp only; split <;> exact ⟨_, rfl⟩

end Verif.Soft
